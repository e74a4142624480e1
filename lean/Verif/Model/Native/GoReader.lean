import Verif.Model.Native.Go
import Verif.Model.Native.RustReader

/-!
# Model of the generated Go readers: `templates/go/{structure,vector,instance,rawdata,multivector,archive}.jinja2` and
`flatdata-go/flatdata/resource.go`

The memory of a resource is the whole file: the size of the payload comes first, positions of structures are counted from there. `none`
is a panic (an index outside of the file, a negative length).  `int` and `uint` have 64 bits.
-/

namespace Model.Native
open Py Model _root_.Native

/-- `ReadAt` of `golang.org/x/exp/mmap` (the same as test_memory_descriptor.go:20-29): `len` bytes from `off` on; `none` is an error. -/
def goReadAt (d : Bytes) (len off : Nat) : Option Bytes := if off + len ≤ d.length then some ((d.drop off).take len) else none

/-- The argument of `Read` in an accessor, structure.jinja2:15: `(uint(v.position)*8)+elementOffset`. -/
def goBits (position : Int) (offset : Nat) : Nat := ((position * 8 + offset) % 2 ^ 64).toNat

/-- structure.jinja2:9-21, the accessor of a field: `ty` are the types of the fields. -/
def goField (ty : String → GoType) (fs : List FieldDecl) (d : Bytes) (position : Int) (name : String) : Option Int := do
  let g ← (layoutFrom 0 fs).lookup name
  goGet (ty name) d (goBits position g.offset) g.width

/-- rawdata.jinja2:17-24 `GetSize` (vector.jinja2:17-22 begins in the same way): the size in the file, as an `int`. -/
def goSize (d : Bytes) : Int :=
  match goReadAt d 8 0 with
  | none => 0
  | some b => (BitVec.ofNat 64 (fromLE b)).toInt

/-- rawdata.jinja2:8-15 `GetValue`. `make` panics for negative lengths. (It also does for lengths that are too large for the memory,
which is not modelled; `ReadAt` fails for those that are too large for the file.) -/
def goRawValue (d : Bytes) : Option Bytes :=
  if goSize d < 0 then none
  else match goReadAt d (goSize d).toNat 8 with
    | none => some []
    | some b => some b

/-- vector.jinja2:16-24 `GetSize` for structures of `n` bytes; division truncates. -/
def goVectorSize (n : Nat) (d : Bytes) : Int := (goSize d).tdiv n

/-- vector.jinja2:9-14 `Get`: the position of the structure. (An overflow of the position is not modelled; only its residue modulo 2^61
is used, by `goBits`.) -/
def goVectorGet (n : Nat) (i : Int) : Int := i * n + 8

/-- vector.jinja2:26-37 `GetSlice`: positions of structures. The first argument bounds the number of iterations; `none`: the loop does not
end. -/
def goSliceLoop (n : Nat) (stop step : Int) : Nat → Int → Option (List Int)
  | 0, start => if start ≤ stop then none else some []
  | fuel + 1, start =>
    if start ≤ stop then (goSliceLoop n stop step fuel (start + step)).map fun l => goVectorGet n start :: l else some []

/-- vector.jinja2:26-37 `GetSlice(start, end, step)`. With a step of at least 1 there are at most `end - start + 1` iterations; otherwise the
loop does not end, if it begins. -/
def goVectorSlice (n : Nat) (start stop step : Int) : Option (List Int) :=
  if step ≤ 0 then (if start ≤ stop then none else some []) else goSliceLoop n stop step (stop - start + 1).toNat start

/-- instance.jinja2:8-13 `Get`: the position of the structure. -/
def goInstanceGet : Int := 8

/-- A multivector object: multivector.jinja2:5-11. `types` has one structure object for every type (archive.jinja2:161-167); all of them
are on `data`; `position t` is the position of the one for type number `t`. -/
structure GoMulti where
  data : Bytes
  index : Bytes
  position : Nat → Int

/-- archive.jinja2:154-167: a new multivector object. -/
def goMultiNew (data index : Bytes) : GoMulti := ⟨data, index, fun _ => 0⟩

/-- multivector.jinja2:18-20 `GetSize`. -/
def GoMulti.size (m : GoMulti) (w : Nat) : Int := goVectorSize ((w + 7) / 8) m.index

/-- multivector.jinja2:26-31 `getBucketOffset`: index entries have a field of `w` bits of type `uint64`. -/
def GoMulti.bucketOffset (m : GoMulti) (w : Nat) (i : Int) : Option Int :=
  if i = m.size w then some ((m.data.length : Int) - 8)
  else do
    let v ← goGet (.int 64 false) m.index (goBits (goVectorGet ((w + 7) / 8) i) 0) w
    some ((BitVec.ofInt 64 v).toInt + 8)

/-- multivector.jinja2:38-60, the loop of `Get`; `sizes` are the sizes of the types. An element of the result is the object of its type: its
type number. Unknown types are skipped: only the byte with their number. Every iteration advances by one byte at least. -/
def goBucketLoop (sizes : List Nat) (data : Bytes) (stop : Int) : Nat → Int → (Nat → Int) → Option (List Nat × (Nat → Int))
  | 0, offset, position => if offset < stop then none else some ([], position)
  | fuel + 1, offset, position =>
    if offset < stop then do
      let type ← goRead data (goBits offset 0) 8 false
      match sizes[type.toNat]? with
      | some size => do
        let r ← goBucketLoop sizes data stop fuel (offset + 1 + size) (fun t => if t = type.toNat then offset + 1 else position t)
        some (type.toNat :: r.1, r.2)
      | none => goBucketLoop sizes data stop fuel (offset + 1) position
    else some ([], position)

/-- multivector.jinja2:33-63 `Get`: the elements, and the multivector object afterwards. -/
def GoMulti.get (m : GoMulti) (w : Nat) (sizes : List Nat) (i : Int) : Option (List Nat × GoMulti) := do
  let offset ← m.bucketOffset w i
  let nextOffset ← m.bucketOffset w (i + 1)
  let r ← goBucketLoop sizes m.data nextOffset (nextOffset - offset).toNat offset m.position
  some (r.1, { m with position := r.2 })

/-! ## Archives -/

/-- resource.go:19-28: what `open` fails with. -/
inductive GoErr where
  | invalidResource | cantAccess | cantOpenSchema | schemaEmpty | schemaDidntMatch
  deriving DecidableEq, Repr

/-- resource.go:49-69 `GetMemoryDescriptor`: the file and its schema. -/
def goMemoryDescriptor (f : Files) (name : String) : Except GoErr (Bytes × Bytes) :=
  match f name with
  | none => .error .cantAccess
  | some d =>
    if d.length < 8 + 8 then .error .invalidResource
    else
      match f (name ++ ".schema") with
      | none => .error .cantOpenSchema
      | some s => if s.length = 0 then .error .schemaEmpty else .ok (d, s)

/-- What the members of the archive object hold: the memory, if `IsOpen`; for archives `IsOpen` and their members. -/
inductive GoOpened where
  | data (d : Option Bytes)
  | multivector (m : Option GoMulti)
  | archive (isOpen : Bool) (resources : List (String × GoOpened))

/-- archive.jinja2:115-123, :125-133: a missing file is no error. -/
def goTry (f : Files) (name : String) : Except GoErr (Option (Bytes × Bytes)) :=
  match goMemoryDescriptor f name with
  | .ok x => .ok (some x)
  | .error .cantAccess => .ok none
  | .error e => .error e

/-- archive.jinja2:114-123, :135-141: resources with one file. -/
def goOpenData (f : Files) (name schema : String) : Except GoErr GoOpened :=
  match goTry f name with
  | .error e => .error e
  | .ok none => .ok (.data none)
  | .ok (some (d, s)) => if encodeUtf8 schema ≠ s then .error .schemaDidntMatch else .ok (.data (some d))

/-- archive.jinja2:114-141: multivectors. -/
def goOpenMulti (f : Files) (name schema : String) : Except GoErr GoOpened :=
  match goTry f name with
  | .error e => .error e
  | .ok x =>
    match goTry f (name ++ "_index") with
    | .error e => .error e
    | .ok y =>
      match x, y with
      | some (d, s), some (i, _) =>
        if encodeUtf8 schema ≠ s then .error .schemaDidntMatch else .ok (.multivector (some (goMultiNew d i)))
      | _, _ => .ok (.multivector none)

mutual
/-- archive.jinja2:97-175 `Open...Archive`: the resources one after the other; the first error ends it. There is no check of the
signature. -/
def goOpen (f : Files) : List RustResource → Except GoErr (List (String × GoOpened))
  | [] => .ok []
  | r :: rs =>
    match goOpenResource f r with
    | .error e => .error e
    | .ok x =>
      match goOpen f rs with
      | .error e => .error e
      | .ok l => .ok (x :: l)

/-- archive.jinja2:100-143: one resource. The function that opens an archive resource is named after the resource, not after its type; the
generated code is correct Go only if both names agree (modulo `to_go_case`), which is assumed here. The directory is the name of the
resource in lower case. -/
def goOpenResource (f : Files) : RustResource → Except GoErr (String × GoOpened)
  | .vector name schema _ _ _ _ => (goOpenData f name schema).map fun x => (name, x)
  | .instance name schema _ _ _ => (goOpenData f name schema).map fun x => (name, x)
  | .rawData name schema _ _ => (goOpenData f name schema).map fun x => (name, x)
  | .multivector name schema _ _ _ => (goOpenMulti f name schema).map fun x => (name, x)
  | .archive name _ _ _ _ resources =>
    match goOpen (subdir f name.toLower) resources with
    | .error .cantAccess => .ok (name, .archive false [])
    | .error e => .error e
    | .ok l => .ok (name, .archive true l)
end

end Model.Native
