import Verif.Model.Native.RustStorage

/-!
# Model of the Rust readers: `flatdata-rs/lib/src/{storage,arrayview,multiarrayview,rawdata,filestorage}.rs` and the generated code
(`templates/rust/{structure,variadic,index,archive}.jinja2`)

A panic (or an access outside of the memory of the resource) is `none` or, for functions that return a `Result`, `RResult.panic`. A
reference into a resource is the list of the bytes from there to the end of the resource: not even the padding is readable.
-/

namespace Model.Native
open Py Model _root_.Native

/-- error.rs:10-47 `ResourceStorageError`, without the texts. -/
inductive RErr where
  | io
  | utf8
  | missingData
  | wrongSignature
  | unexpectedDataSize
  | tooBig (size : Nat)
  | missing
  deriving DecidableEq, Repr

/-- The outcome of a Rust function that returns `Result<T, ResourceStorageError>`. -/
inductive RResult (α : Type) where
  | ok (a : α)
  | error (e : RErr)
  | panic

/-- `Result::and_then` and the operator `?`. -/
def RResult.andThen {α β : Type} (x : RResult α) (f : α → RResult β) : RResult β :=
  match x with
  | .ok a => f a
  | .error e => .error e
  | .panic => .panic

/-- storage.rs:90-130 `read_and_check_schema` on a directory (filestorage.rs:80-96 `read_resource`: a file that does not exist is
`NotFound`; other failures are not modelled). The addition in line 116 is done in `usize` of 64 bits and wraps around (with debug
assertions it panics instead). -/
def rustReadAndCheck (f : Files) (name schema : String) : RResult Bytes :=
  match f name with
  | none => .error .missing
  | some data =>
    match f (name ++ ".schema") with
    | none => .error .io
    | some stored =>
      if data.length < 8 + 8 then .error .unexpectedDataSize
      else
        match rustRead (.int 64 false) data 0 64 with
        | none => .panic
        | some size =>
        if (size.toNat + 8 + 8) % 2 ^ 64 ≠ data.length then .error .unexpectedDataSize
        else
          match decodeUtf8 stored with
          | .error _ => .error .utf8
          | .ok s =>
            if s ≠ schema then .error .wrongSignature
            else if (data.drop 8).length < size.toNat then .panic
            else .ok ((data.drop 8).take size.toNat)

/-- A slice of structures: where it begins, and the number of elements. -/
structure RustSlice where
  mem : Bytes
  len : Nat

/-- arrayview.rs:21-37 `from_bytes`, for structures of `n` bytes. -/
def rustFromBytes (overlapping : Bool) (n : Nat) (data : Bytes) : RResult RustSlice :=
  if n = 0 then .panic
  else if data.length % n ≠ 0 then .error .unexpectedDataSize
  else if overlapping then
    if data.length < n then .error .unexpectedDataSize else .ok ⟨data, (data.length - n) / n⟩
  else .ok ⟨data, data.length / n⟩

/-- `slice[i]`: panics outside of the slice. -/
def RustSlice.at (v : RustSlice) (n i : Nat) : Option Bytes := if i < v.len then some (v.mem.drop (n * i)) else none

/-- structure.jinja2:49-58 `from_bytes_slice`: too short data fail the assertion. -/
def rustFromBytesSlice (n : Nat) (data : Bytes) : RResult Bytes := if data.length < n then .panic else .ok data

/-- structure.jinja2:94-103, a getter of a generated structure (fields without an invalid value). -/
def rustGet (ty : String → RustType) (fs : List FieldDecl) (mem : Bytes) (name : String) : Option Int := do
  let g ← (layoutFrom 0 fs).lookup name
  rustRead (ty name) mem g.offset g.width

/-- structure.jinja2:110-120, the getter of a range in a structure of `n` bytes. -/
def rustRange (ty : RustType) (mem : Bytes) (offset w n : Nat) : Option (Int × Int) := do
  let a ← rustRead ty mem offset w
  let b ← rustRead ty mem (offset + n * 8) w
  some (a, b)

/-- multiarrayview.rs:11-17 `MultiArrayView`. -/
structure RustMulti where
  index : RustSlice
  data : Bytes

/-- multiarrayview.rs:58-64 `at` (index.jinja2:9-13 `range`): the bytes of a bucket. `w` is the width of the index. -/
def RustMulti.at (m : RustMulti) (w i : Nat) : Option Bytes := do
  let e ← m.index.at ((w + 7) / 8) i
  let (a, b) ← rustRange (.int 64 false) e 0 w ((w + 7) / 8)
  if b.toNat < a.toNat ∨ m.data.length < b.toNat then none else some ((m.data.take b.toNat).drop a.toNat)

/-- multiarrayview.rs:71-76 `slice` with the range `a..b`. -/
def RustMulti.slice (m : RustMulti) (w a b : Nat) : Option RustMulti :=
  if a ≤ b ∧ b ≤ m.index.len then some { m with index := ⟨m.index.mem.drop ((w + 7) / 8 * a), b - a⟩ } else none

/-- multiarrayview.rs:101-111 `next` of the iterator through a bucket (variadic.jinja2:94-103 `create`): type number and memory of the
element, and the rest of the bucket; `some none` at the end. `sizes` are the sizes of the types. -/
def rustItemNext (sizes : List Nat) (data : Bytes) : Option (Option ((Nat × Bytes) × Bytes)) :=
  match data with
  | [] => some none
  | type :: data => do
    let n ← sizes[type.toNat]?
    if data.length < n then none else some (some ((type.toNat, data), data.drop n))

/-- `for x in bucket`: the first argument bounds the number of steps; every step consumes at least one byte. -/
def rustItems (sizes : List Nat) : Nat → Bytes → Option (List (Nat × Bytes))
  | 0, data => if data = [] then some [] else none
  | fuel + 1, data => do
    match ← rustItemNext sizes data with
    | none => some []
    | some (e, rest) => do
      let l ← rustItems sizes fuel rest
      some (e :: l)

/-- multiarrayview.rs:211-219 `next` of the iterator through a multivector: the bytes of the bucket, and the new state. -/
def RustMulti.next (w : Nat) (m : RustMulti) : Option (Option Bytes × RustMulti) :=
  if m.index.len ≠ 0 then do
    let e ← m.at w 0
    let m ← m.slice w 1 m.index.len
    some (some e, m)
  else some (none, m)

/-- multiarrayview.rs:226-235 `next_back`. -/
def RustMulti.nextBack (w : Nat) (m : RustMulti) : Option (Option Bytes × RustMulti) :=
  if m.index.len ≠ 0 then do
    let last := m.index.len - 1
    let e ← m.at w last
    let m ← m.slice w 0 last
    some (some e, m)
  else some (none, m)

/-- Calls of `next` (`true`) and `next_back` (`false`): their results. -/
def RustMulti.run (w : Nat) : List Bool → RustMulti → Option (List (Option Bytes))
  | [], _ => some []
  | c :: cs, m => do
    let (e, m) ← if c then m.next w else m.nextBack w
    let l ← RustMulti.run w cs m
    some (e :: l)

/-- rawdata.rs:54-60 `substring_with` on the bytes of raw data. -/
def rustSubstring (data : Bytes) (start : Nat) : Option Bytes :=
  if data.length < start then none else some ((data.drop start).takeWhile (· ≠ 0))

/-! ## Archives -/

/-- A resource of an archive, as far as `open` uses it. -/
inductive RustResource where
  | vector (name schema : String) (optional : Bool) (maxSize : Option Nat) (overlapping : Bool) (n : Nat)
  | instance (name schema : String) (optional : Bool) (maxSize : Option Nat) (n : Nat)
  | rawData (name schema : String) (optional : Bool) (maxSize : Option Nat)
  | multivector (name schema : String) (optional : Bool) (maxSize : Option Nat) (w : Nat)
  | archive (name : String) (optional : Bool) (maxSize : Option Nat) (archiveName archiveSchema : String) (resources : List RustResource)

/-- What `open` stores for a resource. -/
inductive RustOpened where
  | vector (v : RustSlice)
  | instance (mem : Bytes)
  | rawData (b : Bytes)
  | multivector (m : RustMulti)
  | archive (resources : List (String × Option RustOpened))

/-- storage.rs:139-161 `check_optional_resource` and :163-184 `check_resource`, one of which is used (archive.jinja2:127). -/
def rustCheck {α : Type} (optional : Bool) (size : α → Nat) (maxSize : Option Nat) (x : RResult α) : RResult (Option α) :=
  match x with
  | .panic => .panic
  | .error .missing => if optional then .ok none else .error .missingData
  | .error e => .error e
  | .ok a =>
    match maxSize with
    | none => .ok (some a)
    | some limit => if size a > limit then .error (.tooBig (size a)) else .ok (some a)

/-- archive.jinja2:142-158: the two files of a multivector. -/
def rustOpenMulti (f : Files) (name schema : String) (w : Nat) : RResult RustMulti :=
  match rustReadAndCheck f (name ++ "_index") ("index(" ++ schema ++ ")"), rustReadAndCheck f name schema with
  | .panic, _ => .panic
  | _, .panic => .panic
  | .ok index, .ok data => (rustFromBytes true ((w + 7) / 8) index).andThen fun v => .ok ⟨v, data⟩
  | .error .missing, .error .missing => .error .missing
  | .ok _, .error .missing => .error .missingData
  | .error .missing, .ok _ => .error .missingData
  | .error .missing, .error x => .error x
  | .error x, .error .missing => .error x
  | _, .error x => .error x
  | .error x, .ok _ => .error x

/-- filestorage.rs:72-74 `subdir`: the files of a subdirectory. -/
def subdir (f : Files) (dir : String) : Files := fun n => f (dir ++ "/" ++ n)

mutual
/-- archive.jinja2:110-176 `open`: the signature, then the resources one after the other; the first error ends it. -/
def rustOpen (f : Files) (archiveName schema : String) (resources : List RustResource) : RResult (List (String × Option RustOpened)) :=
  RResult.andThen (rustReadAndCheck f (archiveName ++ ".archive") schema) fun _ => rustOpenAll f resources

/-- The resources. -/
def rustOpenAll (f : Files) : List RustResource → RResult (List (String × Option RustOpened))
  | [] => .ok []
  | r :: rs => RResult.andThen (rustOpenResource f r) fun x => RResult.andThen (rustOpenAll f rs) fun l => .ok (x :: l)

/-- archive.jinja2:125-164: one resource. -/
def rustOpenResource (f : Files) : RustResource → RResult (String × Option RustOpened)
  | .vector name schema optional maxSize overlapping n =>
    RResult.andThen (rustCheck optional RustSlice.len maxSize
      ((rustReadAndCheck f name schema).andThen (rustFromBytes overlapping n))) fun x => .ok (name, x.map .vector)
  | .instance name schema optional maxSize n =>
    RResult.andThen (rustCheck optional (fun _ => 0) maxSize
      (RResult.andThen (rustReadAndCheck f name schema) (rustFromBytesSlice n))) fun x => .ok (name, x.map .instance)
  | .rawData name schema optional maxSize =>
    RResult.andThen (rustCheck optional List.length maxSize (rustReadAndCheck f name schema)) fun x => .ok (name, x.map .rawData)
  | .multivector name schema optional maxSize w =>
    RResult.andThen (rustCheck optional (fun m : RustMulti => m.index.len) maxSize (rustOpenMulti f name schema w)) fun x =>
      .ok (name, x.map .multivector)
  | .archive name optional maxSize archiveName archiveSchema resources =>
    RResult.andThen (rustCheck optional (fun _ => 0) maxSize (rustOpen (subdir f name) archiveName archiveSchema resources)) fun x =>
      .ok (name, x.map .archive)
end

end Model.Native
