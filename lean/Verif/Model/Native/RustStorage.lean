import Verif.Model.Native.Rust
import Verif.Model.Native.CppStorage

/-!
# Model of the Rust writers: `flatdata-rs/lib/src/{storage,vector,multivector,arrayview}.rs` and the generated builders
(`templates/rust/{structure,variadic,index,archive}.jinja2`)

Streams do not fail. Every resource is written by one sequence of calls; sequences for different resources use different files.
`usize` is a natural number (the theorems assume less than `2 ^ 64` bytes). Panics and accesses outside of allocated memory are
`none`, as in `Verif.Native.Basic`. `OStream`, `Files`, `putFile` and `writeSchema` (a stream, a directory, replacing the contents of
a file) are shared with the model of the C++ writers.
-/

namespace Model.Native
open Py Model

/-- storage.rs:401-406 `write_size` (memory.rs:1 `SizeType` is `u64`). -/
def rustStreamSize (s : OStream) (v : Nat) : Option OStream := do
  let data ← rustWrite (.int 64 false) (List.replicate 8 0) 0 64 v
  some (s.write data)

/-- storage.rs:408-411 `write_padding`. -/
def rustStreamPadding (s : OStream) : OStream := s.write (List.replicate 8 0)

/-- storage.rs:287-294 `ResourceHandle`: `stream` and `size_in_bytes`. -/
structure RHandle where
  stream : OStream
  size : Nat

/-- storage.rs:303-323 `try_new`. -/
def RHandle.create (s : OStream) : Option RHandle := do
  let s ← rustStreamSize s 0
  some ⟨s, 0⟩

/-- storage.rs:325-331 `write`. -/
def RHandle.write (h : RHandle) (b : Bytes) : RHandle := ⟨h.stream.write b, h.size + b.length⟩

/-- storage.rs:335-340 `close` with :346-362 `finalize`; the contents of the finished file are returned. (That `close` reads the
resource back is left to the model of the readers.) -/
def RHandle.close (h : RHandle) : Option Bytes := do
  let s := rustStreamPadding h.stream
  let s := s.seekp 0
  let s ← rustStreamSize s h.size
  some s.bytes

/-! ## vector.rs -/

/-- arrayview.rs:39-46 `as_bytes` of a slice with the first `k` elements of `data`; structures with a range (`overlapping`) include
one more element, wherever it comes from. -/
def rustAsBytes (overlapping : Bool) (data : List Bytes) (k : Nat) : Option Bytes :=
  let len := if overlapping then k + 1 else k
  if len ≤ data.length then some (data.take len).flatten else none

/-- vector.rs:110-116 `as_view`: the number of elements of the slice. `data` has always one element more than the vector. -/
def rustViewLen (overlapping : Bool) (data : List Bytes) : Nat :=
  if overlapping then data.length - 2 else data.length - 1

/-- `vector.as_view().as_bytes()`. -/
def rustViewBytes (overlapping : Bool) (data : List Bytes) : Option Bytes :=
  rustAsBytes overlapping data (rustViewLen overlapping data)

/-- vector.rs:89-93 `with_len`, for elements of `n` bytes (templates/rust/structure.jinja2:21-23 `create_unchecked`). :74-76 `new` is
`with_len(0)`. -/
def rustVecNew (n len : Nat) : List Bytes := List.replicate (len + 1) (List.replicate n 0)

/-- The element at position `i` of a vector is changed by its setters; a panic if there is no such element. -/
def rustMutate (i : Nat) (f : Bytes → Option Bytes) (data : List Bytes) : Option (List Bytes) := do
  let e ← data[i]?
  let e ← f e
  some (data.set i e)

/-- vector.rs:121-125 `grow` (`self.len()` is that of :134-137 `deref`), and the setters called on the new element. -/
def rustVecGrow (n : Nat) (f : Bytes → Option Bytes) (data : List Bytes) : Option (List Bytes) :=
  rustMutate (data.length - 1) f (data ++ [List.replicate n 0])

/-- An operation on a `Vector<T>`. -/
inductive RVectorOp where
  /-- `grow`, followed by calls of setters of the new element -/
  | grow (calls : List (String × Int))
  /-- `v[i]` and calls of setters -/
  | mutate (i : Nat) (calls : List (String × Int))
  /-- `clear` -/
  | clear

/-- One operation. `v[i]` is vector.rs:145-151 `deref_mut` (and a slice access) for structures without a range, :170-172 `index_mut`
for those with a range; :80-83 `clear`. -/
def rustVectorOp (overlapping : Bool) (n : Nat) (assign : List (String × Int) → Bytes → Option Bytes) (data : List Bytes) :
    RVectorOp → Option (List Bytes)
  | .grow calls => rustVecGrow n (assign calls) data
  | .mutate i calls => if overlapping || i < data.length - 1 then rustMutate i (assign calls) data else none
  | .clear => some [List.replicate n 0]

/-- A number of operations. -/
def rustVectorOps (overlapping : Bool) (n : Nat) (assign : List (String × Int) → Bytes → Option Bytes) :
    List Bytes → List RVectorOp → Option (List Bytes)
  | data, [] => some data
  | data, op :: ops => do
    let data ← rustVectorOp overlapping n assign data op
    rustVectorOps overlapping n assign data ops

/-- vector.rs:248-256 `ExternalVector`: `data`, `len` and `resource_handle`. -/
structure RExt where
  data : List Bytes
  len : Nat
  handle : RHandle

/-- vector.rs:262-268 `new`. -/
def RExt.create (n : Nat) (h : RHandle) : RExt := ⟨rustVecNew n 0, 0, h⟩

/-- vector.rs:296-302 `flush`. -/
def RExt.flush (overlapping : Bool) (n : Nat) (v : RExt) : Option RExt := do
  let b ← rustViewBytes overlapping v.data
  some { v with handle := v.handle.write b, data := [List.replicate n 0] }

/-- vector.rs:287-293 `grow`, and the setters called on the new element. `limit` is `1024 * 1024 * 32` in the code. -/
def RExt.add (limit : Nat) (overlapping : Bool) (n : Nat) (f : Bytes → Option Bytes) (v : RExt) : Option RExt := do
  let b ← rustViewBytes overlapping v.data
  let v ← if b.length > limit then v.flush overlapping n else some v
  let data ← rustVecGrow n f v.data
  some { v with data := data, len := v.len + 1 }

/-- Add several elements. -/
def RExt.addAll (limit : Nat) (overlapping : Bool) (n : Nat) : List (Bytes → Option Bytes) → RExt → Option RExt
  | [], v => some v
  | f :: fs, v => do
    let v ← v.add limit overlapping n f
    RExt.addAll limit overlapping n fs v

/-- vector.rs:308-317 `close`; the contents of the finished file are returned. (`self.data.len()` is that of :134-137 `deref`.) -/
def RExt.close (overlapping : Bool) (n : Nat) (v : RExt) : Option Bytes := do
  let v ← if v.data.length - 1 > 0 ∨ v.len = 0 then v.flush overlapping n else some v
  v.handle.close

/-! ## multivector.rs -/

/-- multivector.rs:97-106 `MultiVector`: `index`, `data`, `data_handle` and `size_flushed`. -/
structure RMulti where
  index : RExt
  data : Bytes
  handle : RHandle
  flushed : Nat

/-- multivector.rs:113-121 `new`. -/
def RMulti.create (index : RExt) (handle : RHandle) : RMulti := ⟨index, [], handle, 0⟩

/-- multivector.rs:144-149 `flush`. -/
def RMulti.flush (m : RMulti) : RMulti :=
  { m with handle := m.handle.write m.data, flushed := m.flushed + m.data.length, data := [] }

/-- multivector.rs:151-155 `add_to_index`; index.jinja2:15-18 `set_index`. The index type is a structure with a range and the single field
`value : u64 : w`. -/
def RMulti.addToIndex (limit w : Nat) (m : RMulti) : Option RMulti := do
  let index ← m.index.add limit true ((w + 7) / 8) fun d => rustWrite (.int 64 false) d 0 w ((m.flushed + m.data.length : Nat) : Int)
  some { m with index := index }

/-- multivector.rs:133-139 `grow`. -/
def RMulti.grow (limit w : Nat) (m : RMulti) : Option RMulti :=
  let m := if m.data.length > limit then m.flush else m
  m.addToIndex limit w

/-- variadic.jinja2:55-62 `add_...` of the bucket builder for the type with number `index` and `n` bytes, and the setters called on the
new element (structure.jinja2:60-69 `from_bytes_slice_mut`: it sees `n` bytes of the slice). -/
def RMulti.add (index n : Nat) (f : Bytes → Option Bytes) (m : RMulti) : Option RMulti := do
  let oldLen := m.data.length
  let data := m.data ++ List.replicate (1 + n) 0
  let data := data.set oldLen (UInt8.ofNat index)
  let e ← f ((data.drop (1 + oldLen)).take n)
  some { m with data := data.take (1 + oldLen) ++ e ++ data.drop (1 + oldLen + n) }

/-- Fill one bucket. Every element is given by type number, size and assignments. -/
def RMulti.addBucket : List (Nat × Nat × (Bytes → Option Bytes)) → RMulti → Option RMulti
  | [], m => some m
  | (j, n, f) :: es, m => do
    let m ← m.add j n f
    RMulti.addBucket es m

/-- Add several buckets. -/
def RMulti.addAll (limit w : Nat) : List (List (Nat × Nat × (Bytes → Option Bytes))) → RMulti → Option RMulti
  | [], m => some m
  | b :: bs, m => do
    let m ← m.grow limit w
    let m ← m.addBucket b
    RMulti.addAll limit w bs m

/-- multivector.rs:161-169 `close`; the contents of the data file and of the index file are returned. -/
def RMulti.close (limit w : Nat) (m : RMulti) : Option (Bytes × Bytes) := do
  let m ← m.addToIndex limit w
  let m := m.flush
  let index ← m.index.close true ((w + 7) / 8)
  let data ← m.handle.close
  some (data, index)

/-! ## storage.rs -/

/-- storage.rs:43-51 `write` with :391-399 `write_to_stream`, `write_schema`. -/
def rustSet (f : Files) (name schema : String) (data : Bytes) : Option Files := do
  let s ← rustStreamSize .opened data.length
  let s := s.write data
  let s := rustStreamPadding s
  some (writeSchema (putFile f name s.bytes) name schema)

/-- storage.rs:195-213 `create_external_vector`, then a number of elements of `n` bytes are added, then `close`. -/
def rustExternalVector (limit : Nat) (overlapping : Bool) (f : Files) (name schema : String) (n : Nat)
    (elems : List (Bytes → Option Bytes)) : Option Files := do
  let f := writeSchema f name schema
  let h ← RHandle.create .opened
  let v ← (RExt.create n h).addAll limit overlapping n elems
  let b ← v.close overlapping n
  some (putFile f name b)

/-- storage.rs:221-244 `create_multi_vector`, then a number of buckets are added, then `close`. -/
def rustMultiVector (limit : Nat) (f : Files) (name schema : String) (w : Nat)
    (buckets : List (List (Nat × Nat × (Bytes → Option Bytes)))) : Option Files := do
  let f := writeSchema f (name ++ "_index") ("index(" ++ schema ++ ")")
  let ih ← RHandle.create .opened
  let f := writeSchema f name schema
  let h ← RHandle.create .opened
  let m ← (RMulti.create (RExt.create ((w + 7) / 8) ih) h).addAll limit w buckets
  let (b, ib) ← m.close limit w
  some (putFile (putFile f name b) (name ++ "_index") ib)

/-- storage.rs:258-280 `create_archive`: `none` if the signature file exists. -/
def rustCreateArchive (f : Files) (name schema : String) : Option Files :=
  if (f (name ++ ".archive")).isSome then none else rustSet f (name ++ ".archive") schema []

/-- Calls of the setters of a generated structure (templates/rust/structure.jinja2:160-163); `ty` gives the Rust types of the fields. -/
def rustAssign (ty : String → RustType) (fs : List FieldDecl) (calls : List (String × Int)) (d : Bytes) : Option Bytes :=
  assignAll (fun n => rustWrite (ty n)) (layoutFrom 0 fs) d calls

/-- One call of `add_...` of a bucket builder with calls of setters, as `RMulti.add` takes it: number of the type (variadic.jinja2:59,
`loop.index0`), size of the structure, setters. -/
def rustElement (decls : List (String × List FieldDecl)) (ty : String → String → RustType) (e : String × List (String × Int)) :
    Nat × Nat × (Bytes → Option Bytes) :=
  let fs := (decls.lookup e.1).getD []
  ((decls.map (·.1)).idxOf e.1, ((fs.map (·.width)).sum + 7) / 8, rustAssign (ty e.1) fs e.2)

end Model.Native
