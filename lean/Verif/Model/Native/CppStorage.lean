import Verif.Model.Native.Cpp
import Verif.Model.Native.Assign
import Verif.Model.Builder

/-!
# Model of the C++ writers: `flatdata-cpp/include/flatdata/{ExternalVector,MultiVector,Vector,Struct}.h`,
`internal/{ResourceHandle,ResourceStorageCommon}.h`, `internal/ResourceStorage.inl`, `src/{ResourceStorage,ArchiveBuilder}.cpp`

Streams do not fail. Every resource is written by one sequence of calls; sequences for different resources use different files,
so their interleaving is not modelled. `size_t` and `uint64_t` counters are natural numbers (the theorems assume less than `2 ^ 64`
bytes). Memory accesses outside of a buffer are `none`, as in `Verif.Native.Basic`.
-/

namespace Model.Native
open Py Model

/-- `PADDING_SIZE`, internal/Constants.h:12. -/
def paddingSize : Nat := 8

/-- A `std::ofstream` opened with `out | binary` (FileResourceStorage.h:103-108: the file is created or truncated): the contents of
the file and the write position. -/
structure OStream where
  bytes : Bytes
  pos : Nat

/-- A stream just opened. -/
def OStream.opened : OStream := ⟨[], 0⟩

/-- `stream.write( data, size )`. -/
def OStream.write (s : OStream) (b : Bytes) : OStream :=
  ⟨s.bytes.take s.pos ++ b ++ s.bytes.drop (s.pos + b.length), s.pos + b.length⟩

/-- `stream.seekp( p )`. -/
def OStream.seekp (s : OStream) (p : Nat) : OStream := ⟨s.bytes, p⟩

/-- ResourceStorageCommon.h:20-28 `write_to_stream` for `T = size_type` (`uint64_t`, :18) or `size_t`. -/
def streamSize (s : OStream) (v : Nat) : Option OStream := do
  let data ← cppWrite (.int 64 false) (List.replicate 8 0) 0 64 v
  some (s.write data)

/-- ResourceStorageCommon.h:30-35 `write_padding`. -/
def streamPadding (s : OStream) : OStream := s.write (List.replicate paddingSize 0)

/-! ## ResourceHandle.h -/

/-- `ResourceHandle`: `m_stream` and `m_size_in_bytes`. The `m_resource_reader`, which reads the finished resource back, is not
part of the model of the writer (see `CppReader`). -/
structure Handle where
  stream : OStream
  size : Nat

/-- ResourceHandle.h:48-63 `create`. -/
def Handle.create (s : OStream) : Option Handle := do
  let s ← streamSize s 0
  some ⟨s, 0⟩

/-- ResourceHandle.h:40-46 `write`. -/
def Handle.write (h : Handle) (b : Bytes) : Handle := ⟨h.stream.write b, h.size + b.length⟩

/-- ResourceHandle.h:65-86 `close`; the contents of the finished file are returned. -/
def Handle.close (h : Handle) : Option Bytes := do
  let s := streamPadding h.stream
  let s := s.seekp 0
  let s ← streamSize s h.size
  some s.bytes

/-! ## ExternalVector.h -/

/-- `ExternalVector`: `m_data`, `m_array` and `m_size`. -/
structure ExtVec where
  data : Bytes
  array : Handle
  size : Nat

/-- ExternalVector.h:61-66, the constructor. -/
def ExtVec.create (h : Handle) : ExtVec := ⟨List.replicate paddingSize 0, h, 0⟩

/-- ExternalVector.h:96-103 `flush`. -/
def ExtVec.flush (v : ExtVec) : ExtVec :=
  { v with array := v.array.write (v.data.take (v.data.length - paddingSize)), data := List.replicate paddingSize 0 }

/-- ExternalVector.h:82-94 `grow` for elements of `n` bytes; besides the vector the position of the new element in `m_data` is
returned. `limit` is `1024 * 1024 * 32` in the code. -/
def ExtVec.grow (limit n : Nat) (v : ExtVec) : ExtVec × Nat :=
  let v := if v.data.length > limit then v.flush else v
  ({ v with data := v.data ++ List.replicate n 0, size := v.size + 1 }, v.data.length - paddingSize)

/-- What the holder of a mutator at position `p` of a buffer does to it: he sees the bytes from `p` on. (Only the mutator of the last
element is used: growing the vector may move the buffer and leaves older mutators dangling.) -/
def mutateAt (p : Nat) (f : Bytes → Option Bytes) (d : Bytes) : Option Bytes := do
  let t ← f (d.drop p)
  some (d.take p ++ t)

/-- Grow the vector by one element and assign to it. -/
def ExtVec.add (limit n : Nat) (f : Bytes → Option Bytes) (v : ExtVec) : Option ExtVec := do
  let (v, p) := v.grow limit n
  let data ← mutateAt p f v.data
  some { v with data := data }

/-- Add several elements. -/
def ExtVec.addAll (limit n : Nat) : List (Bytes → Option Bytes) → ExtVec → Option ExtVec
  | [], v => some v
  | f :: fs, v => do
    let v ← v.add limit n f
    ExtVec.addAll limit n fs v

/-- ExternalVector.h:105-113 `close`; the contents of the finished file are returned. -/
def ExtVec.close (v : ExtVec) : Option Bytes := v.flush.array.close

/-! ## MultiVector.h -/

/-- `MultiVector`: `m_data`, `m_index`, `m_handle` and `m_size_flushed`. -/
structure MultiVec where
  data : Bytes
  index : ExtVec
  handle : Handle
  flushed : Nat

/-- MultiVector.h:116-123, the constructor. -/
def MultiVec.create (index : ExtVec) (handle : Handle) : MultiVec := ⟨List.replicate paddingSize 0, index, handle, 0⟩

/-- MultiVector.h:162-170 `flush`. -/
def MultiVec.flush (m : MultiVec) : MultiVec :=
  { m with
    handle := m.handle.write (m.data.take (m.data.length - paddingSize))
    flushed := m.flushed + (m.data.length - paddingSize)
    data := List.replicate paddingSize 0 }

/-- MultiVector.h:155-160 `add_to_index`. The index type is a structure with a single field `value` of `w` bits and C++ type
`uint64_t` (generator tree/builder.py `_builtin.multivector`). -/
def MultiVec.addToIndex (limit w : Nat) (m : MultiVec) : Option MultiVec := do
  let index ← m.index.add limit ((w + 7) / 8) fun d =>
    cppWrite (.int 64 false) d 0 w ((m.flushed + m.data.length - paddingSize : Nat) : Int)
  some { m with index := index }

/-- MultiVector.h:125-136 `grow`. -/
def MultiVec.grow (limit w : Nat) (m : MultiVec) : Option MultiVec :=
  let m := if m.data.length > limit then m.flush else m
  m.addToIndex limit w

/-- MultiVector.h:99-114 `ListBuilder::add` for the type with number `index` and `n` bytes, and the assignments to the new element. -/
def MultiVec.add (index n : Nat) (f : Bytes → Option Bytes) (m : MultiVec) : Option MultiVec := do
  let oldSize := m.data.length
  let data := m.data ++ List.replicate (1 + n) 0
  let data := data.set (oldSize - paddingSize) (UInt8.ofNat index)
  let data ← mutateAt (1 + oldSize - paddingSize) f data
  some { m with data := data }

/-- Fill one bucket. Every element is given by type number, size and assignments. -/
def MultiVec.addBucket : List (Nat × Nat × (Bytes → Option Bytes)) → MultiVec → Option MultiVec
  | [], m => some m
  | (j, n, f) :: es, m => do
    let m ← m.add j n f
    MultiVec.addBucket es m

/-- Add several buckets. -/
def MultiVec.addAll (limit w : Nat) : List (List (Nat × Nat × (Bytes → Option Bytes))) → MultiVec → Option MultiVec
  | [], m => some m
  | b :: bs, m => do
    let m ← m.grow limit w
    let m ← m.addBucket b
    MultiVec.addAll limit w bs m

/-- MultiVector.h:138-153 `close`; the contents of the data file and of the index file are returned. -/
def MultiVec.close (limit w : Nat) (m : MultiVec) : Option (Bytes × Bytes) := do
  let m ← m.addToIndex limit w
  let m := m.flush
  let data ← m.handle.close
  let index ← m.index.close
  some (data, index)

/-! ## ResourceStorage -/

/-- The file `name` gets new contents. -/
def putFile (f : Files) (name : String) (b : Bytes) : Files := fun n => if n = name then some b else f n

/-- ResourceStorage.inl:132-140 `write_schema`. (Schemas contain no NUL characters.) -/
def writeSchema (f : Files) (name schema : String) : Files := putFile f (name ++ ".schema") (encodeUtf8 schema)

/-- ResourceStorage.cpp:13-26 `write_to_stream` (and ResourceStorage.inl:176-181 `write`) with the data that is passed. -/
def cppSet (f : Files) (name schema : String) (data : Bytes) : Option Files := do
  let s ← streamSize .opened data.length
  let s := s.write data
  let s := streamPadding s
  some (writeSchema (putFile f name s.bytes) name schema)

/-- ResourceStorage.inl:183-191 `create_external_vector`, then a number of elements of `n` bytes are added, then `close`. -/
def cppExternalVector (limit : Nat) (f : Files) (name schema : String) (n : Nat) (elems : List (Bytes → Option Bytes)) :
    Option Files := do
  let f := writeSchema f name schema
  let h ← Handle.create .opened
  let v ← (ExtVec.create h).addAll limit n elems
  let b ← v.close
  some (putFile f name b)

/-- ResourceStorage.inl:193-208 `create_multi_vector` (:14-20 `INDEX_SUFFIX`, `multivector_index_schema`), then a number of buckets
are added, then `close`. -/
def cppMultiVector (limit : Nat) (f : Files) (name schema : String) (w : Nat)
    (buckets : List (List (Nat × Nat × (Bytes → Option Bytes)))) : Option Files := do
  let f := writeSchema f (name ++ "_index") ("index(" ++ schema ++ ")")
  let ih ← Handle.create .opened
  let f := writeSchema f name schema
  let h ← Handle.create .opened
  let m ← (MultiVec.create (ExtVec.create ih) h).addAll limit w buckets
  let (b, ib) ← m.close limit w
  some (putFile (putFile f name b) (name ++ "_index") ib)

/-- ArchiveBuilder.cpp:55-68 `initialize` in a directory without a signature file (internal/ArchiveUtils.h `signature_name`). -/
def cppSignature (f : Files) (name schema : String) : Option Files := cppSet f (name ++ ".archive") schema []

/-! ## Vector.h, Struct.h: the objects whose data is passed to `set_...` -/

/-- Assignments to the members of a generated structure object; `ty` gives the C++ types of the fields. -/
def cppAssign (ty : String → CppType) (fs : List FieldDecl) (calls : List (String × Int)) (d : Bytes) : Option Bytes :=
  assignAll (fun n => cppWrite (ty n)) (layoutFrom 0 fs) d calls

/-- `Struct< T >`: a zeroed object of `n` bytes with padding (Struct.h:46-50), the assignments to it (:59-64), and the `n` bytes that
`ResourceStorage::write` takes from it. -/
def cppStruct (n : Nat) (f : Bytes → Option Bytes) : Option Bytes := do
  let d ← f (List.replicate (n + paddingSize) 0)
  some (d.take n)

/-- `m_data.resize( k )` for a `std::vector< unsigned char >`: cut off, or append zeros. -/
def bytesResize (d : Bytes) (k : Nat) : Bytes := d.take k ++ List.replicate (k - d.length) 0

/-- An operation on a `Vector< T >`. -/
inductive VectorOp where
  /-- Vector.h:147-154 `grow` (and :99-103 `back`), followed by assignments to the new element -/
  | grow (calls : List (String × Int))
  /-- Vector.h:70-75 `operator[]`, and assignments to that element -/
  | mutate (i : Nat) (calls : List (String × Int))
  /-- Vector.h:156-161 `pop_back` -/
  | popBack
  /-- Vector.h:133-138 `resize` -/
  | resize (size : Nat)
  deriving DecidableEq, Repr

/-- Effect of an operation on `m_data`, for elements of `n` bytes. `assign` performs assignments to an element. -/
def vectorOp (n : Nat) (assign : List (String × Int) → Bytes → Option Bytes) (d : Bytes) : VectorOp → Option Bytes
  | .grow calls =>
    let d := bytesResize d (d.length + n)
    let size := (d.length - paddingSize) / n
    mutateAt (n * (size - 1)) (assign calls) d
  | .mutate i calls => mutateAt (n * i) (assign calls) d
  | .popBack => some (bytesResize d (d.length - n))
  | .resize k => some (bytesResize d (k * n + paddingSize))

/-- Vector.h:56-61: a vector of `size` elements, and a number of operations on it. -/
def vectorOps (n : Nat) (assign : List (String × Int) → Bytes → Option Bytes) : Bytes → List VectorOp → Option Bytes
  | d, [] => some d
  | d, op :: ops => do
    let d ← vectorOp n assign d op
    vectorOps n assign d ops

/-- Vector.h:56-61, the constructor. -/
def vectorNew (n size : Nat) : Bytes := bytesResize [] (size * n + paddingSize)

/-- ArrayView.inl:10-19, the constructor: number of elements of a view on `bytes` bytes. `overlapping` is
`T::IS_OVERLAPPING_WITH_NEXT`, true for structures with a range. -/
def viewSize (overlapping : Bool) (n bytes : Nat) : Nat :=
  let size := bytes / n
  if overlapping = true ∧ size ≠ 0 then size - 1 else size

/-- ArrayView.inl:49-54 `size_in_bytes`. -/
def viewBytes (overlapping : Bool) (n size : Nat) : Nat := (size + if overlapping then 1 else 0) * n

/-- Vector.h:163-168 (conversion to `ArrayView`) and ResourceStorage.inl:176-181 `write`: the bytes that are taken from a vector when
it is passed to `set_...`. -/
def vectorData (overlapping : Bool) (n : Nat) (d : Bytes) : Option Bytes :=
  let bytes := viewBytes overlapping n (viewSize overlapping n (d.length - paddingSize))
  if bytes ≤ d.length then some (d.take bytes) else none

/-- One call of `ListBuilder::add< T >` (MultiVector.h:99-114) with assignments to the new element, as `MultiVec.add` takes it:
position of the type among the types of the multivector, size of the structure, assignments. `ty` gives the C++ types of the fields of
every structure. -/
def cppElement (decls : List (String × List FieldDecl)) (ty : String → String → CppType) (e : String × List (String × Int)) :
    Nat × Nat × (Bytes → Option Bytes) :=
  let fs := (decls.lookup e.1).getD []
  ((decls.map (·.1)).idxOf e.1, ((fs.map (·.width)).sum + 7) / 8, cppAssign (ty e.1) fs e.2)

end Model.Native
