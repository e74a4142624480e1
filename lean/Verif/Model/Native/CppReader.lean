import Verif.Model.Native.CppStorage

/-!
# Model of the C++ readers: `flatdata-cpp/include/flatdata/internal/{ResourceStorage,ArrayView}.inl`, `MultiArrayView.h`,
`MemoryMappedFileStorage.h`, `FileResourceStorage.h`, `Archive.h`, `src/Archive.cpp`

A pointer into a mapped file is the list of the bytes from there to the end of the file; reading behind the end is `none`.
-/

namespace Model.Native
open Py Model _root_.Native

/-- FileResourceStorage.h:122-131 `read_resource`, MemoryMappedFileStorage.h:34-66 `read`: `none` if there is no such file, or if it is
empty. (The cache of mappings: a file that was mapped once is not looked at again; the files do not change here.) -/
def readResource (f : Files) (name : String) : Option Bytes :=
  match f name with
  | some b => if b = [] then none else some b
  | none => none

/-- ResourceStorage.inl:142-174 `read_and_check_schema`: the memory from the payload on, and the size of the payload. The addition
in line 158 is done in `uint64_t`. -/
def readAndCheckSchema (f : Files) (name schema : String) : Option (Bytes × Nat) := do
  let data ← readResource f name
  let stored ← readResource f (name ++ ".schema")
  if 8 + paddingSize > data.length then none
  else do
    let size ← cppRead (.int 64 false) data 0 64
    if (size.toNat + 8 + paddingSize) % 2 ^ 64 ≠ data.length then none
    else if stored ≠ encodeUtf8 schema then none
    else some (data.drop 8, size.toNat)

/-- `ArrayView`: `m_data` and `m_size`. -/
structure CppView where
  mem : Bytes
  size : Nat

/-- ArrayView.inl:10-19, the constructor, on the memory of a resource. -/
def CppView.create (overlapping : Bool) (n : Nat) (m : Bytes × Nat) : CppView := ⟨m.1, viewSize overlapping n m.2⟩

/-- ArrayView.inl:28-33 `operator[]`: the memory of element `i`. -/
def CppView.at (v : CppView) (n i : Nat) : Bytes := v.mem.drop (n * i)

/-- A member of a generated structure object (templates/cpp/structure.jinja2:19-31: type, offset and width are template arguments). -/
def cppGet (ty : String → CppType) (fs : List FieldDecl) (mem : Bytes) (name : String) : Option Int := do
  let g ← (layoutFrom 0 fs).lookup name
  cppRead (ty name) mem g.offset g.width

/-- Reader.h:111-125 `Reader< std::pair< T, T > >` for a field of type `uint64_t` in a structure of `n` bytes. -/
def cppRange (mem : Bytes) (offset w n : Nat) : Option (Int × Int) := do
  let a ← cppRead (.int 64 false) mem offset w
  let b ← cppRead (.int 64 false) (mem.drop n) offset w
  some (a, b)

/-- `MultiArrayView`: `m_index` and `m_data_begin`. -/
structure CppMulti where
  index : CppView
  data : Bytes

/-- MultiArrayView.h:234-258 `get_impl`: the size of the type with number `type`; `sizes` are the sizes of the types from number
`index` on. `none` stands for the exception for an unknown type. (That the callback is called, if it accepts the type, is left to the
callers.) -/
def getImpl : List Nat → Nat → Nat → Option Nat
  | [], _, _ => none
  | size :: sizes, index, type => if type = index then some size else getImpl sizes (index + 1) type

/-- MultiArrayView.h:219-232 `for_each_impl`, for positions `pos` to `stop` in the data: type number and position of every element.
The first argument bounds the number of steps; every element has at least one byte. -/
def forEachImpl (sizes : List Nat) (data : Bytes) : Nat → Nat → Nat → Option (List (Nat × Nat))
  | 0, pos, stop => if pos < stop then none else some []
  | fuel + 1, pos, stop =>
    if pos < stop then do
      let type ← data[pos]?
      let size ← getImpl sizes 0 type.toNat
      let rest ← forEachImpl sizes data fuel (pos + 1 + size) stop
      some ((type.toNat, pos + 1) :: rest)
    else some []

/-- `MultiArrayView::Iterator` (MultiArrayView.h:136-152): `m_data_current`, `m_data_end`, `m_valid`. -/
structure CppIter where
  current : Nat
  stop : Nat
  valid : Bool

/-- MultiArrayView.h:296-313 `operator++` of an iterator for the type with number `wanted`: the loop, until an element of this type
was found. -/
def iterLoop (sizes : List Nat) (data : Bytes) (wanted : Nat) : Nat → CppIter → Option CppIter
  | 0, it => if it.current ≠ it.stop then none else some { it with valid := false }
  | fuel + 1, it =>
    if it.current ≠ it.stop then do
      let type ← data[it.current]?
      let size ← getImpl sizes 0 type.toNat
      let it := { it with current := it.current + 1 + size }
      if type.toNat = wanted then some { it with valid := true } else iterLoop sizes data wanted fuel it
    else some { it with valid := false }

/-- MultiArrayView.h:283-294, the constructor. -/
def iterNew (sizes : List Nat) (data : Bytes) (wanted pos stop : Nat) : Option CppIter :=
  if pos < stop then iterLoop sizes data wanted (stop - pos) ⟨pos, stop, false⟩ else some ⟨pos, stop, false⟩

/-- `for ( it = ...; it.valid( ); ++it ) use( *it )`: the positions of the elements (:324-330 `operator*`), for a type of `size`
bytes. The first argument bounds the number of steps. -/
def iterAll (sizes : List Nat) (data : Bytes) (wanted size : Nat) : Nat → CppIter → Option (List Nat)
  | 0, it => if it.valid then none else some []
  | fuel + 1, it =>
    if it.valid then do
      let it' ← iterLoop sizes data wanted (it.stop - it.current) it
      let rest ← iterAll sizes data wanted size fuel it'
      some ((it.current - size) :: rest)
    else some []

/-- MultiArrayView.h:80-91 `for_each( i, callback )`: type number and memory of the elements the callback is called with, in this order. -/
def CppMulti.forEach (m : CppMulti) (w : Nat) (sizes : List Nat) (i : Nat) : Option (List (Nat × Bytes)) := do
  let (a, b) ← cppRange (m.index.at ((w + 7) / 8) i) 0 w ((w + 7) / 8)
  let l ← forEachImpl sizes m.data (b.toNat - a.toNat) a.toNat b.toNat
  some (l.map fun e => (e.1, m.data.drop e.2))

/-- MultiArrayView.h:271-279 `iterator< T >( i )` and a loop over it: the memory of the elements of type number `wanted`. -/
def CppMulti.iterator (m : CppMulti) (w : Nat) (sizes : List Nat) (wanted i : Nat) : Option (List Bytes) := do
  let (a, b) ← cppRange (m.index.at ((w + 7) / 8) i) 0 w ((w + 7) / 8)
  let it ← iterNew sizes m.data wanted a.toNat b.toNat
  let l ← iterAll sizes m.data wanted (sizes.getD wanted 0) (b.toNat - a.toNat) it
  some (l.map m.data.drop)

/-- ResourceStorage.inl:23-36 `ValueCreator< T >` for a structure: its memory. -/
def cppOpenStruct (f : Files) (name schema : String) : Option Bytes := (readAndCheckSchema f name schema).map (·.1)

/-- ResourceStorage.inl:38-51 `ValueCreator< ArrayView< T > >`. -/
def cppOpenVector (overlapping : Bool) (f : Files) (name schema : String) (n : Nat) : Option CppView :=
  (readAndCheckSchema f name schema).map (CppView.create overlapping n)

/-- ResourceStorage.inl:53-70 `ValueCreator< MultiArrayView< IndexType, Args... > >`. Index types have a range. -/
def cppOpenMulti (f : Files) (name schema : String) (w : Nat) : Option CppMulti := do
  let index ← cppOpenVector true f (name ++ "_index") ("index(" ++ schema ++ ")") ((w + 7) / 8)
  let data ← readAndCheckSchema f name schema
  some ⟨index, data.1⟩

/-- ResourceStorage.inl:72-85 `ValueCreator< MemoryDescriptor >`: the bytes of raw data. -/
def cppOpenRaw (f : Files) (name schema : String) : Option Bytes := (readAndCheckSchema f name schema).map fun m => m.1.take m.2

end Model.Native
