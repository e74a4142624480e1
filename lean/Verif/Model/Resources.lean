import Verif.Model.Structure

/-!
# Model of `flatdata-py/flatdata/lib/resources.py`
-/

namespace Model
open Py

/-- resources.py:14-16. -/
abbrev sizeOffsetInBytes : Nat := 8
abbrev sizePaddingInBytes : Nat := 8

/-- resources.py:20-22, the length check of `ResourceBase.__init__`. The remaining statements of the
constructor only store their arguments. -/
def checkResource (mem : Bytes) : M Unit :=
  if mem.length < sizeOffsetInBytes + sizePaddingInBytes then throw .corruptResource else pure ()

/-- resources.py:31-36 `_item_offset` and `_get_item`. -/
def getItem (t : StructType) (mem : Bytes) (index : Nat) : StructView :=
  { type := t, mem := mem, pos := sizeOffsetInBytes + t.sizeInBytes * index }

/-! ## FdVector -/

/-- resources.py:87 `Vector`: `_mem`, `_element_type`, `_size`. -/
structure FdVector where
  mem : Bytes
  type : StructType
  size : Nat
  deriving DecidableEq, Repr

/-- resources.py:88-93 `Vector.__init__`. `divmod` by an element size of zero (a structure whose
fields all have width 0) raises `ZeroDivisionError`. -/
def FdVector.create (mem : Bytes) (t : StructType) : M FdVector := do
  checkResource mem
  let sizeInBytes ← readValue mem 0 64 false
  if t.sizeInBytes = 0 then throw .zeroDivisionError
  else if sizeInBytes.toNat % t.sizeInBytes ≠ 0 then throw .assertionError
  else pure { mem := mem, type := t, size := sizeInBytes.toNat / t.sizeInBytes }

/-- resources.py:115-116 `Vector.__len__`, called through `len()`. -/
def FdVector.len (v : FdVector) : M Nat := pyLen v.size

/-- resources.py:102-106 `Vector.__getitem__` for an integer index. -/
def FdVector.get (v : FdVector) (index : Int) : M StructView := do
  let index ← if index < 0 then do pure (index + (← v.len)) else pure index
  if index ≥ v.size ∨ index < 0 then throw .indexError
  else pure (getItem v.type v.mem index.toNat)

/-- resources.py:108-110 `Vector.__iter__`, consumed completely. -/
def FdVector.toList (v : FdVector) : M (List StructView) := do
  let n ← v.len
  pure ((List.range n).map fun i => getItem v.type v.mem i)

/-- resources.py:112-113 `Vector.__getattr__`: the single column of the resulting data frame. -/
def FdVector.column (v : FdVector) (name : String) : M (List Int) := do
  (← v.toList).mapM fun x => x.getAttr name

/-- resources.py:98-100 and 76-78: iterating over `v[s]` for a slice `s` (`_VectorSlice.__iter__`). -/
def FdVector.slice (v : FdVector) (s : Slice) : M (List StructView) := do
  let n ← v.len
  let (a, b, c) ← s.indices n
  (range a b c).mapM fun i => v.get i

/-- resources.py:80-81 `_VectorSlice.__getattr__`. -/
def FdVector.sliceColumn (v : FdVector) (s : Slice) (name : String) : M (List Int) := do
  (← v.slice s).mapM fun x => x.getAttr name

/-- resources.py:69-70, the loop filling the array: row `index` is replaced; numpy raises `IndexError`
when the index is not below the number of rows. -/
def fillRows : List StructView → Nat → List (Option (List Int)) → M (List (Option (List Int)))
  | [], _, rows => pure rows
  | x :: xs, index, rows => do
    let t ← x.asTuple
    if index < rows.length then fillRows xs (index + 1) (rows.set index (some t))
    else throw .indexError

/-- resources.py:62-71 `_VectorSlice.to_numpy`. An array row that was never assigned (`np.empty`) is
`none`; numpy's element conversion is not modelled (it is exact for in-range values, see C45). A `limit`
of `None` or 0 is falsy. -/
def FdVector.toNumpy (v : FdVector) (s : Slice) (limit : Option Nat) : M (List (Option (List Int))) := do
  let n ← v.len
  let (a, b, c) ← s.indices n
  let numItems := match limit with
    | none => rangeLen a b c
    | some 0 => rangeLen a b c
    | some l => l
  let items ← v.slice s
  fillRows items 0 (List.replicate numItems none)

/-! ## Multivector -/

/-- resources.py:132-137 `Multivector`. The data buffer is neither checked nor wrapped. -/
structure Multivector where
  index : FdVector
  mem : Bytes
  types : List StructType
  deriving DecidableEq, Repr

/-- resources.py:133-137 `Multivector.__init__`. -/
def Multivector.create (indexMem mem : Bytes) (indexType : StructType) (types : List StructType) :
    M Multivector := do
  pure { index := ← FdVector.create indexMem indexType, mem := mem, types := types }

/-- resources.py:145-147 `Multivector.__len__`. -/
def Multivector.len (m : Multivector) : M Nat := do
  pyLen ((← m.index.len) - 1)

/-- resources.py:149-150 `_bucket_offset`. Simplification: a negative index value (only possible if the
index type had a signed field, which the generator never creates) is cut to 0. -/
def Multivector.bucketOffset (m : Multivector) (index : Int) : M Nat := do
  let v ← (← m.index.get index).getAttr "value"
  pure (v + sizeOffsetInBytes).toNat

/-- resources.py:159-165, the loop of `Multivector.__getitem__`. The offset grows by at least 1 per
iteration, so `fuel = next_offset - offset` iterations suffice; `fuel` counts down along. -/
def bucketLoop (mem : Bytes) (types : List StructType) (next : Nat) : (fuel offset : Nat) → M (List StructView)
  | 0, _ => pure []
  | fuel + 1, offset =>
    if offset < next then do
      let typeIndex ← readValue mem (offset * 8) 8 false
      match types[typeIndex.toNat]? with
      | none => throw .indexError
      | some t => do
        let rest ← bucketLoop mem types next fuel (offset + 1 + t.sizeInBytes)
        pure ({ type := t, mem := mem, pos := offset + 1 } :: rest)
    else pure []

/-- resources.py:156-166 `Multivector.__getitem__` for an integer index. -/
def Multivector.get (m : Multivector) (index : Int) : M (List StructView) := do
  let offset ← m.bucketOffset index
  let next ← m.bucketOffset (index + 1)
  bucketLoop m.mem m.types next (next - offset) offset

/-- resources.py:168-170 `Multivector.__iter__`, consumed completely. -/
def Multivector.toList (m : Multivector) : M (List (List StructView)) := do
  let n ← m.len
  (List.range n).mapM fun (i : Nat) => m.get i

/-- resources.py:153-154 and 124-126: iterating over `mv[s]` for a slice. -/
def Multivector.slice (m : Multivector) (s : Slice) : M (List (List StructView)) := do
  let n ← m.len
  let (a, b, c) ← s.indices n
  (range a b c).mapM fun i => m.get i

/-! ## RawData -/

/-- resources.py:178 `RawData`. -/
structure RawData where
  mem : Bytes
  deriving DecidableEq, Repr

/-- resources.py:20-26 (the constructor is inherited). -/
def RawData.create (mem : Bytes) : M RawData := do
  checkResource mem
  pure { mem := mem }

/-- resources.py:179-180 `RawData.__len__`, called through `len()`. -/
def RawData.len (r : RawData) : M Nat := do
  pyLen (← readValue r.mem 0 64 false).toNat

/-- resources.py:189 `RawData.__getitem__` for an integer: a slice of length at most one. -/
def RawData.get (r : RawData) (i : Int) : M Bytes :=
  sliceSeq r.mem { start := some (i + 8), stop := some (i + 8 + 1), step := none }

/-- resources.py:183-188 `RawData.__getitem__` for a slice: `None` as start raises `TypeError`. -/
def RawData.getSlice (r : RawData) (s : Slice) : M Bytes :=
  match s.start with
  | none => throw .typeError
  | some a => sliceSeq r.mem { start := some (a + 8), stop := s.stop.map (· + 8), step := s.step }

/-- `self[a:b]` with non-negative bounds. -/
def RawData.sub (r : RawData) (a b : Nat) : M Bytes :=
  r.getSlice { start := some (a : Int), stop := some (b : Int), step := none }

/-- resources.py:192-194, the loop of `sub_str`; `fuel` is the number of remaining iterations of
`range(index, len(self))`. `none`: the loop ended without a match. -/
def subStrLoop (r : RawData) (sep : Bytes) (index : Nat) : (fuel i : Nat) → M (Option String)
  | 0, _ => pure none
  | fuel + 1, i => do
    if (← r.sub i (i + sep.length)) = sep then
      pure (some (← decodeUtf8 (← r.sub index i)))
    else subStrLoop r sep index fuel (i + 1)

/-- resources.py:191-195 `sub_str`, for `index ≥ 0`. -/
def RawData.subStr (r : RawData) (index : Nat) (sep : Bytes := [0]) : M String := do
  match ← subStrLoop r sep index ((← r.len) - index) index with
  | some s => pure s
  | none => decodeUtf8 (← r.get index)

/-- resources.py:199-204, the loop of `sub_str_list`; the accumulated result is returned. -/
def subStrListLoop (r : RawData) (sep listSep : Bytes) : (fuel i index : Nat) → List String → M (List String)
  | 0, _, _, acc => pure acc
  | fuel + 1, i, index, acc => do
    if index = i ∧ (← r.sub i (i + listSep.length)) = listSep then pure acc
    else if (← r.sub i (i + sep.length)) = sep then do
      let s ← decodeUtf8 (← r.sub index i)
      subStrListLoop r sep listSep fuel (i + 1) (i + 1) (acc ++ [s])
    else subStrListLoop r sep listSep fuel (i + 1) index acc

/-- resources.py:197-205 `sub_str_list`, for `index ≥ 0`. -/
def RawData.subStrList (r : RawData) (index : Nat) (sep : Bytes := [0]) (listSep : Bytes := [0, 0]) :
    M (List String) := do
  subStrListLoop r sep listSep ((← r.len) - index) index index []

/-- resources.py:209-214, the loop of `sub_str_array`. -/
def subStrArrayLoop (r : RawData) (sep : Bytes) (size : Int) :
    (fuel i index : Nat) → List String → M (List String)
  | 0, _, _, acc => pure acc
  | fuel + 1, i, index, acc => do
    if (← r.sub i (i + sep.length)) = sep then do
      let s ← decodeUtf8 (← r.sub index i)
      let acc := acc ++ [s]
      if (acc.length : Int) = size then pure acc
      else subStrArrayLoop r sep size fuel (i + 1) (i + 1) acc
    else subStrArrayLoop r sep size fuel (i + 1) index acc

/-- resources.py:207-215 `sub_str_array`, for `index ≥ 0`. -/
def RawData.subStrArray (r : RawData) (index : Nat) (size : Int) (sep : Bytes := [0]) :
    M (List String) := do
  subStrArrayLoop r sep size ((← r.len) - index) index index []

/-! ## Instance -/

/-- resources.py:218 `Instance`. -/
structure Instance where
  mem : Bytes
  type : StructType
  deriving DecidableEq, Repr

/-- resources.py:20-26 (the constructor is inherited). -/
def Instance.create (mem : Bytes) (t : StructType) : M Instance := do
  checkResource mem
  pure { mem := mem, type := t }

/-- resources.py:219-228 `Instance.__getitem__` for an integer index. -/
def Instance.get (x : Instance) (index : Int) : M StructView :=
  let index := if index < 0 then index + 1 else index
  if index ≥ 1 ∨ index < 0 then throw .indexError
  else pure (getItem x.type x.mem index.toNat)

/-- resources.py:220-221: slicing an instance raises. -/
def Instance.slice (_ : Instance) (_ : Slice) : M (List StructView) := throw .indexError

/-- resources.py:230-232 `Instance.__iter__`. -/
def Instance.toList (x : Instance) : List StructView := [getItem x.type x.mem 0]

/-- resources.py:234-236 `Instance.__getattr__`. -/
def Instance.getAttr (x : Instance) (name : String) : M Int := (getItem x.type x.mem 0).getAttr name

/-- resources.py:238-239 `Instance.__len__`. -/
def Instance.len (_ : Instance) : Nat := 1

end Model
