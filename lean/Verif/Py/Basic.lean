import Mathlib.Data.Int.Bitwise

/-!
# Python primitives

The fragment of Python's semantics the modelled code relies on.  Nothing in this file is
flatdata code; it is part of the trusted base (see DESIGN.md).
-/

namespace Py

/-- Exceptions the modelled code can raise: Python built-ins first, then those of
`flatdata-py/flatdata/lib/errors.py` and `flatdata-generator/.../errors.py`. The arguments kept are
the ones a caller can use to identify the culprit (`key`, `name`); message texts are dropped. -/
inductive Err where
  | indexError
  | valueError
  | overflowError
  | assertionError
  | typeError
  | keyError (key : String)
  | attributeError (name : String)
  | unicodeDecodeError
  | zeroDivisionError
  | runtimeError
  | isADirectoryError
  /-- errors.py:29 -/
  | corruptResource
  /-- errors.py:35 -/
  | missingResource (key : String)
  /-- errors.py:9 -/
  | schemaMismatch (name : String)
  /-- errors.py:49 -/
  | missingField (key name : String)
  /-- errors.py:57 -/
  | unknownField (key name : String)
  /-- errors.py:78 -/
  | unknownStructure (name : String)
  /-- errors.py:86 -/
  | indexWriter
  /-- errors.py:93 -/
  | archivePathNotProvided
  /-- errors.py:100 -/
  | missingResourceName
  /-- errors.py:107 -/
  | fileNameNotProvided
  /-- errors.py:114 -/
  | resourceAlreadySet
  /-- errors.py:121 -/
  | unknownResource (name : String)
  deriving DecidableEq, Repr

/-- A Python computation: a value or a raised exception. -/
abbrev M := Except Err

deriving instance DecidableEq for Except

/-- `bytes`, `bytearray`, `memoryview` and `mmap` contents. -/
abbrev Bytes := List UInt8

/-- Python `a & b` on (unbounded, two's complement) integers. -/
def band (a b : Int) : Int := Int.land a b
/-- Python `a | b`. -/
def bor (a b : Int) : Int := Int.lor a b
/-- Python `~a`. -/
def bnot (a : Int) : Int := -a - 1
/-- Python `a << k` for `k ≥ 0` known from the context. -/
def shl (a : Int) (k : Nat) : Int := a * 2 ^ k
/-- Python `a >> k` for `k ≥ 0` known from the context (rounds towards minus infinity). -/
def shr (a : Int) (k : Nat) : Int := a / 2 ^ k
/-- Python `a << k` for an arbitrary `k`: negative counts raise `ValueError`. -/
def shlChecked (a : Int) (k : Int) : M Int :=
  if k < 0 then throw .valueError else pure (shl a k.toNat)

/-- `data[i]` for `i ≥ 0`. -/
def getByte (data : Bytes) (i : Nat) : M Int :=
  match data[i]? with
  | some b => pure (b.toNat : Int)
  | none => throw .indexError

/-- `data[i] = x` on a bytearray for `i ≥ 0`: `IndexError` out of bounds, `ValueError` if `x` is not
a byte. -/
def setByte (data : Bytes) (i : Nat) (x : Int) : M Bytes :=
  if i < data.length then
    if 0 ≤ x ∧ x < 256 then pure (data.set i (UInt8.ofNat x.toNat)) else throw .valueError
  else throw .indexError

/-- `data[a:b]` for `0 ≤ a`, `0 ≤ b`: out-of-range bounds are clipped. -/
def sliceNN {α : Type _} (data : List α) (a b : Nat) : List α := (data.drop a).take (b - a)

/-- `int.from_bytes(bs, "little")`. -/
def fromLE : Bytes → Nat
  | [] => 0
  | b :: bs => b.toNat + 256 * fromLE bs

/-- The `n` low bytes of a natural number, least significant first. -/
def toLE : Nat → Nat → Bytes
  | 0, _ => []
  | n + 1, x => UInt8.ofNat (x % 256) :: toLE n (x / 256)

/-- `x.to_bytes(n, "little", signed=signed)`: `OverflowError` if `x` does not fit. -/
def toBytes (x : Int) (n : Nat) (signed : Bool) : M Bytes :=
  if signed then
    if (n = 0 ∧ x = 0) ∨ (0 < n ∧ -(2 ^ (8 * n - 1)) ≤ x ∧ x < 2 ^ (8 * n - 1)) then
      pure (toLE n (x % 2 ^ (8 * n)).toNat)
    else throw .overflowError
  else
    if 0 ≤ x ∧ x.toNat < 2 ^ (8 * n) then pure (toLE n x.toNat) else throw .overflowError

/-- `len(x)` where `x.__len__()` returns `n`: values above `sys.maxsize` raise `OverflowError`. -/
def pyLen (n : Nat) : M Nat := if n < 2 ^ 63 then pure n else throw .overflowError

/-- A Python `slice` object with integer or `None` entries. -/
structure Slice where
  start : Option Int
  stop : Option Int
  step : Option Int
  deriving DecidableEq, Repr

/-- One bound of `slice.indices(n)`: negative bounds count from the end, then the bound is clipped
to `[lower, upper]`. -/
def adjustIndex (x lower upper n : Int) : Int :=
  if x < 0 then max (x + n) lower else min x upper

/-- `s.indices(n)` (CPython `PySlice_Unpack` + `PySlice_AdjustIndices`): `ValueError` for step 0. -/
def Slice.indices (s : Slice) (n : Nat) : M (Int × Int × Int) :=
  let step := s.step.getD 1
  if step = 0 then throw .valueError
  else
    let lower : Int := if step < 0 then -1 else 0
    let upper : Int := if step < 0 then (n : Int) - 1 else n
    let start := match s.start with
      | none => if step < 0 then upper else lower
      | some x => adjustIndex x lower upper n
    let stop := match s.stop with
      | none => if step < 0 then lower else upper
      | some x => adjustIndex x lower upper n
    pure (start, stop, step)

/-- Number of elements of `range(start, stop, step)`. -/
def rangeLen (start stop step : Int) : Nat :=
  if 0 < step then ((stop - start + step - 1) / step).toNat
  else if step < 0 then ((start - stop + (-step) - 1) / (-step)).toNat
  else 0

/-- `list(range(start, stop, step))` for `step ≠ 0`. -/
def range (start stop step : Int) : List Int :=
  (List.range (rangeLen start stop step)).map fun (k : Nat) => start + step * (k : Int)

/-- `seq[s]` for a built-in sequence (`bytes`, `memoryview`, `list`). -/
def sliceSeq {α : Type _} (l : List α) (s : Slice) : M (List α) := do
  let (a, b, c) ← s.indices l.length
  pure ((range a b c).filterMap fun i => l[i.toNat]?)

/-- `bytes.decode("utf-8")`. -/
def decodeUtf8 (b : Bytes) : M String :=
  match String.fromUTF8? ⟨b.toArray⟩ with
  | some s => pure s
  | none => throw .unicodeDecodeError

/-- `bytes(s, 'utf-8')`. -/
def encodeUtf8 (s : String) : Bytes := s.toUTF8.data.toList

/-- `dict[key]` on an insertion-ordered dictionary. -/
def dictGet {α : Type _} (d : List (String × α)) (k : String) : M α :=
  match d.lookup k with
  | some v => pure v
  | none => throw (.keyError k)

end Py
