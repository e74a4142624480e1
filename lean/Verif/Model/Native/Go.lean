import Verif.Native.Basic

/-!
# Model of the Go bit access: `flatdata-go/flatdata/reader.go`

`uint` and `int` have 64 bits. Offsets, sizes and indices are natural numbers.
-/

namespace Model.Native
open Py _root_.Native

/-- reader.go:24,34,42 `uint(descriptor.At(int(index)))`. -/
def goAt (d : Bytes) (index : Nat) : Option (BitVec 64) := (byteAt d index).map (BitVec.setWidth 64)

/-- reader.go:10-17 `signBits[i]`: 64 entries, a panic for every other index. -/
def goSignBit (i : Nat) : Option (BitVec 64) := if i < 64 then some (1#64 <<< i) else none

/-- reader.go:38-46, the loop over whole bytes; `fuel` bounds the number of iterations (the callers pass
`bitsLeft`, which is never exhausted). Returns the accumulated result, the remaining bits and the byte
after them. -/
def goLoop (d : Bytes) (size : Nat) : (fuel bitsLeft index : Nat) → (current result : BitVec 64) →
    Option (BitVec 64 × Nat × BitVec 64)
  | 0, bitsLeft, _, current, result => some (result, bitsLeft, current)
  | fuel + 1, bitsLeft, index, current, result =>
    if 8 ≤ bitsLeft then do
      let result := result ||| (current <<< (size - bitsLeft))
      let current ← goAt d (index + 1)
      goLoop d size fuel (bitsLeft - 8) (index + 1) current result
    else some (result, bitsLeft, current)

/-- reader.go:38-58: everything after the first, partial byte. -/
def goRest (d : Bytes) (size : Nat) (signed : Bool) (bitsLeft index : Nat)
    (current result : BitVec 64) : Option Int := do
  let (result, bitsLeft, current) ← goLoop d size bitsLeft bitsLeft index current result
  let result :=
    if bitsLeft ≠ 0 then
      result ||| ((current &&& ((1#64 <<< bitsLeft) - 1#64)) <<< (size - bitsLeft))
    else result
  if signed then do
    if size = 0 then none
    else
      let sign ← goSignBit (size - 1)
      some ((result &&& (sign - 1#64)) - (result &&& sign)).toInt
  else some result.toInt

/-- reader.go:20-58 `Read`. The partial first byte returns early, without the sign handling of lines
53-55, if the whole field lies in it. -/
def goRead (d : Bytes) (offset size : Nat) (signed : Bool) : Option Int := do
  let current ← goAt d (offset / 8)
  let localOffset := offset % 8
  if localOffset ≠ 0 then
    let result := current >>> localOffset
    if size ≤ 8 - localOffset then some (result &&& ((1#64 <<< size) - 1#64)).toInt
    else do
      let current ← goAt d (offset / 8 + 1)
      goRest d size signed (size - (8 - localOffset)) (offset / 8 + 1) current result
  else goRest d size signed size (offset / 8) current 0#64

/-- The types a generated Go accessor returns (`type_mapping_with_bool`, go.py:37-52). Enumerations are not
supported by the Go generator. -/
inductive GoType where
  | bool
  | int (bits : Nat) (signed : Bool)
  deriving DecidableEq, Repr

/-- `field.type.is_signed`. -/
def GoType.isSigned : GoType → Bool
  | .bool => false
  | .int _ s => s

/-- templates/go/structure.jinja2:9-21, a generated accessor: `Read` and a conversion to the type of the
field (a comparison with 1 for `bool`). `offset` is the position of the structure in bits plus the offset of
the field. -/
def goGet (t : GoType) (d : Bytes) (offset size : Nat) : Option Int := do
  let result ← goRead d offset size t.isSigned
  match t with
  | .bool => some (if result = 1 then 1 else 0)
  | .int bits signed => some (valueOf signed (BitVec.ofInt bits result))

end Model.Native
