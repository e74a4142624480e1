import Verif.Py.Basic

/-!
# Model of `flatdata-py/flatdata/lib/data_access.py`

Offsets and widths are natural numbers (the callers only produce non-negative ones); field values are
unbounded Python integers.
-/

namespace Model
open Py

/-- data_access.py:7 `_SIGN_BITS[bits]`: 65 entries, index out of range raises `IndexError`. -/
def signBits (bits : Nat) : M Int :=
  if bits = 0 then pure 0
  else if bits ≤ 64 then pure (shl 1 (bits - 1))
  else throw .indexError

/-- data_access.py:17-24, the part of `read_value` between the 1-bit case and the sign handling.
`divmod(offset_bits, 8)` (line 11) is written as `/` and `%`. The slice of line 17 clips at the end
of the buffer, line 21 raises for a negative shift, line 23 leaves widths ≥ 64 unmasked. -/
def readBits (data : Bytes) (offsetBits numBits : Nat) : M Int := do
  let offsetBytes := offsetBits / 8
  let offsetExtraBits := offsetBits % 8
  let totalBytes := (numBits + 7) / 8
  let result := (fromLE (sliceNN data offsetBytes (offsetBytes + totalBytes)) : Int)
  let result := shr result offsetExtraBits
  let result ←
    if (totalBytes * 8 : Int) - offsetExtraBits < numBits then do
      let remainder ← getByte data (offsetBytes + totalBytes)
      let shifted ← shlChecked remainder ((totalBytes * 8 : Int) - offsetExtraBits)
      pure (bor result shifted)
    else pure result
  pure (if numBits < 64 then band result (shl 1 numBits - 1) else result)

/-- data_access.py:10-29 `read_value`; lines 17-24 are `readBits`. Not simplified: the missing sign
handling for width 1 (line 14) and the unmasked width 64 are kept. -/
def readValue (data : Bytes) (offsetBits numBits : Nat) (isSigned : Bool) : M Int :=
  if numBits = 1 then do
    let b ← getByte data (offsetBits / 8)
    pure (if band b (shl 1 (offsetBits % 8)) ≠ 0 then 1 else 0)
  else do
    let result ← readBits data offsetBits numBits
    if isSigned = false then pure result
    else do
      let s ← signBits numBits
      pure (band result (s - 1) - band result s)

/-- data_access.py:55-58, the `while byte_idx < total_bytes` loop of `write_value`; `fuel` is
`total_bytes - byte_idx`, the exact number of iterations. -/
def writeLoop (bytesLE : Bytes) (offsetBytes : Nat) : (fuel byteIdx : Nat) → Bytes → M Bytes
  | 0, _, data => pure data
  | fuel + 1, byteIdx, data => do
    let b ← getByte bytesLE byteIdx
    let data ← setByte data (offsetBytes + byteIdx) b
    writeLoop bytesLE offsetBytes fuel (byteIdx + 1) data

/-- data_access.py:49-53, the first byte of `write_value`: the mask of line 49 is built from
`offset_bits`, not from the extra bits, as in the source. -/
def writeFirst (bytesLE : Bytes) (offsetBits : Nat) (data : Bytes) : M Bytes := do
  let offsetBytes := offsetBits / 8
  let old ← getByte data offsetBytes
  let surroundingBits := band old (shl 1 offsetBits - 1)
  let b0 ← getByte bytesLE 0
  let data ← setByte data offsetBytes b0
  let cur ← getByte data offsetBytes
  setByte data offsetBytes (bor cur surroundingBits)

/-- data_access.py:60-64, the trailing byte of `write_value`; `byte_idx` after the loop is
`max 1 total_bytes`. The mask of line 62 is built from `offset_bits`, as in the source. -/
def writeLast (bytesLE : Bytes) (offsetBits numBits : Nat) (data : Bytes) : M Bytes :=
  let offsetBytes := offsetBits / 8
  let totalBytes := (numBits + 7) / 8
  let byteIdx := max 1 totalBytes
  let bitsWritten : Int := (totalBytes * 8 : Int) - (offsetBits % 8 : Nat)
  if bitsWritten < numBits then do
    let old ← getByte data (offsetBytes + byteIdx)
    let surroundingBits := band old (bnot (shl 1 offsetBits - 1))
    let bl ← getByte bytesLE byteIdx
    let m ← shlChecked 1 (8 - bitsWritten % 8)
    let data ← setByte data (offsetBytes + byteIdx) (band bl (m - 1))
    let cur ← getByte data (offsetBytes + byteIdx)
    setByte data (offsetBytes + byteIdx) (bor cur surroundingBits)
  else pure data

/-- data_access.py:38-43, the 1-bit case of `write_value`. -/
def writeBit (data : Bytes) (offsetBits : Nat) (value : Int) : M Bytes := do
  let b ← getByte data (offsetBits / 8)
  if value = 1 then setByte data (offsetBits / 8) (bor b (shl 1 (offsetBits % 8)))
  else setByte data (offsetBits / 8) (band b (bnot (shl 1 (offsetBits % 8))))

/-- data_access.py:32-64 `write_value`; the mutated bytearray is returned. (If an exception is
raised the partially written buffer is lost; the only callers write to a local buffer.) -/
def writeValue (data : Bytes) (offsetBits numBits : Nat) (isSigned : Bool) (value : Int) : M Bytes :=
  if ¬ numBits ≤ 64 then throw .assertionError
  else if numBits = 1 then writeBit data offsetBits value
  else do
    let totalBytes := (numBits + 7) / 8
    let mask := shl 1 numBits - 1
    let value := shl value (offsetBits % 8)
    let value := band value (shl mask (offsetBits % 8))
    let bytesLE ← toBytes value (totalBytes + 1) isSigned
    let data ← writeFirst bytesLE offsetBits data
    let data ← writeLoop bytesLE (offsetBits / 8) (totalBytes - 1) 1 data
    writeLast bytesLE offsetBits numBits data

end Model
