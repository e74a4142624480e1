import Verif.Native.Basic

/-!
# Model of the Rust bit access: the macros of `flatdata-rs/lib/src/{bytereader,bytewriter}.rs`

Macro arguments are ordinary arguments.  `usize` arithmetic is done in the natural numbers (offsets and
widths are small constants of the generated code).
-/

namespace Model.Native
open Py _root_.Native

/-- The types a generated Rust accessor passes to the macros: `bool` and the fixed-width integers. -/
inductive RustType where
  | bool
  | int (bits : Nat) (signed : Bool)
  deriving DecidableEq, Repr

/-- helper.rs:3-43 `Int::IS_SIGNED`. -/
def RustType.isSigned : RustType → Bool
  | .bool => false
  | .int _ s => s

/-- bytereader.rs:37-41 `@mask`: `checked_shl` is `None` from 64 on. -/
def rustMask (x : BitVec 64) (numBits : Nat) : BitVec 64 :=
  if numBits < 64 then x &&& ((1#64 <<< numBits) - 1#64) else x

/-- bytereader.rs:25-34 `@extend` for an integer type of `bits` bits: signed values are shifted left and
(arithmetically) right again; the shifts wrap around at the size of the type. A width above the size of
the type does not compile (`none`). -/
def rustExtend (bits : Nat) (signed : Bool) (x : BitVec 64) (numBits : Nat) : Option Int :=
  if signed then
    if numBits ≤ bits then
      let other := (bits - numBits) % bits
      some (((x.setWidth bits) <<< other).sshiftRight other).toInt
    else none
  else some (x.setWidth bits).toNat

/-- bytereader.rs:47-71, the entry point of `flatdata_read_bytes!` for integer types. Line 64 reads the
missing byte at `data.add(byte_offset + num_bytes)`, although `data` is already `bytes + byte_offset`
(line 53). -/
def rustReadInt (bits : Nat) (signed : Bool) (d : Bytes) (offset numBits : Nat) : Option Int :=
  let byteOffset := offset / 8
  let bitOffset := offset % 8
  if numBits = 1 then do
    let b ← byteAt d byteOffset
    some (if b &&& (1#8 <<< bitOffset) ≠ 0#8 then 1 else 0)
  else do
    let numBytes := min 8 ((numBits + bitOffset + 7) / 8)
    let raw ← load d byteOffset numBytes
    let result : BitVec 64 := raw.setWidth 64
    let result := result >>> bitOffset
    let readBits := numBytes * 8 - bitOffset
    let result ←
      if readBits < numBits then do
        let temp ← byteAt d (byteOffset + (byteOffset + numBytes))
        some (result ||| (temp.setWidth 64 <<< (readBits % (numBytes * 8))))
      else some result
    rustExtend bits signed (rustMask result numBits) numBits

/-- bytereader.rs:44-71 `flatdata_read_bytes!(T, data, offset, num_bits)`; `bool` reads a `u8` and
compares it with 0. -/
def rustRead (t : RustType) (d : Bytes) (offset numBits : Nat) : Option Int :=
  match t with
  | .bool => do
    let x ← rustReadInt 8 false d offset numBits
    some (if x ≠ 0 then 1 else 0)
  | .int bits signed => rustReadInt bits signed d offset numBits

/-- bytewriter.rs:26-78 `flatdata_write_bytes!(T; value, data, offset, num_bits)`; the written buffer is
returned. Line 63 addresses the missing byte as `data[num_bytes]`, without the byte offset. -/
def rustWrite (t : RustType) (d : Bytes) (offset numBits : Nat) (v : Int) : Option Bytes := do
  let bitOffset := offset % 8
  let valueToStore : BitVec 64 := BitVec.ofInt _ v
  let valueToStore := if t.isSigned then rustMask valueToStore numBits else valueToStore
  let valueMask := rustMask (BitVec.allOnes 64) numBits
  let numBytes := min 8 ((numBits + bitOffset + 7) / 8)
  let raw ← load d (offset / 8) numBytes
  let value : BitVec 64 := raw.setWidth 64
  let value := value &&& ~~~(valueMask <<< bitOffset)
  let value := value ||| (valueToStore <<< bitOffset)
  let d ← store d (offset / 8) numBytes (value.setWidth (8 * numBytes))
  let batchedBitsWritten := numBytes * 8 - bitOffset
  if batchedBitsWritten < numBits then do
    let valueToStore := valueToStore >>> (batchedBitsWritten % (numBytes * 8))
    let valueMask := valueMask >>> (batchedBitsWritten % (numBytes * 8))
    let old ← byteAt d numBytes
    let byteValue := old &&& ~~~(valueMask.setWidth 8)
    store d numBytes 1 (byteValue ||| valueToStore.setWidth 8)
  else some d

end Model.Native
