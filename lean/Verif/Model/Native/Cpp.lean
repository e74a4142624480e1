import Verif.Native.Basic

/-!
# Model of the C++ bit access: `flatdata-cpp/include/flatdata/internal/{BitHelpers,Reader,Writer}.h`

Template parameters are ordinary arguments: `offset` and `num_bits` are natural numbers, the field type
`T` is a `CppType`.  The arithmetic on `uint8_t` and `uint16_t` is done by C++ in `int` and truncated
when it is stored; the operations used (`<<`, `>>`, `&`, `|`, `~`) give the same low bits as operations
on the narrow type, which is what the model uses.
-/

namespace Model.Native
open Py _root_.Native

/-- The types a generated C++ class uses for its fields: `bool`, the fixed-width integers and enumeration
classes with a fixed underlying type. -/
inductive CppType where
  | bool
  | int (bits : Nat) (signed : Bool)
  | enum (bits : Nat) (signed : Bool)
  deriving DecidableEq, Repr

/-- BitHelpers.h:50-81 `IsSigned`: for enumerations the signedness of the underlying type. -/
def CppType.isSigned : CppType → Bool
  | .bool => false
  | .int _ s => s
  | .enum _ s => s

/-- `std::is_signed< T >`, false for enumerations (the comment at BitHelpers.h:60 says so). -/
def CppType.stdIsSigned : CppType → Bool
  | .int _ s => s
  | _ => false

/-- `static_cast< T >( x )` for an integer `x`. -/
def CppType.cast : CppType → Int → Int
  | .bool, x => if x ≠ 0 then 1 else 0
  | .int b s, x => valueOf s (BitVec.ofInt b x)
  | .enum b s, x => valueOf s (BitVec.ofInt b x)

/-- BitHelpers.h:14-42 `MakeUnsignedInt`: number of bytes of the smallest unsigned type with at least `n`
bytes. (More than eight do not compile; no caller asks for them.) -/
def makeUnsigned (n : Nat) : Nat := if n ≤ 1 then 1 else if n ≤ 2 then 2 else if n ≤ 4 then 4 else 8

/-- Reader.h:60-62, Writer.h:31-32 `UnsignedType`, as a number of bytes; BitHelpers.h:44-48
`BitsToUnsigned` and :139-158 `int_choice` are inlined. -/
def storageBytes (offset numBits : Nat) : Nat :=
  makeUnsigned (((if numBits + offset % 8 ≤ 64 then numBits + offset % 8 else numBits) + 7) / 8)

/-- BitHelpers.h:127-141 `masked`. -/
def masked (bits : Nat) {n : Nat} (x : BitVec n) : BitVec n :=
  if bits = n then x else x &&& ((1#n <<< bits) - 1#n)

/-- BitHelpers.h:107-125 `extend_sign`: for signed types the value goes through a bit field of `bits` bits
of the signed type. -/
def CppType.extendSign (t : CppType) (bits : Nat) {n : Nat} (x : BitVec n) : Int :=
  if t.isSigned then t.cast (x.setWidth bits).toInt else t.cast x.toNat

/-- Reader.h:58-101 `Reader< T, offset, num_bits >::operator T`. The access statistics of lines 71-77 are
left out (they are compiled only with a debug macro). -/
def cppRead (t : CppType) (d : Bytes) (offset numBits : Nat) : Option Int :=
  if numBits = 1 then do
    let b ← byteAt d (offset / 8)
    some (t.cast (if b &&& (1#8 <<< (offset % 8)) ≠ 0#8 then 1 else 0))
  else do
    let size := storageBytes offset numBits
    let result ← load d (offset / 8) size
    let result := result >>> (offset % 8)
    let result ←
      if 8 * size - offset % 8 < numBits then do
        let temp ← byteAt d (offset / 8 + size)
        some (result ||| (temp.setWidth (8 * size) <<< ((8 * size - offset % 8) % (8 * size))))
      else some result
    some (t.extendSign numBits (masked numBits result))

/-- Writer.h:41-86 `Writer< T, offset, num_bits >::operator=`; the written buffer is returned. The
argument is the value of a variable of type `T`. -/
def cppWrite (t : CppType) (d : Bytes) (offset numBits : Nat) (v : Int) : Option Bytes := do
  let size := storageBytes offset numBits
  let valueToStore : BitVec (8 * size) := BitVec.ofInt _ v
  let valueToStore := if t.stdIsSigned then masked numBits valueToStore else valueToStore
  let valueMask : BitVec (8 * size) := masked numBits (BitVec.allOnes _)
  let value ← load d (offset / 8) size
  let value := value &&& ~~~(valueMask <<< (offset % 8))
  let value := value ||| (valueToStore <<< (offset % 8))
  let d ← store d (offset / 8) size value
  let batchedBitsWritten := 8 * size - offset % 8
  if batchedBitsWritten < numBits then do
    let valueToStore := valueToStore >>> (batchedBitsWritten % (8 * size))
    let valueMask := valueMask >>> (batchedBitsWritten % (8 * size))
    let old ← byteAt d (offset / 8 + size)
    let byteValue := (old.setWidth (8 * size) &&& ~~~valueMask).setWidth 8
    store d (offset / 8 + size) 1 (byteValue ||| valueToStore.setWidth 8)
  else some d

end Model.Native
