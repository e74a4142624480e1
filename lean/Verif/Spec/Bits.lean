import Verif.Py.Basic

/-!
# Specification of bit-level storage

What "the integer stored in a field" means, independent of the code.
-/

namespace Spec
open Py

/-- Bit `i` of a buffer: bit `i mod 8` of byte `i div 8` (bits outside the buffer are 0). -/
def bitAt (d : Bytes) (i : Nat) : Bool := (d.getD (i / 8) 0).toNat.testBit (i % 8)

/-- The natural number whose `k`-th binary digit is bit `o + k` of the buffer, for `k < w`. -/
def unsignedAt (d : Bytes) (o : Nat) : Nat → Nat
  | 0 => 0
  | w + 1 => unsignedAt d o w + (if bitAt d (o + w) then 2 ^ w else 0)

/-- Two's complement reading of a `w`-digit number. -/
def twosComplement (w : Nat) (n : Nat) : Int :=
  if 2 ^ w ≤ 2 * n then (n : Int) - 2 ^ w else n

/-- The integer stored in the `w` bits from `o` on. -/
def fieldValue (d : Bytes) (o w : Nat) (signed : Bool) : Int :=
  if signed then twosComplement w (unsignedAt d o w) else unsignedAt d o w

/-- The values a field of width `w` can hold. -/
def InRange (w : Nat) (signed : Bool) (v : Int) : Prop :=
  if signed then -(2 ^ w : Int) ≤ 2 * v ∧ 2 * v < 2 ^ w else 0 ≤ v ∧ v < 2 ^ w

/-- Digit `k` of the (infinite) two's complement representation of `v`. -/
def digit (v : Int) (k : Nat) : Bool := decide (v / 2 ^ k % 2 = 1)

/-- The residue of `v` modulo `2^w` that lies in the range of the field. -/
def wrap (w : Nat) (signed : Bool) (v : Int) : Int :=
  if signed then twosComplement w (v % 2 ^ w).toNat else v % 2 ^ w

/-- The bit a write of `v` into a `w`-bit field stores as digit `k` (1-bit fields: "is it 1"). -/
def storedDigit (w : Nat) (v : Int) (k : Nat) : Bool := if w = 1 then decide (v = 1) else digit v k

/-- What a field holds after storing `v`: 1-bit fields hold "is it 1", wider ones the residue. -/
def storedValue (w : Nat) (s : Bool) (v : Int) : Int := if w = 1 then (if v = 1 then 1 else 0) else wrap w s v

instance (w : Nat) (s : Bool) (v : Int) : Decidable (InRange w s v) := by
  unfold InRange; split <;> infer_instance

end Spec
