import Verif.Spec.Bits
import Verif.Model.Native.Members

/-!
# What comparison and copying of structures are to mean
-/

namespace Spec
open Py Model.Native

/-- Two buffers have the same `w` bits from bit `o` on. -/
def SameBits (a b : Bytes) (o w : Nat) : Prop := ∀ k, k < w → bitAt a (o + k) = bitAt b (o + k)

/-- The `w` bits from bit `o` on are the digits of `v`. -/
def BitsAre (d : Bytes) (o w : Nat) (v : Int) : Prop := ∀ k, k < w → bitAt d (o + k) = digit v k

/-- Bit `i` belongs to one of the fields, given by their first bits and numbers of bits. -/
def InsideFields (fields : List (Nat × Nat)) (i : Nat) : Prop := ∃ f ∈ fields, f.1 ≤ i ∧ i < f.1 + f.2

/-- From bit `o` on the fields follow each other without gaps, up to bit `e`. -/
def Consecutive : Nat → List (Nat × Nat) → Nat → Prop
  | o, [], e => o = e
  | o, f :: fs, e => f.1 = o ∧ Consecutive (o + f.2) fs e

/-- The places of the fields. -/
def rustPlaces (slots : List RustSlot) : List (Nat × Nat) := slots.map fun s => (s.offset, s.width)

/-- The places of the fields. -/
def cppPlaces (slots : List CppSlot) : List (Nat × Nat) := slots.map fun s => (s.offset, s.width)

end Spec
