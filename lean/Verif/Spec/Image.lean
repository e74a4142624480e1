import Verif.Model.Structure
import Verif.Spec.Bits

/-!
# What a serialised structure holds and shows

Independent of the writing and reading code: the bytes of a structure are one number, made of the digits of its fields.
-/

namespace Spec
open Model

/-- The digits a field of width `w` stores for the value `v`, as a number: 1-bit fields store "is it 1", the others the residue
modulo `2 ^ w`. -/
def storedNat (w : Nat) (v : Int) : Nat := if w = 1 then (if v = 1 then 1 else 0) else (v % 2 ^ w).toNat

/-- The number made of the digits of the fields, the first field first. -/
def image (d : List (String × Int)) : List FieldDecl → Nat
  | [] => 0
  | f :: fs => storedNat f.width ((d.lookup f.name).getD 0) + 2 ^ f.width * image d fs

/-- What the field `f` at bit `o` shows after `v` was stored, if the fields `rest` follow: the stored value; an unsigned 64-bit
field that does not begin at a byte boundary also shows the bits that follow it in its last byte. -/
def shownValue (o : Nat) (f : FieldDecl) (rest : List FieldDecl) (d : List (String × Int)) (v : Int) : Int :=
  storedValue f.width f.isSigned v +
    if f.isSigned = false ∧ f.width = 64 ∧ o % 8 ≠ 0 then 2 ^ 64 * ((image d rest % 2 ^ (8 - o % 8) : Nat) : Int) else 0

/-- The bit at which field number `i` begins. -/
def bitOffset (fs : List FieldDecl) (i : Nat) : Nat := ((fs.take i).map (·.width)).sum

end Spec
