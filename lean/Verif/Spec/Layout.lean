import Verif.Model.Gen.Passes

/-!
# Memory layout of structures, limits of resources
-/

namespace Spec
open Gen

/-- The number of bits a node occupies in a structure: fields their width, other nodes nothing. -/
def bitsOf : Kind → Nat
  | .field (.basic b) _ _ => b.width
  | .field (.enum _ b) _ _ => b.width
  | _ => 0

/-- The sum of the bits of some nodes. -/
def totalBits (ns : List Tree) : Nat := (ns.map fun n => bitsOf n.kind).sum

/-- Every field begins where the fields declared before it end, and the structure ends with its last field. -/
def LaidOut (s : Tree) : Prop :=
  s.kind = .structure (some (totalBits s.children)) ∧
  ∀ (i : Nat) c t r o, s.children[i]? = some c → c.kind = .field t r o → o = some (totalBits (s.children.take i))

/-- The explicit reference `e` uses a field of `w` bits to refer to the resource at `p`, so the resource may have at most
`2 ^ w` elements. (64 bits can count anything.) -/
def LimitBy (t : Tree) (e : Tree) (p : Path) (limit : Nat) : Prop :=
  ∃ f ∈ e.children, ∃ d ∈ e.children, ∃ fn ty rg o w,
    f.kind = .ref .field ∧ t.find f.target = .ok fn ∧ fn.kind = .field ty rg o ∧ ty.width = .ok w ∧ w ≠ 64 ∧
    (d.kind = .ref .resource ∨ d.kind = .ref .vector) ∧ d.target = pathText p ∧ limit = 2 ^ w

/-- Some explicit reference anywhere in the schema imposes this limit on the resource at `p`. -/
def Limit (t : Tree) (p : Path) (limit : Nat) : Prop :=
  ∃ q e, t.descend q = some e ∧ e.kind = .explicitReference ∧ LimitBy t e p limit

/-- The least number that satisfies `P`, if there is any. -/
def Least (P : Nat → Prop) : Option Nat → Prop
  | none => ∀ n, ¬ P n
  | some m => P m ∧ ∀ n, P n → m ≤ n

end Spec
