import Verif.Spec.Shape

/-!
# What holds of accepted schemas

Statements about the nodes of a syntax tree: a node is given by its path (`Tree.descend`), references by what `find` returns
for their target.
-/

namespace Spec
open Gen

/-- The value of a constant fits into `w` bits of a type. -/
def FitsIn (b : BasicName) (v : Int) (w : Nat) : Prop :=
  if b.isSigned then 0 < w ∧ -(2 ^ (w - 1)) ≤ v ∧ v < 2 ^ (w - 1) else 0 ≤ v ∧ v < 2 ^ w

/-- Ranges: the name of a range is not the name of a field of the structure, and the field is not optional. -/
def RangesOk (t : Tree) : Prop :=
  ∀ p s f ty name o, t.descend p = some s → f ∈ s.children → f.kind = .field ty (some name) o → name ≠ [] →
    (∀ g ∈ s.children, ∀ gt gr go, g.kind = .field gt gr go → g.name ≠ name) ∧ ∀ c ∈ f.children, c.kind ≠ .ref .invalidValue

/-- The structure has a field with a range. -/
def HasRange (s : Tree) : Prop := ∃ f ∈ s.children, ∃ ty name o, f.kind = .field ty (some name) o ∧ name ≠ []

/-- Structures with ranges are used by vectors only. -/
def RangeUseOk (t : Tree) : Prop :=
  ∀ p r ref s k o m, t.descend p = some r → r.kind = .resource k o m → ref ∈ r.children → ref.kind = .ref .structure →
    t.find ref.target = .ok s → HasRange s → k = .vector

/-- Constants of fields: the same type, a value that fits, and at most one constant that means "no value". -/
def FieldConstantsOk (t : Tree) : Prop :=
  ∀ p f ty rg o, t.descend p = some f → f.kind = .field ty rg o →
    (∀ ref ∈ f.children, ref.kind = .ref .constantValue ∨ ref.kind = .ref .invalidValue →
      ∃ n b ct v, t.find ref.target = .ok n ∧ n.kind = .constant ct v ∧ ty = .basic b ∧ b.name = ct.name ∧ FitsIn b.name v b.width) ∧
    ∀ a ∈ f.children, ∀ b ∈ f.children, a.kind = .ref .invalidValue → b.kind = .ref .invalidValue → a = b

/-- A field refers to the constant at `c`. -/
def FieldRefersTo (t : Tree) (c : Path) : Prop :=
  ∃ p f ref, t.descend p = some f ∧ (∃ ty rg o, f.kind = .field ty rg o) ∧ ref ∈ f.children ∧
    (ref.kind = .ref .constantValue ∨ ref.kind = .ref .invalidValue) ∧ ref.target = pathText c

/-- A node has a reference to the constant at `c`. -/
def RefersTo (n : Tree) (c : Path) : Prop := ∃ ref ∈ n.children, ref.kind = .ref .constantValue ∧ ref.target = pathText c

/-- The structure of an explicit reference is one of the types of its resource. -/
def ExplicitReferencesOk (t : Tree) : Prop :=
  ∀ p r e ref, t.descend p = some r → e ∈ r.children → e.kind = .explicitReference → ref ∈ e.children →
    ref.kind = .ref .structure → ∃ x ∈ r.children, x.kind = .ref .structure ∧ x.target = ref.target

end Spec
