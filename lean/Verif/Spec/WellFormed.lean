import Verif.Spec.Accepted
import Verif.Spec.Graph

/-!
# When a schema with resolved names is well-formed

`t` is a syntax tree in which every reference points to a node; nothing has been computed yet: fields of enumeration types have
no type, there are no offsets, sizes and limits.
-/

namespace Spec
open Gen

/-- In a tree with names that are not resolved yet: every reference means a node of a class that fits, and no two references of one
definition mean the same node. -/
structure NamesOk (t : Tree) : Prop where
  fits : ∀ p n ref rk, t.descend p = some n → ref ∈ n.children → ref.kind = .ref rk →
    ∃ q m, Means t p ref.target q ∧ t.descend q = some m ∧ KindFits rk m.kind
  distinct : ∀ p n a b ra rb q, t.descend p = some n → a ∈ n.children → b ∈ n.children → a.kind = .ref ra → b.kind = .ref rb →
    Means t p a.target q → Means t p b.target q → a = b

/-- A width declared for a field with an enumeration type is zero or the width of the enumeration. -/
def EnumWidthsOk (t : Tree) : Prop :=
  ∀ p f ty rg o ref w e b, t.descend p = some f → f.kind = .field ty rg o → ref ∈ f.children → ref.kind = .ref (.enumeration (some w)) →
    t.find ref.target = .ok e → e.kind = .enumeration b → w ≠ 0 → w = b.width

/-- A node depends on what it contains and on the definitions to which it refers; an archive also depends on every constant to
which no field refers. -/
def DependsOn (t : Tree) (p q : Path) : Prop :=
  ∃ n, t.descend p = some n ∧
    ((∃ c ∈ n.children, (∀ rk, c.kind ≠ .ref rk) ∧ q = p ++ [c.name]) ∨
     (∃ ref ∈ n.children, (∃ rk, ref.kind = .ref rk ∧ rk.isType = true) ∧ ref.targetPath = q) ∨
     (n.kind = .archive ∧ (∃ c ty v, t.descend q = some c ∧ c.kind = .constant ty v) ∧ ¬ FieldRefersTo t q))

/-- Nothing depends on itself. -/
def Acyclic (t : Tree) : Prop := ∀ p, ¬ Relation.TransGen (DependsOn t) p p

/-- All conditions. -/
structure WellFormed (t : Tree) : Prop where
  ranges : RangesOk t
  rangeUse : RangeUseOk t
  widths : EnumWidthsOk t
  acyclic : Acyclic t
  constants : FieldConstantsOk t
  explicit : ExplicitReferencesOk t

end Spec
