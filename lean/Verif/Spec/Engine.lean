import Verif.Model.Gen.Tree

/-! # The outermost namespace of a schema -/

namespace Spec
open Gen

/-- The word `builtin` occurs in a name. -/
def MentionsBuiltin (name : Text) : Prop := ∃ a b, name = a ++ "builtin".toList ++ b

/-- `k` is the only outermost namespace, apart from those with `builtin` in their names. -/
def OnlyNamespace (t : Tree) (k : Text) : Prop :=
  ¬ MentionsBuiltin k ∧ (∃ n, t.descend [k] = some n ∧ n.kind = .namespace) ∧
    ∀ k' n, t.descend [k'] = some n → n.kind = .namespace → ¬ MentionsBuiltin k' → k' = k

end Spec
