import Mathlib.Logic.Relation

/-!
# Graphs: reachability, distance, cycles
-/

namespace Spec
variable {V : Type}

/-- `b` can be reached from `a` in `n` steps. -/
inductive Walk (children : V → List V) : Nat → V → V → Prop
  | refl (a) : Walk children 0 a a
  | step {n a b c} : Walk children n a b → c ∈ children b → Walk children (n + 1) a c

/-- `b` can be reached from `a`. -/
def Reachable (children : V → List V) (a b : V) : Prop := ∃ n, Walk children n a b

/-- `d` is the length of the shortest walk from `a` to `b`. -/
def Distance (children : V → List V) (a b : V) (d : Nat) : Prop :=
  Walk children d a b ∧ ∀ n, Walk children n a b → d ≤ n

/-- `a` depends on itself. -/
def OnCycle (children : V → List V) (a : V) : Prop := ∃ n, Walk children (n + 1) a a

/-- `x` comes before `y` in the list. -/
def Before (l : List V) (x y : V) : Prop := ∃ a b c, l = a ++ x :: b ++ y :: c

end Spec
