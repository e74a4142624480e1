import Verif.Py.Basic

/-!
# Specification of Python list slicing

Written from the language reference, not from CPython's algorithm: which positions `l[a:b:c]` selects,
and in which order.
-/

namespace Spec
open Py

/-- Negative bounds count from the end. -/
def fromEnd (n : Nat) (x : Int) : Int := if x < 0 then x + n else x

/-- The positions selected by `l[a:b:c]` in a list of length `n` (for `c ≠ 0`), in order of
selection. Ascending: every `c`-th position from `max 0 a` on that is below `b`. Descending: every
`(-c)`-th position from `min (n-1) a` downwards that is above `b`. -/
def selected (n : Nat) (s : Slice) : List Nat :=
  let c := s.step.getD 1
  if 0 < c then
    let lo : Int := match s.start with | none => 0 | some x => max 0 (fromEnd n x)
    let hi : Int := match s.stop with | none => n | some x => fromEnd n x
    (List.range n).filter fun i => decide (lo ≤ i ∧ (i : Int) < hi ∧ c ∣ (i : Int) - lo)
  else
    let hi : Int := match s.start with | none => (n : Int) - 1 | some x => min ((n : Int) - 1) (fromEnd n x)
    let lo : Int := match s.stop with | none => -1 | some x => fromEnd n x
    (List.range n).reverse.filter fun i => decide ((i : Int) ≤ hi ∧ lo < i ∧ c ∣ hi - (i : Int))

/-- The list `l[a:b:c]`. -/
def sliced {α : Type _} (l : List α) (s : Slice) : List α := (selected l.length s).filterMap (l[·]?)

example : sliced [10, 11, 12, 13, 14, 15, 16] ⟨some 1, some (-1), some 2⟩ = [11, 13, 15] := by decide
example : sliced [10, 11, 12, 13, 14, 15, 16] ⟨some (-2), none, some (-3)⟩ = [15, 12] := by decide

end Spec
