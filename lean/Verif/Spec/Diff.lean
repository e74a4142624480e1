import Verif.Py.Basic

/-!
# Differences of texts
-/

namespace Spec
open Py

/-- These are the lines of the text: the text is the lines, each followed by a newline, where the last newline can be missing. -/
def LinesOf (text : Bytes) (lines : List Bytes) : Prop :=
  (∀ l ∈ lines, 10 ∉ l) ∧ (text = lines.flatMap (· ++ [10]) ∨ text ≠ [] ∧ text ++ [10] = lines.flatMap (· ++ [10]))

/-- A step of an edit script. -/
inductive Edit where
  | kept (line : Bytes)
  | removed (line : Bytes)
  | added (line : Bytes)
  deriving DecidableEq, Repr

/-- The lines before the edit. -/
def editBefore (s : List Edit) : List Bytes := s.filterMap fun
  | .kept l => some l
  | .removed l => some l
  | .added _ => none

/-- The lines after the edit. -/
def editAfter (s : List Edit) : List Bytes := s.filterMap fun
  | .kept l => some l
  | .removed _ => none
  | .added l => some l

def Edit.isChange : Edit → Bool
  | .kept _ => false
  | _ => true

/-- The number of removed and added lines. -/
def editCost (s : List Edit) : Nat := s.countP Edit.isChange

/-- A script from `a` to `b` with as few changes as possible. -/
structure ShortestScript (a b : List Bytes) (s : List Edit) : Prop where
  before : editBefore s = a
  after : editAfter s = b
  shortest : ∀ s', editBefore s' = a → editAfter s' = b → editCost s ≤ editCost s'

/-- How an edit is shown: a sign and the line in quotation marks. -/
def Edit.text : Edit → Bytes
  | .kept l => [32, 34] ++ l ++ [34]
  | .removed l => [45, 34] ++ l ++ [34]
  | .added l => [43, 34] ++ l ++ [34]

/-- The edit number `k` is shown if it is a change, or one of the three edits before a change, or one of the two edits after a change and not
the last one. -/
def Shown (s : List Edit) (k : Nat) : Prop :=
  ∃ c e, s[c]? = some e ∧ e.isChange = true ∧ (k ≤ c ∧ c ≤ k + 3 ∨ c < k ∧ k ≤ c + 2 ∧ k + 1 < s.length)

end Spec
