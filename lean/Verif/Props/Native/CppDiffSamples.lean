import Verif.Props.Native.CppDiff

/-!
# C96: examples and findings
-/

namespace Props
open Py Model.Native Spec

/-- The texts `a\nb\nc` and `a\nx\nc`: the explanation is ` "a"`, `+"x"`, `-"b"`, `...`; there are dots instead of ` "c"`, since it is the last line. -/
example : computeDiff [97, 10, 98, 10, 99] [97, 10, 120, 10, 99] 6 = some ([32, 34, 97, 34, 10] ++ [43, 34, 120, 34, 10] ++ [45, 34, 98, 34, 10] ++ [46, 46, 46, 10]) := by decide +kernel

/-- The hypothesis of `C96_explained` on it. -/
example : (toLines [97, 10, 98, 10, 99]).length + (toLines [97, 10, 120, 10, 99]).length ≤ 6 := by decide

/-- A longer text: lines `a` to `l`, the first one and the last one removed. There are two lines after the first change, dots, and three lines
before the second one. -/
example : (diffLines ((List.range 12).map fun i => [UInt8.ofNat (97 + i)]) ((List.range 10).map fun i => [UInt8.ofNat (98 + i)]) 22).map createContext =
    some [[45, 34, 97, 34], [32, 34, 98, 34], [32, 34, 99, 34], contextDots, [32, 34, 105, 34], [32, 34, 106, 34], [32, 34, 107, 34], [45, 34, 108, 34]] := by decide +kernel

/-- **C96** (finding N31). `create_context` writes to `result_mask[ diff.size( ) ]`, outside of the vector, whenever there are lines. -/
theorem C96_counterexample_write (diff : List Bytes) (h : diff ≠ []) : ∃ b, (diff.length, b) ∈ contextWrites diff diff.length (-1) := by
  cases diff with
  | nil => exact absurd rfl h
  | cons l ls =>
    rw [List.length_cons, contextWrites]
    exact ⟨_, List.mem_cons_self ..⟩

/-- **C96** (finding N32). Schemas that differ by a newline at the end are different, but there is nothing in the explanation. -/
theorem C96_counterexample_newline : ∃ expected found : Bytes, expected ≠ found ∧ computeDiff expected found 2 = some [] :=
  ⟨[97], [97, 10], by decide, by decide +kernel⟩

/-- **C96** (finding N31). The line after a change at the end of the text is not shown: the lines of a script are not shown symmetrically. -/
theorem C96_counterexample_last : ¬ Shown [.removed [97], .kept [98]] 1 ∧ Shown [.kept [98], .removed [97]] 0 := by
  constructor
  · rintro ⟨c, e, h1, h2, h3⟩
    simp only [List.length_cons, List.length_nil] at h3
    have : c = 1 := by
      match c with
      | 0 => omega
      | 1 => rfl
      | c + 2 => simp at h1
    subst this
    simp at h1
    subst h1
    simp [Edit.isChange] at h2
  · exact ⟨1, .removed [97], rfl, rfl, .inl ⟨by omega, by omega⟩⟩

end Props
