import Verif.Spec.Slice
import Mathlib.Data.List.Sort
import Mathlib.Tactic.Ring
import Mathlib.Tactic.Linarith

namespace Py
open Spec

theorem lt_rangeLen_pos {a b c : Int} (hc : 0 < c) (k : Nat) :
    k < rangeLen a b c ↔ a + c * k < b := by
  simp only [rangeLen, hc, if_true, Int.lt_toNat]
  rw [show ((k : Int) < (b - a + c - 1) / c) ↔ ((k : Int) + 1 ≤ (b - a + c - 1) / c) from Iff.rfl,
    Int.le_ediv_iff_mul_le hc]
  constructor <;> intro h <;> nlinarith

theorem lt_rangeLen_neg {a b c : Int} (hc : c < 0) (k : Nat) :
    k < rangeLen a b c ↔ b < a + c * k := by
  have h0 : ¬ 0 < c := by omega
  have hc' : 0 < -c := by omega
  simp only [rangeLen, h0, hc, if_true, if_false, Int.lt_toNat]
  rw [show ((k : Int) < (a - b + -c - 1) / (-c)) ↔ ((k : Int) + 1 ≤ (a - b + -c - 1) / (-c)) from Iff.rfl,
    Int.le_ediv_iff_mul_le hc']
  constructor <;> intro h <;> nlinarith

theorem mem_range {a b c x : Int} : x ∈ range a b c ↔ ∃ k : Nat, k < rangeLen a b c ∧ x = a + c * k := by
  simp [range, eq_comm]

theorem range_pairwise_pos {a b c : Int} (hc : 0 < c) : (range a b c).Pairwise (· < ·) := by
  unfold range
  rw [List.pairwise_map]
  refine List.Pairwise.imp ?_ List.pairwise_lt_range
  intro x y h
  have : (x : Int) < y := by exact_mod_cast h
  nlinarith

theorem range_pairwise_neg {a b c : Int} (hc : c < 0) : (range a b c).Pairwise (· > ·) := by
  unfold range
  rw [List.pairwise_map]
  refine List.Pairwise.imp ?_ List.pairwise_lt_range
  intro x y h
  have : (x : Int) < y := by exact_mod_cast h
  show a + c * y < a + c * x
  nlinarith

theorem range_length (a b c : Int) : (range a b c).length = rangeLen a b c := by simp [range]

/-- `slice.indices` + `range` compute the positions of the specification. -/
theorem indices_range (s : Slice) (n : Nat) (hs : s.step ≠ some 0) :
    ∃ a b c, s.indices n = .ok (a, b, c) ∧ range a b c = (selected n s).map (Nat.cast : Nat → Int) := by
  have hc : s.step.getD 1 ≠ 0 := by
    cases h : s.step with
    | none => simp
    | some x => rw [h] at hs; simpa using hs
  unfold Slice.indices selected
  generalize s.step.getD 1 = c at hc
  simp only [hc, if_false]
  refine ⟨_, _, _, rfl, ?_⟩
  by_cases hpos : 0 < c
  · have hneg : ¬ c < 0 := by omega
    simp only [hpos, hneg, if_true, if_false]
    apply List.Pairwise.eq_of_mem_iff (r := (· < ·)) (range_pairwise_pos hpos)
    · rw [List.pairwise_map]
      refine List.Pairwise.imp ?_ (List.pairwise_lt_range.filter _)
      intro x y h; exact_mod_cast h
    · intro x
      rw [mem_range]
      simp only [List.mem_map, List.mem_filter, List.mem_range, decide_eq_true_eq]
      constructor
      · rintro ⟨k, hk, rfl⟩
        rw [lt_rangeLen_pos hpos] at hk
        have hck : 0 ≤ c * (k : Int) := by positivity
        revert hk
        cases s.start <;> cases s.stop <;> simp only [adjustIndex, fromEnd] <;> intro hk
        · refine ⟨(c * (k : Int)).toNat, ⟨by omega, by omega, by omega, ?_⟩, by omega⟩
          rw [Int.toNat_of_nonneg hck]; simp
        · rename_i y
          refine ⟨(c * (k : Int)).toNat, ⟨by split at hk <;> omega, by omega, by split at hk <;> split <;> omega, ?_⟩,
            by omega⟩
          rw [Int.toNat_of_nonneg hck]; simp
        · rename_i x
          have e : (if x < 0 then max (x + n) 0 else min x n) = max 0 (if x < 0 then x + n else x) := by
            split at hk <;> split <;> omega
          rw [e] at hk ⊢
          refine ⟨(max 0 (if x < 0 then x + n else x) + c * (k : Int)).toNat, ⟨by omega, by omega, by omega, ?_⟩,
            by omega⟩
          rw [Int.toNat_of_nonneg (by omega)]; simp
        · rename_i x y
          have e : (if x < 0 then max (x + n) 0 else min x n) = max 0 (if x < 0 then x + n else x) := by
            split at hk <;> split at hk <;> split <;> omega
          rw [e] at hk ⊢
          refine ⟨(max 0 (if x < 0 then x + n else x) + c * (k : Int)).toNat,
            ⟨by split at hk <;> omega, by omega, by split at hk <;> split <;> omega, ?_⟩, by omega⟩
          rw [Int.toNat_of_nonneg (by omega)]; simp
      · rintro ⟨i, ⟨hi, hlo, hhi, hdvd⟩, rfl⟩
        revert hlo hhi hdvd
        cases s.start <;> cases s.stop <;> simp only [adjustIndex, fromEnd] <;> rintro hlo hhi ⟨q, hq⟩
        all_goals
          have hq0 : 0 ≤ q := by
            by_contra hneg
            have : c * q < 0 := by nlinarith
            omega
          refine ⟨q.toNat, ?_, ?_⟩
        all_goals first | rw [lt_rangeLen_pos hpos] | skip
        all_goals rw [Int.toNat_of_nonneg hq0]
        all_goals (repeat' split at hhi) <;> (repeat' split at hlo) <;> (repeat' split at hq) <;> (repeat' split) <;> omega
  · have hneg : c < 0 := by omega
    simp only [hpos, hneg, if_true, if_false]
    apply List.Pairwise.eq_of_mem_iff (r := (· > ·)) (range_pairwise_neg hneg)
    · rw [List.pairwise_map]
      refine List.Pairwise.imp ?_ (List.Pairwise.filter _ (List.pairwise_reverse.mpr List.pairwise_lt_range))
      intro x y h; exact_mod_cast h
    · intro x
      rw [mem_range]
      simp only [List.mem_map, List.mem_filter, List.mem_reverse, List.mem_range, decide_eq_true_eq]
      constructor
      · rintro ⟨k, hk, rfl⟩
        rw [lt_rangeLen_neg hneg] at hk
        have hck : c * (k : Int) ≤ 0 := by nlinarith [Int.natCast_nonneg k]
        revert hk
        generalize hz : c * (k : Int) = z at *
        have hdz : c ∣ z := ⟨k, hz.symm⟩
        cases s.start <;> cases s.stop <;> simp only [adjustIndex, fromEnd] <;> intro hk
        · refine ⟨((n : Int) - 1 + z).toNat, ⟨by omega, by omega, by omega, ?_⟩, by omega⟩
          rw [Int.toNat_of_nonneg (by omega)]
          exact (by simpa using hdz)
        · rename_i y
          refine ⟨((n : Int) - 1 + z).toNat, ⟨by split at hk <;> omega, by split at hk <;> omega, by split at hk <;> split <;> omega, ?_⟩,
            by split at hk <;> omega⟩
          rw [Int.toNat_of_nonneg (by split at hk <;> omega)]
          exact (by simpa using hdz)
        · rename_i x
          have e : (if x < 0 then max (x + n) (-1) else min x ((n : Int) - 1)) =
              min ((n : Int) - 1) (if x < 0 then x + n else x) := by
            split at hk <;> split <;> omega
          rw [e] at hk ⊢
          refine ⟨(min ((n : Int) - 1) (if x < 0 then x + n else x) + z).toNat, ⟨by omega, by omega, by omega, ?_⟩,
            by omega⟩
          rw [Int.toNat_of_nonneg (by omega)]
          exact (by simpa using hdz)
        · rename_i x y
          have e : (if x < 0 then max (x + n) (-1) else min x ((n : Int) - 1)) =
              min ((n : Int) - 1) (if x < 0 then x + n else x) := by
            split at hk <;> split at hk <;> split <;> omega
          rw [e] at hk ⊢
          refine ⟨(min ((n : Int) - 1) (if x < 0 then x + n else x) + z).toNat,
            ⟨by split at hk <;> omega, by split at hk <;> omega, by split at hk <;> split <;> omega, ?_⟩,
            by split at hk <;> omega⟩
          rw [Int.toNat_of_nonneg (by split at hk <;> omega)]
          exact (by simpa using hdz)
      · rintro ⟨i, ⟨hi, hhi, hlo, hdvd⟩, rfl⟩
        revert hlo hhi hdvd
        cases s.start <;> cases s.stop <;> simp only [adjustIndex, fromEnd] <;> rintro hhi hlo ⟨q, hq⟩
        all_goals
          have hq0 : q ≤ 0 := by
            by_contra hpos'
            have : c * q < 0 := by nlinarith
            omega
          have hqn : ((-q).toNat : Int) = -q := Int.toNat_of_nonneg (by omega)
          have hmul : c * -q = - (c * q) := by ring
          refine ⟨(-q).toNat, ?_, ?_⟩
        all_goals first | rw [lt_rangeLen_neg hneg] | skip
        all_goals rw [hqn, hmul]
        all_goals (repeat' split at hhi) <;> (repeat' split at hlo) <;> (repeat' split at hq) <;> (repeat' split) <;> omega

theorem indices_zero (s : Slice) (n : Nat) (hs : s.step = some 0) : s.indices n = .error .valueError := by
  simp [Slice.indices, hs]; rfl

theorem mem_selected_lt {n : Nat} {s : Slice} {i : Nat} (h : i ∈ selected n s) : i < n := by
  unfold selected at h
  simp only at h
  split at h
  · simp only [List.mem_filter, List.mem_range] at h; exact h.1
  · simp only [List.mem_filter, List.mem_reverse, List.mem_range] at h; exact h.1

theorem mapM_ok {α β : Type _} {f : α → M β} {g : α → β} {l : List α} (h : ∀ x ∈ l, f x = .ok (g x)) :
    l.mapM f = .ok (l.map g) := by
  induction l with
  | nil => rfl
  | cons x xs ih =>
    rw [List.mapM_cons, h x (by simp), ih fun y hy => h y (by simp [hy])]; rfl

/-- slicing a built-in sequence follows the specification -/
theorem sliceSeq_eq {α : Type _} (l : List α) (s : Slice) (hs : s.step ≠ some 0) :
    sliceSeq l s = .ok (sliced l s) := by
  obtain ⟨a, b, c, h1, h2⟩ := indices_range s l.length hs
  simp only [sliceSeq, h1, bind, Except.bind, h2, sliced, pure, Except.pure]
  rw [List.filterMap_map]
  rfl

end Py
