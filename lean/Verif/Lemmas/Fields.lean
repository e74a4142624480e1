import Verif.Lemmas.Write

namespace Model
open Py Spec

theorem unsignedAt_testBit (d : Bytes) (o w k : Nat) :
    (unsignedAt d o w).testBit k = (decide (k < w) && bitAt d (o + k)) := by
  rw [unsignedAt_eq, Nat.testBit_mod_two_pow, Nat.testBit_div_two_pow, fromLE_testBit, Nat.add_comm]

theorem unsignedAt_lt (d : Bytes) (o w : Nat) : unsignedAt d o w < 2 ^ w := by
  rw [unsignedAt_eq]; exact Nat.mod_lt _ (by positivity)

/-- a field whose bits are the digits of `v` holds `v mod 2^w` -/
theorem unsignedAt_of_bits {d : Bytes} {o w : Nat} {v : Int}
    (h : ∀ k, k < w → bitAt d (o + k) = digit v k) : unsignedAt d o w = (v % 2 ^ w).toNat := by
  apply Nat.eq_of_testBit_eq; intro k
  rw [unsignedAt_testBit, testBit_toNat_emod]
  by_cases hk : k < w
  · simp [hk, h k hk]
  · simp [hk]

theorem unsignedAt_extend {d : Bytes} {o w w' : Nat} (hww : w ≤ w')
    (h : ∀ i, o + w ≤ i → i < o + w' → bitAt d i = false) : unsignedAt d o w' = unsignedAt d o w := by
  apply Nat.eq_of_testBit_eq; intro k
  rw [unsignedAt_testBit, unsignedAt_testBit]
  by_cases hk : k < w
  · simp [hk, show k < w' by omega]
  · by_cases hk' : k < w'
    · simp [hk, h (o + k) (by omega) (by omega)]
    · simp [hk, hk']

theorem unsignedAt_extend_iff {d : Bytes} {o w w' : Nat} (hww : w ≤ w') :
    unsignedAt d o w' = unsignedAt d o w ↔ ∀ i, o + w ≤ i → i < o + w' → bitAt d i = false := by
  refine ⟨fun he i hi hi' => ?_, unsignedAt_extend hww⟩
  have := congrArg (fun n => n.testBit (i - o)) he
  simp only [unsignedAt_testBit] at this
  rw [show o + (i - o) = i by omega] at this
  simpa [show i - o < w' by omega, show ¬ i - o < w by omega] using this

theorem emod_toNat_cast (v : Int) (w : Nat) : (((v % 2 ^ w).toNat : Nat) : Int) = v % 2 ^ w :=
  Int.toNat_of_nonneg (Int.emod_nonneg _ (by positivity))

/-- an in-range value equals its wrapped value -/
theorem wrap_of_inRange {w : Nat} {s : Bool} {v : Int} (h : InRange w s v) : wrap w s v = v := by
  cases s with
  | false =>
    simp only [InRange, Bool.false_eq_true, if_false] at h
    simp only [wrap, Bool.false_eq_true, if_false]
    exact Int.emod_eq_of_lt h.1 h.2
  | true =>
    simp only [InRange, if_true] at h
    simp only [wrap, if_true, twosComplement, emod_toNat_cast]
    have hp : (0 : Int) < 2 ^ w := by positivity
    by_cases h0 : 0 ≤ v
    · have e : v % 2 ^ w = v := Int.emod_eq_of_lt h0 (by omega)
      rw [e, if_neg]
      intro hc; zify at hc
      rw [Int.toNat_of_nonneg h0] at hc; omega
    · have e : v % 2 ^ w = v + 2 ^ w := by
        rw [← Int.add_emod_right]; exact Int.emod_eq_of_lt (by omega) (by omega)
      rw [e, if_pos]
      · omega
      · zify; rw [Int.toNat_of_nonneg (by omega)]; omega

/-- wrapped values are in range -/
theorem inRange_wrap (w : Nat) (s : Bool) (v : Int) : InRange w s (wrap w s v) := by
  have hp : (0 : Int) < 2 ^ w := by positivity
  have h0 := Int.emod_nonneg v (ne_of_gt hp)
  have h1 := Int.emod_lt_of_pos v hp
  cases s with
  | false => simp [InRange, wrap, h0, h1]
  | true =>
    simp only [InRange, wrap, if_true, twosComplement, emod_toNat_cast]
    split
    · rename_i hc; zify at hc; rw [emod_toNat_cast] at hc; omega
    · rename_i hc; zify at hc; rw [emod_toNat_cast] at hc; omega

/-- reading a field whose bits are the digits of `v` -/
theorem readValue_of_bits {d : Bytes} {o w : Nat} {s : Bool} {v : Int} (hw : 2 ≤ w) (hw' : w ≤ 64)
    (hfit : o + w ≤ 8 * d.length) (h : ∀ k, k < w → bitAt d (o + k) = digit v k)
    (hu : s = false → w = 64 → o % 8 ≠ 0 →
      ∀ i, o + 64 ≤ i → i < 8 * (o / 8 + 9) → bitAt d i = false) :
    readValue d o w s = .ok (wrap w s v) := by
  rw [readValue_eq d o w s hw hw' hfit]
  cases s with
  | true => simp [wrap, unsignedAt_of_bits h]
  | false =>
    simp only [wrap, Bool.false_eq_true, if_false]
    have : unsignedAt d o (rawWidth o w) = unsignedAt d o w := by
      apply unsignedAt_extend (rawWidth_ge hw')
      intro i hi hi'
      unfold rawWidth at hi'
      split at hi'
      · omega
      · rename_i hc
        have hw64 : w = 64 := by omega
        exact hu rfl hw64 (by omega) i (by omega) (by omega)
    rw [this, unsignedAt_of_bits h, emod_toNat_cast]

end Model
