import Verif.Lemmas.Bits
import Verif.Model.DataAccess

namespace Model
open Py Spec

/-- number of bits `read_value` really extracts for widths 2..64 -/
def rawWidth (o w : Nat) : Nat := if w < 64 ∨ o % 8 = 0 then w else 72 - o % 8

theorem read_core (N o w : Nat) (hw : 2 ≤ w) :
    N / 2 ^ (8 * (o / 8)) % 2 ^ (8 * ((w + 7) / 8)) / 2 ^ (o % 8)
      = N / 2 ^ o % 2 ^ (8 * ((w + 7) / 8) - o % 8) := by
  apply Nat.eq_of_testBit_eq; intro i
  simp only [Nat.testBit_mod_two_pow, Nat.testBit_div_two_pow]
  have : i + o % 8 + 8 * (o / 8) = i + o := by omega
  rw [this]
  have h8 : 1 ≤ (w + 7) / 8 := by omega
  congr 1
  simp only [decide_eq_decide]; omega

theorem read_core2 (N o t : Nat) (ht : 1 ≤ t) :
    (N / 2 ^ o % 2 ^ (8 * t - o % 8)) |||
      (N / 2 ^ (8 * (o / 8 + t)) % 2 ^ 8 * 2 ^ (8 * t - o % 8))
      = N / 2 ^ o % 2 ^ (8 * t - o % 8 + 8) := by
  apply Nat.eq_of_testBit_eq; intro i
  simp only [Nat.testBit_or, Nat.testBit_mod_two_pow, Nat.testBit_div_two_pow, Nat.testBit_mul_two_pow]
  by_cases h : i < 8 * t - o % 8
  · have h1 : ¬ (8 * t - o % 8 ≤ i) := by omega
    have h2 : i < 8 * t - o % 8 + 8 := by omega
    simp [h, h1, h2]
  · have h1 : (8 * t - o % 8 ≤ i) := by omega
    have e : i - (8 * t - o % 8) + 8 * (o / 8 + t) = i + o := by omega
    simp only [h, h1, e, decide_true, decide_false, Bool.false_and, Bool.false_or, Bool.true_and]
    congr 1
    simp only [decide_eq_decide]; omega

/-- the unsigned intermediate result of `read_value` -/
theorem read_result (d : Bytes) (o w : Nat) (hw : 2 ≤ w) (hw' : w ≤ 64)
    (hfit : 8 * ((w + 7) / 8) - o % 8 < w → o / 8 + (w + 7) / 8 < d.length) :
    readBits d o w
      = .ok ((unsignedAt d o (rawWidth o w) : Nat) : Int) := by
  have h8 : 1 ≤ (w + 7) / 8 := by omega
  simp only [readBits]
  rw [fromLE_slice, shr_natCast, read_core _ _ _ hw, unsignedAt_eq]
  by_cases hc : ((((w + 7) / 8 : Nat) : Int) * 8) - (o % 8 : Nat) < (w : Int)
  · have hc' : 8 * ((w + 7) / 8) - o % 8 < w := by omega
    have hlen : o / 8 + (w + 7) / 8 < d.length := hfit hc'
    have hk : ¬ ((((w + 7) / 8 : Nat) : Int) * 8) - (o % 8 : Nat) < 0 := by omega
    have hn : (((((w + 7) / 8 : Nat) : Int) * 8) - (o % 8 : Nat)).toNat = 8 * ((w + 7) / 8) - o % 8 := by
      omega
    simp only [hc, if_true, getByte_ok hlen, shlChecked, hk, if_false, hn, byte_eq]
    simp only [bind, Except.bind, pure, Except.pure, shl_natCast, bor_natCast,
      read_core2 _ _ _ h8, band_mask]
    by_cases hw64 : w < 64
    · simp only [hw64, if_true, rawWidth, true_or]
      rw [Nat.mod_mod_of_dvd]
      exact Nat.pow_dvd_pow 2 (by omega)
    · have hw64' : w = 64 := by omega
      have ho : ¬ o % 8 = 0 := by omega
      simp only [hw64, if_false, rawWidth, ho, or_self]
      subst hw64'
      have : 8 * ((64 + 7) / 8) - o % 8 + 8 = 72 - o % 8 := by omega
      rw [this]
  · simp only [hc, if_false, bind, Except.bind, pure, Except.pure, band_mask]
    by_cases hw64 : w < 64
    · simp only [hw64, if_true, rawWidth, true_or]
      rw [Nat.mod_mod_of_dvd]
      exact Nat.pow_dvd_pow 2 (by omega)
    · have hw64' : w = 64 := by omega
      have ho : o % 8 = 0 := by omega
      simp only [hw64, if_false, rawWidth, ho, or_true, if_true]
      subst hw64'; rfl

theorem sign_core (r w : Nat) (hw : 1 ≤ w) :
    ((r % 2 ^ (w - 1) : Nat) : Int) - (((r.testBit (w - 1)).toNat * 2 ^ (w - 1) : Nat) : Int)
      = twosComplement w (r % 2 ^ w) := by
  obtain ⟨k, rfl⟩ : ∃ k, w = k + 1 := ⟨w - 1, by omega⟩
  have hr : r % 2 ^ (k + 1) = r % 2 ^ k + 2 ^ k * (r / 2 ^ k % 2) := Nat.mod_pow_succ
  have hlt : r % 2 ^ k < 2 ^ k := Nat.mod_lt _ (by positivity)
  rw [Nat.testBit_eq_decide_div_mod_eq]
  simp only [Nat.add_sub_cancel, twosComplement]
  rcases Nat.mod_two_eq_zero_or_one (r / 2 ^ k) with h | h
  · rw [hr, h]
    have : ¬ 2 ^ (k + 1) ≤ 2 * (r % 2 ^ k + 2 ^ k * 0) := by
      rw [pow_succ]; omega
    simp only [this, if_false]; simp
  · rw [hr, h]
    have : 2 ^ (k + 1) ≤ 2 * (r % 2 ^ k + 2 ^ k * 1) := by
      rw [pow_succ]; omega
    simp only [this, if_true]; push_cast; simp [pow_succ]; ring

theorem unsignedAt_mod (d : Bytes) (o w w' : Nat) (h : w ≤ w') :
    unsignedAt d o w' % 2 ^ w = unsignedAt d o w := by
  rw [unsignedAt_eq, unsignedAt_eq, Nat.mod_mod_of_dvd]
  exact Nat.pow_dvd_pow 2 h

theorem rawWidth_ge {o w : Nat} (hw : w ≤ 64) : w ≤ rawWidth o w := by
  unfold rawWidth; split <;> omega

/-- exact result of `read_value` for widths 2..64, as long as the trailing byte (if any) exists -/
theorem readValue_eq' (d : Bytes) (o w : Nat) (s : Bool) (hw : 2 ≤ w) (hw' : w ≤ 64)
    (hfit : 8 * ((w + 7) / 8) - o % 8 < w → o / 8 + (w + 7) / 8 < d.length) :
    readValue d o w s = .ok (if s then twosComplement w (unsignedAt d o w)
      else (unsignedAt d o (rawWidth o w) : Int)) := by
  have h1 : ¬ w = 1 := by omega
  have key := read_result d o w hw hw' hfit
  cases s with
  | false =>
    simp [readValue, h1, key, bind, Except.bind, pure, Except.pure]
  | true =>
    have hs : signBits w = .ok (shl 1 (w - 1)) := by
      have : ¬ w = 0 := by omega
      simp [signBits, this, hw', pure, Except.pure]
    simp only [readValue, h1, key, hs, bind, Except.bind, pure, Except.pure, if_false,
      Bool.true_eq_false, if_true]
    rw [band_mask, band_pow, sign_core _ _ (by omega), unsignedAt_mod _ _ _ _ (rawWidth_ge hw')]

/-- exact result of `read_value` for widths 2..64 inside the buffer -/
theorem readValue_eq (d : Bytes) (o w : Nat) (s : Bool) (hw : 2 ≤ w) (hw' : w ≤ 64)
    (hfit : o + w ≤ 8 * d.length) :
    readValue d o w s = .ok (if s then twosComplement w (unsignedAt d o w)
      else (unsignedAt d o (rawWidth o w) : Int)) :=
  readValue_eq' d o w s hw hw' (by omega)

theorem readValue_err (d : Bytes) (o w : Nat) (s : Bool) (hw : 2 ≤ w)
    (h : 8 * ((w + 7) / 8) - o % 8 < w) (hl : d.length ≤ o / 8 + (w + 7) / 8) :
    readValue d o w s = .error .indexError := by
  have h1 : ¬ w = 1 := by omega
  have hc : ((((w + 7) / 8 : Nat) : Int) * 8) - (o % 8 : Nat) < (w : Int) := by omega
  simp only [readValue, h1, if_false, readBits, hc, if_true, getByte_err hl, bind, Except.bind]

theorem readValue_one (d : Bytes) (o : Nat) (s : Bool) (hfit : o + 1 ≤ 8 * d.length) :
    readValue d o 1 s = .ok (if bitAt d o then 1 else 0) := by
  have hlen : o / 8 < d.length := by omega
  simp only [readValue, if_true, getByte_ok hlen, bind, Except.bind, band_pow, pure, Except.pure]
  have : (d.getD (o / 8) 0).toNat.testBit (o % 8) = bitAt d o := rfl
  rw [this]
  cases bitAt d o <;> simp

end Model
