import Verif.Lemmas.IntBits
import Verif.Lemmas.Read

namespace Model
open Py Spec

theorem getByte_toLE {n x i : Nat} (hi : i < n) :
    ∃ b : Nat, getByte (toLE n x) i = .ok (b : Int) ∧
      ∀ k, b.testBit k = (decide (k < 8) && x.testBit (8 * i + k)) := by
  refine ⟨((toLE n x).getD i 0).toNat, getByte_ok (by rw [toLE_length]; exact hi), fun k => ?_⟩
  by_cases hk : k < 8
  · rw [testBit_byte hk, bitAt_toLE]
    have : 8 * i + k < 8 * n := by omega
    simp [hk, this]
  · simp [hk, byte_testBit_high _ (by omega : 8 ≤ k)]

theorem writeFirst_bits (n V o : Nat) (d : Bytes) (hn : 0 < n) (ho : o / 8 < d.length) :
    ∃ d', writeFirst (toLE n V) o d = .ok d' ∧ d'.length = d.length ∧
      ∀ j, bitAt d' j = if j / 8 = o / 8 then
          (V.testBit (j % 8) || (decide (j % 8 < o) && bitAt d j)) else bitAt d j := by
  obtain ⟨b0, hb0, hbit⟩ := getByte_toLE (x := V) hn
  have hb0' : ∀ k, 8 ≤ k → b0.testBit k = false := by
    intro k hk; rw [hbit]; simp [show ¬ k < 8 by omega]
  obtain ⟨d1, h1, hl1, hd1⟩ := setByte_bits ho hb0'
  have ho1 : o / 8 < d1.length := by omega
  have hcur : (d1.getD (o / 8) 0).toNat = b0 := by
    apply Nat.eq_of_testBit_eq; intro k
    by_cases hk : k < 8
    · rw [testBit_byte hk, hd1]
      have e1 : (8 * (o / 8) + k) / 8 = o / 8 := by omega
      have e2 : (8 * (o / 8) + k) % 8 = k := by omega
      simp [e1, e2]
    · rw [byte_testBit_high _ (by omega), hb0' _ (by omega)]
  have hx : ∀ k, 8 ≤ k → (b0 ||| (d.getD (o / 8) 0).toNat % 2 ^ o).testBit k = false := by
    intro k hk
    rw [Nat.testBit_or, hb0' k hk, Nat.testBit_mod_two_pow, byte_testBit_high _ hk]; simp
  obtain ⟨d2, h2, hl2, hd2⟩ := setByte_bits ho1 hx
  refine ⟨d2, ?_, by omega, fun j => ?_⟩
  · simp only [writeFirst, getByte_ok ho, hb0, h1, getByte_ok ho1, bind, Except.bind, hcur, band_mask,
      bor_natCast, h2]
  · rw [hd2]
    by_cases hj : j / 8 = o / 8
    · have hk : j % 8 < 8 := by omega
      have e : 8 * (o / 8) + j % 8 = j := by omega
      simp only [hj, if_true, Nat.testBit_or, hbit, Nat.testBit_mod_two_pow, testBit_byte hk, hk,
        decide_true, Bool.true_and, e]
      simp
    · simp [hj, hd1]

theorem writeLoop_bits (n V ob : Nat) (fuel idx : Nat) (d : Bytes) (hn : idx + fuel ≤ n)
    (hl : ob + idx + fuel ≤ d.length) :
    ∃ d', writeLoop (toLE n V) ob fuel idx d = .ok d' ∧ d'.length = d.length ∧
      ∀ j, bitAt d' j = if ob + idx ≤ j / 8 ∧ j / 8 < ob + idx + fuel then V.testBit (j - 8 * ob)
        else bitAt d j := by
  induction fuel generalizing idx d with
  | zero =>
    refine ⟨d, rfl, rfl, fun j => ?_⟩
    rw [if_neg]; omega
  | succ fuel ih =>
    obtain ⟨b, hb, hbit⟩ := getByte_toLE (x := V) (show idx < n by omega)
    have hb' : ∀ k, 8 ≤ k → b.testBit k = false := by
      intro k hk; rw [hbit]; simp [show ¬ k < 8 by omega]
    obtain ⟨d1, h1, hl1, hd1⟩ := setByte_bits (show ob + idx < d.length by omega) hb'
    obtain ⟨d2, h2, hl2, hd2⟩ := ih (idx + 1) d1 (by omega) (by omega)
    refine ⟨d2, ?_, by omega, fun j => ?_⟩
    · simp only [writeLoop, hb, h1, bind, Except.bind, h2]
    · rw [hd2, hd1]
      by_cases hj : j / 8 = ob + idx
      · have e : 8 * idx + j % 8 = j - 8 * ob := by omega
        rw [if_neg (by omega), if_pos hj, if_pos (by omega), hbit, e]
        simp [show j % 8 < 8 by omega]
      · by_cases hj2 : ob + (idx + 1) ≤ j / 8 ∧ j / 8 < ob + (idx + 1) + fuel
        · rw [if_pos hj2, if_pos (by omega)]
        · rw [if_neg hj2, if_neg hj, if_neg (by omega)]

theorem writeLast_bits (V o w : Nat) (d : Bytes) (hw : 2 ≤ w) (hl : o + w ≤ 8 * d.length) :
    ∃ d', writeLast (toLE ((w + 7) / 8 + 1) V) o w d = .ok d' ∧ d'.length = d.length ∧
      ∀ j, bitAt d' j = if j / 8 = o / 8 + (w + 7) / 8 ∧ 8 * ((w + 7) / 8) - o % 8 < w then
          ((decide (j % 8 < o % 8) && V.testBit (j - 8 * (o / 8))) || (bitAt d j && !decide (j % 8 < o)))
        else bitAt d j := by
  by_cases hc : 8 * ((w + 7) / 8) - o % 8 < w
  · have hc' : ((((w + 7) / 8 : Nat) : Int) * 8) - (o % 8 : Nat) < (w : Int) := by omega
    have hm : max 1 ((w + 7) / 8) = (w + 7) / 8 := by omega
    have hlen : o / 8 + (w + 7) / 8 < d.length := by omega
    obtain ⟨b, hb, hbit⟩ := getByte_toLE (x := V) (show (w + 7) / 8 < (w + 7) / 8 + 1 by omega)
    obtain ⟨sb, hsb, hsbit⟩ := band_left_nat ((d.getD (o / 8 + (w + 7) / 8) 0).toNat) (bnot (shl 1 o - 1))
    have hk : 8 - ((((w + 7) / 8 : Nat) : Int) * 8 - (o % 8 : Nat)) % 8 = ((o % 8 : Nat) : Int) := by
      omega
    have hm2 : shlChecked 1 ((o % 8 : Nat) : Int) = .ok (shl 1 (o % 8)) := by
      have : ¬ (((o % 8 : Nat) : Int) < 0) := by omega
      simp only [shlChecked, this, if_false, Int.toNat_natCast]; rfl
    have hx1 : ∀ k, 8 ≤ k → (b % 2 ^ (o % 8)).testBit k = false := by
      intro k hk; rw [Nat.testBit_mod_two_pow, hbit]; simp [show ¬ k < 8 by omega]
    obtain ⟨d1, h1, hl1, hd1⟩ := setByte_bits hlen hx1
    have hlen1 : o / 8 + (w + 7) / 8 < d1.length := by omega
    have hcur : (d1.getD (o / 8 + (w + 7) / 8) 0).toNat = b % 2 ^ (o % 8) := by
      apply Nat.eq_of_testBit_eq; intro k
      by_cases hk : k < 8
      · rw [testBit_byte hk, hd1]
        have e1 : (8 * (o / 8 + (w + 7) / 8) + k) / 8 = o / 8 + (w + 7) / 8 := by omega
        have e2 : (8 * (o / 8 + (w + 7) / 8) + k) % 8 = k := by omega
        simp [e1, e2]
      · rw [byte_testBit_high _ (by omega), hx1 _ (by omega)]
    have hx2 : ∀ k, 8 ≤ k → (b % 2 ^ (o % 8) ||| sb).testBit k = false := by
      intro k hk; rw [Nat.testBit_or, hx1 k hk, hsbit, byte_testBit_high _ hk]; rfl
    obtain ⟨d2, h2, hl2, hd2⟩ := setByte_bits hlen1 hx2
    refine ⟨d2, ?_, by omega, fun j => ?_⟩
    · simp only [writeLast, hc', if_true, hm, getByte_ok hlen, bind, Except.bind, hb, hsb, hk, hm2,
        band_mask, h1, getByte_ok hlen1, hcur, bor_natCast, h2]
    · rw [hd2]
      by_cases hj : j / 8 = o / 8 + (w + 7) / 8
      · have hk8 : j % 8 < 8 := by omega
        have e : 8 * ((w + 7) / 8) + j % 8 = j - 8 * (o / 8) := by omega
        have e2 : 8 * (o / 8 + (w + 7) / 8) + j % 8 = j := by omega
        have hdg : digit (bnot (shl 1 o - 1)) (j % 8) = !decide (j % 8 < o) := by
          rw [digit_bnot, shl_one, two_pow_sub_one_cast, digit_natCast, testBit_mask]
        simp only [hj, hc, and_self, if_true, Nat.testBit_or, Nat.testBit_mod_two_pow, hbit, hsbit, hdg,
          testBit_byte hk8, e, e2, hk8, decide_true, Bool.true_and]
      · simp [hj, hd1]
  · have hc' : ¬ ((((w + 7) / 8 : Nat) : Int) * 8) - (o % 8 : Nat) < (w : Int) := by omega
    refine ⟨d, ?_, rfl, fun j => ?_⟩
    · simp only [writeLast, hc', if_false]; rfl
    · simp [hc]

/-- exact effect of `write_value` on every bit, widths 2..64 -/
theorem writeValue_bits (d : Bytes) (o w : Nat) (s : Bool) (v : Int) (hw : 2 ≤ w) (hw' : w ≤ 64)
    (hfit : o + w ≤ 8 * d.length) :
    ∃ d', writeValue d o w s v = .ok d' ∧ d'.length = d.length ∧
      ∀ j, bitAt d' j =
        if j / 8 = o / 8 then
          ((decide (o ≤ j ∧ j < o + w) && digit v (j - o)) || (decide (j % 8 < o) && bitAt d j))
        else if o / 8 < j / 8 ∧ j / 8 < o / 8 + (w + 7) / 8 then decide (j < o + w) && digit v (j - o)
        else if j / 8 = o / 8 + (w + 7) / 8 ∧ 8 * ((w + 7) / 8) - o % 8 < w then
          ((decide (j < o + w) && digit v (j - o)) || (bitAt d j && !decide (j % 8 < o)))
        else bitAt d j := by
  have h1 : ¬ w = 1 := by omega
  have hV : ∀ k, ((v % 2 ^ w).toNat * 2 ^ (o % 8)).testBit k =
      (decide (o % 8 ≤ k) && (decide (k - o % 8 < w) && digit v (k - o % 8))) := by
    intro k; rw [Nat.testBit_mul_two_pow, testBit_toNat_emod]
  have hlt : (v % 2 ^ w).toNat * 2 ^ (o % 8) < 2 ^ (8 * ((w + 7) / 8 + 1) - 1) := by
    have ha : (v % 2 ^ w).toNat < 2 ^ w := by
      have := Int.emod_lt_of_pos v (show (0 : Int) < 2 ^ w by positivity)
      have h0 := Int.emod_nonneg v (show (2 : Int) ^ w ≠ 0 by positivity)
      zify [h0]; rw [Int.toNat_of_nonneg h0]; exact this
    calc (v % 2 ^ w).toNat * 2 ^ (o % 8) < 2 ^ w * 2 ^ (o % 8) :=
          Nat.mul_lt_mul_of_pos_right ha (by positivity)
      _ = 2 ^ (w + o % 8) := by rw [Nat.pow_add]
      _ ≤ _ := Nat.pow_le_pow_right (by omega) (by omega)
  have htb := toBytes_nat (s := s) (show 0 < (w + 7) / 8 + 1 by omega) hlt
  generalize hVd : (v % 2 ^ w).toNat * 2 ^ (o % 8) = V at *
  obtain ⟨d1, e1, l1, b1⟩ := writeFirst_bits ((w + 7) / 8 + 1) V o d (by omega) (by omega)
  obtain ⟨d2, e2, l2, b2⟩ := writeLoop_bits ((w + 7) / 8 + 1) V (o / 8) ((w + 7) / 8 - 1) 1 d1
    (by omega) (by omega)
  obtain ⟨d3, e3, l3, b3⟩ := writeLast_bits V o w d2 hw (by omega)
  refine ⟨d3, ?_, by omega, fun j => ?_⟩
  · simp only [writeValue, hw', not_true, if_false, h1, bind, Except.bind]
    rw [shifted_value, hVd, htb]
    simp only [e1, e2, e3]
  · rw [b3, b2, b1]
    by_cases hj : j / 8 = o / 8
    · rw [if_neg (by omega), if_neg (by omega), if_pos hj, if_pos hj, hV]
      congr 1
      by_cases hoj : o ≤ j
      · have e : j % 8 - o % 8 = j - o := by omega
        have e' : (o % 8 ≤ j % 8) := by omega
        have e'' : (j - o < w) ↔ (j < o + w) := by omega
        simp [e, e', hoj, e'']
      · have e' : ¬ (o % 8 ≤ j % 8) := by omega
        simp [hoj, e']
    · simp only [hj, if_false]
      by_cases hj2 : o / 8 < j / 8 ∧ j / 8 < o / 8 + (w + 7) / 8
      · rw [if_neg (by omega), if_pos (by omega), if_pos hj2, hV]
        have e : j - 8 * (o / 8) - o % 8 = j - o := by omega
        have e' : (o % 8 ≤ j - 8 * (o / 8)) := by omega
        have e'' : (j - o < w) ↔ (j < o + w) := by omega
        simp [e, e', e'']
      · rw [if_neg hj2]
        by_cases hj3 : j / 8 = o / 8 + (w + 7) / 8 ∧ 8 * ((w + 7) / 8) - o % 8 < w
        · rw [if_pos hj3, if_pos hj3, if_neg (by omega), hV]
          congr 1
          have e : j - 8 * (o / 8) - o % 8 = j - o := by omega
          have e' : (o % 8 ≤ j - 8 * (o / 8)) := by omega
          have e'' : (j - o < w) ↔ (j < o + w) := by omega
          by_cases hjw : j < o + w
          · have : j % 8 < o % 8 := by omega
            simp [e, e', e'', hjw, this]
          · simp [e, e'', hjw]
        · rw [if_neg hj3, if_neg hj3, if_neg (by omega)]

theorem writeValue_one_bits (d : Bytes) (o : Nat) (s : Bool) (v : Int) (hfit : o + 1 ≤ 8 * d.length) :
    ∃ d', writeValue d o 1 s v = .ok d' ∧ d'.length = d.length ∧
      ∀ j, bitAt d' j = if j = o then decide (v = 1) else bitAt d j := by
  have hlen : o / 8 < d.length := by omega
  have hb : ∀ k, 8 ≤ k → ((d.getD (o / 8) 0).toNat).testBit k = false :=
    fun k hk => byte_testBit_high _ hk
  by_cases hv : v = 1
  · have hx : ∀ k, 8 ≤ k → ((d.getD (o / 8) 0).toNat ||| 2 ^ (o % 8)).testBit k = false := by
      intro k hk
      rw [Nat.testBit_or, hb k hk, Nat.testBit_two_pow]
      simp; omega
    obtain ⟨d1, h1, hl1, hd1⟩ := setByte_bits hlen hx
    refine ⟨d1, ?_, hl1, fun j => ?_⟩
    · simp only [writeValue, writeBit, show ¬ ¬ (1 ≤ 64) by omega, if_false, if_true, getByte_ok hlen, hv,
        bind, Except.bind, shl_one, bor_natCast, h1]
    · rw [hd1]
      by_cases hj : j / 8 = o / 8
      · have hk8 : j % 8 < 8 := by omega
        have e2 : 8 * (o / 8) + j % 8 = j := by omega
        simp only [hj, if_true, Nat.testBit_or, testBit_byte hk8, e2, Nat.testBit_two_pow, hv]
        by_cases hjo : j = o
        · simp [hjo]
        · simp [hjo]; omega
      · rw [if_neg hj, if_neg (by rintro rfl; exact hj rfl)]
  · obtain ⟨sb, hsb, hsbit⟩ := band_left_nat ((d.getD (o / 8) 0).toNat) (bnot (shl 1 (o % 8)))
    have hx : ∀ k, 8 ≤ k → sb.testBit k = false := by
      intro k hk; rw [hsbit, hb k hk]; rfl
    obtain ⟨d1, h1, hl1, hd1⟩ := setByte_bits hlen hx
    refine ⟨d1, ?_, hl1, fun j => ?_⟩
    · simp only [writeValue, writeBit, show ¬ ¬ (1 ≤ 64) by omega, if_false, if_true, getByte_ok hlen, hv,
        bind, Except.bind, hsb, h1]
    · rw [hd1]
      by_cases hj : j / 8 = o / 8
      · have hk8 : j % 8 < 8 := by omega
        have e2 : 8 * (o / 8) + j % 8 = j := by omega
        have hdg : digit (bnot (shl 1 (o % 8))) (j % 8) = !decide (o % 8 = j % 8) := by
          rw [digit_bnot, shl_one, digit_natCast, Nat.testBit_two_pow]
        simp only [hj, if_true, hsbit, testBit_byte hk8, e2, hdg, hv, decide_false]
        by_cases hjo : j = o
        · simp [hjo]
        · have : ¬ o % 8 = j % 8 := by omega
          simp [hjo, this]
      · rw [if_neg hj, if_neg (by rintro rfl; exact hj rfl)]

end Model
