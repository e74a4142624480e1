import Verif.Lemmas.Bits

namespace Py
open Spec

theorem digit_natCast (n k : Nat) : digit (n : Int) k = n.testBit k := by
  rw [digit, Nat.testBit_eq_decide_div_mod_eq]
  norm_cast

theorem testBit_eq_digit (v : Int) (k : Nat) : v.testBit k = digit v k := by
  cases v with
  | ofNat n => exact (digit_natCast n k).symm
  | negSucc n =>
    have h2 : (0 : Int) < 2 ^ k := by positivity
    have e : Int.negSucc n / 2 ^ k = -((n / 2 ^ k : Nat) : Int) - 1 := by
      rw [Int.negSucc_ediv _ h2]; push_cast
      rw [Int.neg_add]; rfl
    simp only [Int.testBit, digit, e, Nat.testBit_eq_decide_div_mod_eq]
    generalize n / 2 ^ k = q
    rcases Nat.mod_two_eq_zero_or_one q with h | h
    · have : (-(q : Int) - 1) % 2 = 1 := by omega
      simp [h, this]
    · have : (-(q : Int) - 1) % 2 = 0 := by omega
      simp [h, this]

theorem digit_bnot (v : Int) (k : Nat) : digit (bnot v) k = !digit v k := by
  rw [← testBit_eq_digit, ← testBit_eq_digit]
  have : bnot v = Int.lnot v := by
    cases v with
    | ofNat n => simp [bnot, Int.lnot, Int.negSucc_eq]; omega
    | negSucc n => simp [bnot, Int.lnot, Int.negSucc_eq]
  rw [this, Int.testBit_lnot]

theorem digit_emod (v : Int) (w k : Nat) : digit (v % 2 ^ w) k = (decide (k < w) && digit v k) := by
  by_cases h : k < w
  · simp only [h, decide_true, Bool.true_and, digit, decide_eq_decide]
    obtain ⟨j, rfl⟩ : ∃ j, w = k + (j + 1) := ⟨w - k - 1, by omega⟩
    have hk : (0 : Int) < 2 ^ k := by positivity
    have e : v / 2 ^ k = v % 2 ^ (k + (j + 1)) / 2 ^ k + 2 * (2 ^ j * (v / 2 ^ (k + (j + 1)))) := by
      conv_lhs => rw [← Int.emod_add_mul_ediv v (2 ^ (k + (j + 1)))]
      rw [show (2 : Int) ^ (k + (j + 1)) = 2 ^ k * (2 * 2 ^ j) by ring, Int.mul_assoc,
        Int.add_mul_ediv_left _ _ (ne_of_gt hk)]
      ring_nf
    omega
  · simp only [h, decide_false, Bool.false_and, digit]
    have h1 : (0 : Int) ≤ v % 2 ^ w := Int.emod_nonneg _ (by positivity)
    have h2 : v % 2 ^ w < 2 ^ w := Int.emod_lt_of_pos _ (by positivity)
    have h3 : (2 : Int) ^ w ≤ 2 ^ k := by
      have := Nat.pow_le_pow_right (n := 2) (by omega) (show w ≤ k by omega)
      exact_mod_cast this
    have : v % 2 ^ w / 2 ^ k = 0 := Int.ediv_eq_zero_of_lt h1 (by omega)
    simp [this]

theorem testBit_toNat_emod (v : Int) (w k : Nat) :
    (v % 2 ^ w).toNat.testBit k = (decide (k < w) && digit v k) := by
  rw [← digit_natCast, Int.toNat_of_nonneg (Int.emod_nonneg _ (by positivity)), digit_emod]

theorem digit_mul_pow (v : Int) (e k : Nat) :
    digit (v * 2 ^ e) k = (decide (e ≤ k) && digit v (k - e)) := by
  by_cases h : e ≤ k
  · obtain ⟨j, rfl⟩ : ∃ j, k = e + j := ⟨k - e, by omega⟩
    have he : (0 : Int) < 2 ^ e := by positivity
    simp only [h, decide_true, Bool.true_and, digit, Nat.add_sub_cancel_left]
    rw [show (2 : Int) ^ (e + j) = 2 ^ e * 2 ^ j by ring, Int.mul_comm v,
      Int.mul_ediv_mul_of_pos _ _ he]
  · obtain ⟨j, rfl⟩ : ∃ j, e = k + (j + 1) := ⟨e - k - 1, by omega⟩
    simp only [h, decide_false, Bool.false_and, digit]
    have hk : (2 : Int) ^ k ≠ 0 := by positivity
    have : v * 2 ^ (k + (j + 1)) / 2 ^ k = 2 * (v * 2 ^ j) := by
      rw [show v * 2 ^ (k + (j + 1)) = 2 ^ k * (2 * (v * 2 ^ j)) by ring, Int.mul_ediv_cancel_left _ hk]
    simp [this]

/-- `a & b` with a non-negative operand is non-negative -/
theorem band_right_nat (a : Int) (m : Nat) :
    ∃ n : Nat, band a m = n ∧ ∀ k, n.testBit k = (digit a k && m.testBit k) := by
  have : ∃ n : Nat, band a m = n := by
    cases a with
    | ofNat x => exact ⟨x &&& m, rfl⟩
    | negSucc x => exact ⟨Nat.ldiff m x, rfl⟩
  obtain ⟨n, hn⟩ := this
  refine ⟨n, hn, fun k => ?_⟩
  rw [← digit_natCast n, ← hn, ← testBit_eq_digit, band, Int.testBit_land, testBit_eq_digit,
    testBit_eq_digit, digit_natCast]

theorem band_left_nat (m : Nat) (a : Int) :
    ∃ n : Nat, band m a = n ∧ ∀ k, n.testBit k = (m.testBit k && digit a k) := by
  have : ∃ n : Nat, band m a = n := by
    cases a with
    | ofNat x => exact ⟨m &&& x, rfl⟩
    | negSucc x => exact ⟨Nat.ldiff m x, rfl⟩
  obtain ⟨n, hn⟩ := this
  refine ⟨n, hn, fun k => ?_⟩
  rw [← digit_natCast n, ← hn, ← testBit_eq_digit, band, Int.testBit_land, testBit_eq_digit,
    testBit_eq_digit, digit_natCast]

theorem testBit_mask (w k : Nat) : (2 ^ w - 1).testBit k = decide (k < w) :=
  Nat.testBit_two_pow_sub_one w k

/-- the masked and shifted value of `write_value` -/
theorem shifted_value (v : Int) (w e : Nat) :
    band (shl v e) (shl (shl 1 w - 1) e) = (((v % 2 ^ w).toNat * 2 ^ e : Nat) : Int) := by
  rw [shl_one, two_pow_sub_one_cast, shl_natCast]
  obtain ⟨n, hn, hb⟩ := band_right_nat (shl v e) ((2 ^ w - 1) * 2 ^ e)
  rw [hn]; congr 1
  apply Nat.eq_of_testBit_eq; intro k
  rw [hb, shl, digit_mul_pow, Nat.testBit_mul_two_pow, Nat.testBit_mul_two_pow, testBit_mask,
    testBit_toNat_emod]
  cases decide (e ≤ k) <;> simp [Bool.and_comm]

theorem toLE_length (n x : Nat) : (toLE n x).length = n := by
  induction n generalizing x with
  | zero => rfl
  | succ n ih => simp [toLE, ih]

theorem fromLE_toLE (n x : Nat) : fromLE (toLE n x) = x % 2 ^ (8 * n) := by
  induction n generalizing x with
  | zero => simp [toLE, fromLE, Nat.mod_one]
  | succ n ih =>
    simp only [toLE, fromLE, ih]
    have h256 : (UInt8.ofNat (x % 256)).toNat = x % 256 := by
      simp
    rw [h256]
    have : 2 ^ (8 * (n + 1)) = 256 * 2 ^ (8 * n) := by rw [Nat.mul_add, Nat.pow_add]; ring
    rw [this, Nat.mod_mul]

theorem bitAt_toLE (n x i : Nat) : bitAt (toLE n x) i = (decide (i < 8 * n) && x.testBit i) := by
  rw [← fromLE_testBit, fromLE_toLE, Nat.testBit_mod_two_pow]

theorem toBytes_nat {x n : Nat} {s : Bool} (hn : 0 < n) (h : x < 2 ^ (8 * n - 1)) :
    toBytes x n s = .ok (toLE n x) := by
  have h1 : (x : Int) < 2 ^ (8 * n - 1) := by exact_mod_cast h
  have h3 : x < 2 ^ (8 * n) := lt_of_lt_of_le h (Nat.pow_le_pow_right (by omega) (by omega))
  have h2 : (x : Int) < 2 ^ (8 * n) := by exact_mod_cast h3
  have h4 : -(2 ^ (8 * n - 1) : Int) ≤ x := by
    have : (0 : Int) ≤ 2 ^ (8 * n - 1) := by positivity
    omega
  cases s
  · simp [toBytes, h3, pure, Except.pure]
  · have h5 : ((x : Int) % 2 ^ (8 * n)).toNat = x := by
      rw [Int.emod_eq_of_lt (by omega) h2]; simp
    simp [toBytes, hn, h1, h4, pure, Except.pure, h5]

theorem setByte_ok {d : Bytes} {i x : Nat} (hi : i < d.length) (hx : x < 256) :
    setByte d i (x : Int) = .ok (d.set i (UInt8.ofNat x)) := by
  have : (x : Int) < 256 := by exact_mod_cast hx
  simp [setByte, hi, this, pure, Except.pure]

theorem bitAt_set {d : Bytes} {i : Nat} (b : UInt8) (hi : i < d.length) (j : Nat) :
    bitAt (d.set i b) j = if j / 8 = i then b.toNat.testBit (j % 8) else bitAt d j := by
  by_cases h : j / 8 = i
  · subst h; simp [bitAt, hi]
  · simp [bitAt, List.getD, Ne.symm h, h]

theorem testBit_byte {d : Bytes} {i k : Nat} (hk : k < 8) :
    (d.getD i 0).toNat.testBit k = bitAt d (8 * i + k) := by
  have h1 : (8 * i + k) / 8 = i := by omega
  have h2 : (8 * i + k) % 8 = k := by omega
  simp [bitAt, h1, h2]

theorem lt_256_of_testBit {n : Nat} (h : ∀ k, 8 ≤ k → n.testBit k = false) : n < 256 := by
  have := Nat.lt_pow_two_of_testBit (n := 8) n (fun i hi => h i hi)
  simpa using this

theorem byte_testBit_high (b : UInt8) {k : Nat} (hk : 8 ≤ k) : b.toNat.testBit k = false := by
  apply Nat.testBit_lt_two_pow
  calc b.toNat < 2 ^ 8 := b.toNat_lt
    _ ≤ 2 ^ k := Nat.pow_le_pow_right (by omega) hk

/-- Replacing byte `i` by a natural number given through its bits. -/
theorem setByte_bits {d : Bytes} {i x : Nat} (hi : i < d.length) (hx : ∀ k, 8 ≤ k → x.testBit k = false) :
    ∃ d', setByte d i (x : Int) = .ok d' ∧ d'.length = d.length ∧
      ∀ j, bitAt d' j = if j / 8 = i then x.testBit (j % 8) else bitAt d j := by
  have hx' := lt_256_of_testBit hx
  refine ⟨_, setByte_ok hi hx', by simp, fun j => ?_⟩
  rw [bitAt_set _ hi]
  have : (UInt8.ofNat x).toNat = x := by simp; omega
  rw [this]

end Py
