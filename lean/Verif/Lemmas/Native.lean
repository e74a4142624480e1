import Verif.Lemmas.Fields
import Verif.Native.Basic

namespace Native
open Py Spec Model

theorem load_bits {d : Bytes} {a n : Nat} {x : BitVec (8 * n)} (h : load d a n = some x) (i : Nat) :
    x.getLsbD i = (decide (i < 8 * n) && bitAt d (8 * a + i)) := by
  unfold load at h
  split at h
  · simp only [Option.some.injEq] at h; subst h
    rw [BitVec.getLsbD_ofNat, fromLE_testBit, bitAt_slice]
    have : a + n - a = n := by omega
    rw [this]; cases decide (i < 8 * n) <;> simp
  · cases h

theorem load_some {d : Bytes} {a n : Nat} (h : a + n ≤ d.length) : ∃ x, load d a n = some x := by
  simp [load, h]

theorem load_none {d : Bytes} {a n : Nat} (h : d.length < a + n) : load d a n = none := by
  have : ¬ a + n ≤ d.length := by omega
  simp [load, this]

theorem byteAt_bits {d : Bytes} {a : Nat} {x : BitVec 8} (h : byteAt d a = some x) (i : Nat) :
    x.getLsbD i = (decide (i < 8) && bitAt d (8 * a + i)) := load_bits (n := 1) h i

theorem byteAt_some {d : Bytes} {a : Nat} (h : a < d.length) : ∃ x, byteAt d a = some x := load_some (n := 1) h

theorem byteAt_none {d : Bytes} {a : Nat} (h : d.length ≤ a) : byteAt d a = none :=
  load_none (n := 1) (by omega)

theorem store_some {d : Bytes} {a n : Nat} (x : BitVec (8 * n)) (h : a + n ≤ d.length) :
    ∃ d', store d a n x = some d' := by
  simp [store, h]

theorem toLE_length (n x : Nat) : (toLE n x).length = n := by
  induction n generalizing x with
  | zero => rfl
  | succ n ih => simp [toLE, ih]

theorem store_bits {d d' : Bytes} {a n : Nat} {x : BitVec (8 * n)} (h : store d a n x = some d') :
    d'.length = d.length ∧
      ∀ j, bitAt d' j = if 8 * a ≤ j ∧ j < 8 * (a + n) then x.getLsbD (j - 8 * a) else bitAt d j := by
  unfold store at h
  split at h
  · rename_i hl
    simp only [Option.some.injEq] at h; subst h
    refine ⟨by simp [toLE_length]; omega, fun j => ?_⟩
    by_cases h1 : j < 8 * a
    · rw [if_neg (by omega)]
      have : j / 8 < a := by omega
      unfold bitAt
      congr 2
      simp only [List.getD]
      rw [List.append_assoc, List.getElem?_append_left (by simp; omega)]
      rw [List.getElem?_take_of_lt this]
    · by_cases h2 : j < 8 * (a + n)
      · rw [if_pos ⟨by omega, h2⟩]
        have e := bitAt_toLE n x.toNat (j - 8 * a)
        have h3 : decide (j - 8 * a < 8 * n) = true := by simp; omega
        rw [h3, Bool.true_and] at e
        rw [BitVec.getLsbD, ← e]
        unfold bitAt
        have h4 : (j - 8 * a) / 8 = j / 8 - a := by omega
        have h5 : (j - 8 * a) % 8 = j % 8 := by omega
        rw [h4, h5]
        congr 2
        simp only [List.getD]
        rw [List.append_assoc, List.getElem?_append_right (by simp; omega),
          List.getElem?_append_left (by simp [toLE_length]; omega)]
        simp; congr 2; omega
      · rw [if_neg (by omega)]
        unfold bitAt
        congr 2
        simp only [List.getD]
        rw [List.getElem?_append_right (by simp [toLE_length]; omega), List.getElem?_drop]
        congr 2
        simp [toLE_length]; omega
  · cases h

/-- a bit vector whose bits are those of a field has the field's value -/
theorem toNat_field {n : Nat} {x : BitVec n} {d : Bytes} {o w : Nat}
    (h : ∀ i, x.getLsbD i = (decide (i < w) && bitAt d (o + i))) : x.toNat = unsignedAt d o w := by
  apply Nat.eq_of_testBit_eq; intro i
  rw [unsignedAt_testBit, ← h]; rfl

theorem toInt_twos {n : Nat} (x : BitVec n) : x.toInt = twosComplement n x.toNat := by
  rw [BitVec.toInt_eq_toNat_cond, twosComplement]
  by_cases h : 2 * x.toNat < 2 ^ n
  · rw [if_pos h, if_neg (by omega)]
  · rw [if_neg h, if_pos (by omega)]; push_cast; rfl

theorem lowMask_bits {n w : Nat} (hw : w < n) (i : Nat) :
    ((1#n <<< w) - 1#n).getLsbD i = decide (i < w) := by
  have h1 : ((1#n <<< w) - 1#n).toNat = 2 ^ w - 1 := by
    have hlt : 2 ^ w < 2 ^ n := Nat.pow_lt_pow_right (by omega) hw
    have hp : 1 ≤ 2 ^ w := Nat.one_le_two_pow
    have hn : 1 < 2 ^ n := by omega
    rw [BitVec.toNat_sub, BitVec.toNat_shiftLeft, BitVec.toNat_ofNat, Nat.shiftLeft_eq,
      Nat.mod_eq_of_lt hn, Nat.one_mul, Nat.mod_eq_of_lt hlt]
    have e : 2 ^ n - 1 + 2 ^ w = (2 ^ w - 1) + 2 ^ n := by omega
    rw [e, Nat.add_mod_right, Nat.mod_eq_of_lt (by omega)]
  rw [BitVec.getLsbD, h1, Nat.testBit_two_pow_sub_one]

theorem setWidth_toInt {n w : Nat} {x : BitVec n} {d : Bytes} {o : Nat}
    (h : ∀ i, x.getLsbD i = (decide (i < w) && bitAt d (o + i))) :
    (x.setWidth w).toInt = twosComplement w (unsignedAt d o w) := by
  rw [toInt_twos, BitVec.toNat_setWidth, toNat_field h, Nat.mod_eq_of_lt (unsignedAt_lt _ _ _)]

/-- the digits of an integer are the bits of its fixed-width representation -/
theorem ofInt_bits {n : Nat} (v : Int) (i : Nat) :
    (BitVec.ofInt n v).getLsbD i = (decide (i < n) && digit v i) := by
  by_cases hi : i < n
  · rw [BitVec.getLsbD, BitVec.toNat_ofInt]
    simp only [hi, decide_true, Bool.true_and, digit, Nat.testBit_eq_decide_div_mod_eq]
    rw [decide_eq_decide]
    have hpos : (0 : Int) < 2 ^ n := by positivity
    obtain ⟨m, hm⟩ : ∃ m : Nat, v % 2 ^ n = m := Int.eq_ofNat_of_zero_le (Int.emod_nonneg _ (by omega))
    have hm' : v % ((2 ^ n : Nat) : Int) = m := by push_cast; exact hm
    rw [hm', Int.toNat_natCast]
    have hv : v = m + 2 ^ n * (v / 2 ^ n) := by
      rw [← hm]; exact (Int.emod_add_mul_ediv v (2 ^ n)).symm
    have hpow : (2 : Int) ^ n = 2 ^ i * (2 * 2 ^ (n - i - 1)) := by
      rw [← pow_succ', ← pow_add]; congr 1; omega
    have e : v / 2 ^ i = (m : Int) / 2 ^ i + 2 * (2 ^ (n - i - 1) * (v / 2 ^ n)) := by
      conv_lhs => rw [hv, hpow]
      rw [mul_assoc, Int.add_mul_ediv_left _ _ (by positivity), mul_assoc]
      rw [hpow]
    rw [e, Int.add_mul_emod_self_left]
    norm_cast
  · rw [BitVec.getLsbD_of_ge _ _ (by omega)]; simp [hi]

theorem valueOf_ofInt (s : Bool) (n : Nat) (v : Int) : valueOf s (BitVec.ofInt n v) = wrap n s v := by
  cases s with
  | true => simp [valueOf, wrap, toInt_twos, BitVec.toNat_ofInt]
  | false =>
    simp only [valueOf, wrap, BitVec.toNat_ofInt, Bool.false_eq_true, if_false]
    push_cast; exact emod_toNat_cast v n

theorem inRange_mono {w b : Nat} {s : Bool} {v : Int} (hwb : w ≤ b) (h : InRange w s v) : InRange b s v := by
  have hp : (2 : Int) ^ w ≤ 2 ^ b := by exact_mod_cast Nat.pow_le_pow_right (n := 2) (by omega) hwb
  cases s <;> simp [InRange] at h ⊢ <;> omega

theorem inRange_fieldValue (d : Bytes) (o w : Nat) (s : Bool) : InRange w s (fieldValue d o w s) := by
  have h := unsignedAt_lt d o w
  zify at h
  cases s
  · simp [InRange, fieldValue, h]
  · simp only [InRange, fieldValue, if_true, twosComplement]
    split
    · rename_i h'; zify at h'; omega
    · rename_i h'; zify at h'; omega

/-- a field of one bit, unsigned -/
theorem bit_test {d : Bytes} {a k : Nat} {b : BitVec 8} (hb : byteAt d a = some b) (hk : k < 8) :
    (b &&& (1#8 <<< k) ≠ 0#8) ↔ bitAt d (8 * a + k) = true := by
  have h1 : ∀ i, (b &&& (1#8 <<< k)).getLsbD i = (decide (i = k) && bitAt d (8 * a + k)) := by
    intro i
    rw [BitVec.getLsbD_and, byteAt_bits hb, BitVec.getLsbD_shiftLeft]
    by_cases hik : i = k
    · subst hik; simp [hk]
    · by_cases h8 : i < 8
      · by_cases hlt : i < k
        · simp [hik, h8, hlt]
        · have : i - k ≠ 0 := by omega
          simp [hik, h8, hlt, this]
      · simp [hik, h8]
  constructor
  · intro hne
    by_contra hc
    apply hne
    apply BitVec.eq_of_getLsbD_eq
    intro i _
    have hf : bitAt d (8 * a + k) = false := by simpa using hc
    rw [h1, hf]; simp
  · intro h hz
    have := h1 k
    rw [hz] at this
    simp [h] at this

end Native
