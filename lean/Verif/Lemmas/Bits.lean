import Verif.Spec.Bits
import Mathlib.Tactic.Ring
import Mathlib.Tactic.Linarith

namespace Py
open Spec

theorem band_natCast (a b : Nat) : band (a : Int) (b : Int) = ((a &&& b : Nat) : Int) := rfl
theorem bor_natCast (a b : Nat) : bor (a : Int) (b : Int) = ((a ||| b : Nat) : Int) := rfl

theorem shl_natCast (a k : Nat) : shl (a : Int) k = ((a * 2 ^ k : Nat) : Int) := by
  simp [shl]
theorem shr_natCast (a k : Nat) : shr (a : Int) k = ((a / 2 ^ k : Nat) : Int) := by
  simp [shr]
theorem shl_one (k : Nat) : shl 1 k = ((2 ^ k : Nat) : Int) := by simp [shl]

theorem two_pow_sub_one_cast (k : Nat) : ((2 ^ k : Nat) : Int) - 1 = ((2 ^ k - 1 : Nat) : Int) := by
  have : 1 ≤ 2 ^ k := Nat.one_le_two_pow
  push_cast [Nat.cast_sub this]; rfl

theorem band_mask (a k : Nat) : band (a : Int) (shl 1 k - 1) = ((a % 2 ^ k : Nat) : Int) := by
  rw [shl_one, two_pow_sub_one_cast, band_natCast, Nat.and_two_pow_sub_one_eq_mod]

theorem band_pow (a k : Nat) :
    band (a : Int) (shl 1 k) = (((a.testBit k).toNat * 2 ^ k : Nat) : Int) := by
  rw [shl_one, band_natCast, Nat.and_two_pow]

theorem fromLE_lt (d : Bytes) : fromLE d < 2 ^ (8 * d.length) := by
  induction d with
  | nil => simp [fromLE]
  | cons b bs ih =>
    have hb : b.toNat < 256 := b.toNat_lt
    have : 2 ^ (8 * (b :: bs).length) = 256 * 2 ^ (8 * bs.length) := by
      simp [List.length_cons, Nat.mul_add, Nat.pow_add]; ring
    simp only [fromLE]; rw [this]; omega

theorem fromLE_testBit (d : Bytes) (i : Nat) : (fromLE d).testBit i = bitAt d i := by
  induction d generalizing i with
  | nil => simp [fromLE, bitAt]
  | cons b bs ih =>
    have hb : b.toNat < 2 ^ 8 := b.toNat_lt
    have : fromLE (b :: bs) = 2 ^ 8 * fromLE bs + b.toNat := by simp [fromLE]; omega
    rw [this, Nat.testBit_two_pow_mul_add _ hb]
    split
    · rename_i h
      have h1 : i / 8 = 0 := by omega
      have h2 : i % 8 = i := by omega
      simp [bitAt, h1, h2]
    · rename_i h
      rw [ih]
      obtain ⟨j, rfl⟩ : ∃ j, i = j + 8 := ⟨i - 8, by omega⟩
      simp [bitAt]

theorem unsignedAt_eq (d : Bytes) (o w : Nat) : unsignedAt d o w = fromLE d / 2 ^ o % 2 ^ w := by
  induction w with
  | zero => simp [unsignedAt, Nat.mod_one]
  | succ w ih =>
    have hb : bitAt d (o + w) = decide (fromLE d / 2 ^ o / 2 ^ w % 2 = 1) := by
      rw [← fromLE_testBit, Nat.testBit_eq_decide_div_mod_eq, Nat.div_div_eq_div_mul, Nat.pow_add]
    rw [unsignedAt, ih, Nat.mod_pow_succ, hb]
    have := Nat.mod_two_eq_zero_or_one (fromLE d / 2 ^ o / 2 ^ w)
    rcases this with h | h <;> simp [h]

theorem bitAt_of_ge {d : Bytes} {i : Nat} (h : 8 * d.length ≤ i) : bitAt d i = false := by
  have : d.length ≤ i / 8 := by omega
  simp [bitAt, List.getD, List.getElem?_eq_none this]

theorem bitAt_slice (d : Bytes) (a b i : Nat) :
    bitAt (sliceNN d a b) i = (decide (i < 8 * (b - a)) && bitAt d (8 * a + i)) := by
  by_cases h : i < 8 * (b - a)
  · have h1 : i / 8 < b - a := by omega
    have h2 : (8 * a + i) / 8 = a + i / 8 := by omega
    have h3 : (8 * a + i) % 8 = i % 8 := by omega
    simp [bitAt, sliceNN, List.getD, h, h1, h2, h3, List.getElem?_drop]
  · have h1 : ¬ i / 8 < b - a := by omega
    simp [bitAt, sliceNN, List.getD, h, h1]

theorem fromLE_slice (d : Bytes) (a n : Nat) :
    fromLE (sliceNN d a (a + n)) = fromLE d / 2 ^ (8 * a) % 2 ^ (8 * n) := by
  apply Nat.eq_of_testBit_eq; intro i
  rw [fromLE_testBit, bitAt_slice, Nat.testBit_mod_two_pow, Nat.testBit_div_two_pow, fromLE_testBit]
  simp [Nat.add_comm]

theorem byte_eq (d : Bytes) (i : Nat) : (d.getD i 0).toNat = fromLE d / 2 ^ (8 * i) % 2 ^ 8 := by
  apply Nat.eq_of_testBit_eq; intro k
  rw [Nat.testBit_mod_two_pow, Nat.testBit_div_two_pow, fromLE_testBit]
  by_cases h : k < 8
  · have h1 : (k + 8 * i) / 8 = i := by omega
    have h2 : (k + 8 * i) % 8 = k := by omega
    simp [bitAt, h, h1, h2]
  · simp only [h, decide_false, Bool.false_and]
    apply Nat.testBit_lt_two_pow
    calc (d.getD i 0).toNat < 2 ^ 8 := (d.getD i 0).toNat_lt
      _ ≤ 2 ^ k := Nat.pow_le_pow_right (by omega) (by omega)

theorem getByte_ok {d : Bytes} {i : Nat} (h : i < d.length) :
    getByte d i = .ok (((d.getD i 0).toNat : Nat) : Int) := by
  simp [getByte, h, pure, Except.pure]

theorem getByte_err {d : Bytes} {i : Nat} (h : d.length ≤ i) : getByte d i = .error .indexError := by
  simp [getByte, List.getElem?_eq_none h]; rfl

/-- two buffers with the same length and the same bits are equal -/
theorem bytes_ext {d e : Bytes} (hl : d.length = e.length)
    (h : ∀ i, i < 8 * d.length → bitAt d i = bitAt e i) : d = e := by
  apply List.ext_getElem hl
  intro n h1 h2
  apply UInt8.toNat_inj.mp
  apply Nat.eq_of_testBit_eq; intro k
  by_cases hk : k < 8
  · have := h (8 * n + k) (by omega)
    have e1 : (8 * n + k) / 8 = n := by omega
    have e2 : (8 * n + k) % 8 = k := by omega
    simpa [bitAt, e1, e2, h1, h2] using this
  · rw [Nat.testBit_lt_two_pow, Nat.testBit_lt_two_pow]
    · calc e[n].toNat < 2 ^ 8 := e[n].toNat_lt
        _ ≤ 2 ^ k := Nat.pow_le_pow_right (by omega) (by omega)
    · calc d[n].toNat < 2 ^ 8 := d[n].toNat_lt
        _ ≤ 2 ^ k := Nat.pow_le_pow_right (by omega) (by omega)

end Py
