import Verif.Lemmas.Native
import Verif.Model.Native.Go

/-!
# C74: the Go runtime reads the same fields
-/

namespace Props
open Py Spec Model Model.Native _root_.Native

/-! ## Auxiliary facts -/

theorem goAt_some {d : Bytes} {i : Nat} (h : i < d.length) :
    ∃ x, goAt d i = some x ∧ ∀ k, x.getLsbD k = (decide (k < 8) && bitAt d (8 * i + k)) := by
  obtain ⟨b, hb⟩ := byteAt_some h
  refine ⟨b.setWidth 64, by simp [goAt, hb], fun k => ?_⟩
  rw [BitVec.getLsbD_setWidth, byteAt_bits hb]
  by_cases hk : k < 8
  · have : k < 64 := by omega
    simp [hk, this]
  · simp [hk]

theorem goLoop_spec (d : Bytes) (o w : Nat) (hw' : w ≤ 64) :
    ∀ (fuel bl idx : Nat) (cur res : BitVec 64), bl / 8 ≤ fuel → 8 * idx + bl = o + w → bl ≤ w →
      idx + bl / 8 < d.length → (∀ k, cur.getLsbD k = (decide (k < 8) && bitAt d (8 * idx + k))) →
      (∀ k, res.getLsbD k = (decide (k < w - bl) && bitAt d (o + k))) →
      ∃ res' cur', goLoop d w fuel bl idx cur res = some (res', bl % 8, cur') ∧
        (∀ k, res'.getLsbD k = (decide (k < w - bl % 8) && bitAt d (o + k))) ∧
        (∀ k, cur'.getLsbD k = (decide (k < 8) && bitAt d (o + w - bl % 8 + k))) := by
  intro fuel
  induction fuel with
  | zero =>
    intro bl idx cur res hf hp hbl hlen hcur hres
    have : bl % 8 = bl := by omega
    refine ⟨res, cur, by simp [goLoop, this], by rw [this]; exact hres, fun k => ?_⟩
    rw [hcur, this, show 8 * idx = o + w - bl by omega]
  | succ fuel ih =>
    intro bl idx cur res hf hp hbl hlen hcur hres
    unfold goLoop
    by_cases h8 : 8 ≤ bl
    · rw [if_pos h8]
      obtain ⟨x, hx, hxb⟩ := goAt_some (d := d) (i := idx + 1) (by omega)
      rw [hx]
      simp only [Option.bind_eq_bind, Option.bind_some]
      have hm : (bl - 8) % 8 = bl % 8 := by omega
      obtain ⟨r', c', h1, h2, h3⟩ := ih (bl - 8) (idx + 1) x (res ||| cur <<< (w - bl)) (by omega) (by omega) (by omega)
        (by omega) (by intro k; rw [hxb]) (by
          intro k
          rw [BitVec.getLsbD_or, hres, BitVec.getLsbD_shiftLeft, hcur]
          by_cases hk : k < w - bl
          · have : k < w - (bl - 8) := by omega
            simp [hk, this]
          · by_cases hk' : k < w - (bl - 8)
            · have e1 : decide (k - (w - bl) < 8) = true := by simp; omega
              have e2 : decide (k < 64) = true := by simp; omega
              have e3 : 8 * idx + (k - (w - bl)) = o + k := by omega
              rw [e1, e2, e3]; simp [hk, hk']
            · have e1 : decide (k - (w - bl) < 8) = false := by simp; omega
              rw [e1]; simp [hk, hk'])
      refine ⟨r', c', ?_, ?_, ?_⟩
      · rw [h1, hm]
      · rw [hm] at h2; exact h2
      · rw [hm] at h3; exact h3
    · rw [if_neg h8]
      have : bl % 8 = bl := by omega
      refine ⟨res, cur, by rw [this], by rw [this]; exact hres, fun k => ?_⟩
      rw [hcur, this, show 8 * idx = o + w - bl by omega]

/-- the sign handling of `Read` -/
theorem go_sign {x : BitVec 64} {w : Nat} (hw : 1 ≤ w) (hw' : w ≤ 64) (hx : x.toNat < 2 ^ w) :
    ((x &&& ((1#64 <<< (w - 1)) - 1#64)) - (x &&& (1#64 <<< (w - 1)))).toInt = twosComplement w x.toNat := by
  have hs : (1#64 <<< (w - 1)).toNat = 2 ^ (w - 1) := by
    rw [BitVec.toNat_shiftLeft, BitVec.toNat_ofNat, Nat.shiftLeft_eq]
    rw [Nat.mod_eq_of_lt (by norm_num : 1 < 2 ^ 64), Nat.one_mul]
    exact Nat.mod_eq_of_lt (Nat.pow_lt_pow_right (by omega) (by omega))
  have hA : (x &&& ((1#64 <<< (w - 1)) - 1#64)).toNat = x.toNat % 2 ^ (w - 1) := by
    apply Nat.eq_of_testBit_eq; intro k
    rw [Nat.testBit_mod_two_pow]
    have : (x &&& ((1#64 <<< (w - 1)) - 1#64)).toNat.testBit k = (x &&& ((1#64 <<< (w - 1)) - 1#64)).getLsbD k := rfl
    rw [this, BitVec.getLsbD_and, lowMask_bits (by omega), Bool.and_comm]
    rfl
  have hB : (x &&& (1#64 <<< (w - 1))).toNat = (x.toNat.testBit (w - 1)).toNat * 2 ^ (w - 1) := by
    rw [BitVec.toNat_and, hs, Nat.and_two_pow]
  have hsub : ∀ a b : BitVec 64, a - b = BitVec.ofInt 64 ((a.toNat : Int) - (b.toNat : Int)) := by
    intro a b
    apply BitVec.eq_of_toNat_eq
    rw [BitVec.toNat_ofInt, BitVec.toNat_sub]
    have ha := a.isLt
    have hb := b.isLt
    omega
  rw [hsub, hA, hB, sign_core _ _ hw, Nat.mod_eq_of_lt hx]
  have := valueOf_ofInt true 64 (twosComplement w x.toNat)
  simp only [valueOf, if_true] at this
  rw [this]
  apply wrap_of_inRange
  apply inRange_mono hw'
  simp only [InRange, if_true, twosComplement]
  zify at hx
  split
  · rename_i h; zify at h; omega
  · rename_i h; zify at h; omega

theorem goRest_spec (d : Bytes) (o w : Nat) (s : Bool) (hw : 1 ≤ w) (hw' : w ≤ 64) (bl idx : Nat)
    (cur res : BitVec 64) (hp : 8 * idx + bl = o + w) (hbl : bl ≤ w) (hlen : idx + bl / 8 < d.length)
    (hcur : ∀ k, cur.getLsbD k = (decide (k < 8) && bitAt d (8 * idx + k)))
    (hres : ∀ k, res.getLsbD k = (decide (k < w - bl) && bitAt d (o + k))) :
    goRest d w s bl idx cur res = some (if s then twosComplement w (unsignedAt d o w)
      else twosComplement 64 (unsignedAt d o w)) := by
  obtain ⟨r, c, hl, hr, hc⟩ := goLoop_spec d o w hw' bl bl idx cur res (by omega) hp hbl hlen hcur hres
  have h8 : bl % 8 < 8 := Nat.mod_lt _ (by omega)
  have hbw : bl % 8 ≤ w := by omega
  unfold goRest
  rw [hl]
  simp only [Option.bind_eq_bind, Option.bind_some]
  generalize hX : (if bl % 8 ≠ 0 then r ||| (c &&& (1#64 <<< (bl % 8)) - 1#64) <<< (w - bl % 8) else r) = X
  have hXb : ∀ k, X.getLsbD k = (decide (k < w) && bitAt d (o + k)) := by
    intro k
    subst hX
    by_cases h0 : bl % 8 = 0
    · simp only [h0, ne_eq, not_true_eq_false, if_false]
      rw [hr, h0]; simp
    · rw [if_pos h0, BitVec.getLsbD_or, hr, BitVec.getLsbD_shiftLeft, BitVec.getLsbD_and, hc, lowMask_bits (by omega)]
      by_cases hk : k < w - bl % 8
      · have : k < w := by omega
        simp [hk, this]
      · by_cases hkw : k < w
        · have e1 : decide (k - (w - bl % 8) < 8) = true := by simp; omega
          have e2 : decide (k - (w - bl % 8) < bl % 8) = true := by simp; omega
          have e3 : o + w - bl % 8 + (k - (w - bl % 8)) = o + k := by omega
          have e4 : decide (k < 64) = true := by simp; omega
          rw [e1, e2, e3, e4]; simp [hk, hkw]
        · have e2 : decide (k - (w - bl % 8) < bl % 8) = false := by simp; omega
          rw [e2]; simp [hk, hkw]
  have hXn := toNat_field hXb
  cases s with
  | true =>
    simp only [if_true]
    rw [if_neg (by omega)]
    simp only [goSignBit]
    rw [if_pos (by omega)]
    simp only [Option.bind_some]
    rw [go_sign hw hw' (by rw [hXn]; exact unsignedAt_lt d o w), hXn]
  | false =>
    simp only [Bool.false_eq_true, if_false]
    rw [toInt_twos, hXn]

/-- **C74 (exact).** What Go's `Read` returns for every buffer with at least one byte after the field and
every field of 1 to 64 bits: the unsigned number in the bits if the field lies inside one byte but does
not begin with it; otherwise the stored integer if the field is signed, and its two's complement reading
in 64 bits if it is unsigned. -/
theorem C74_go_read_exact (d : Bytes) (o w : Nat) (s : Bool) (hw : 1 ≤ w) (hw' : w ≤ 64)
    (hpad : o + w + 8 ≤ 8 * d.length) :
    goRead d o w s = some (
      if o % 8 ≠ 0 ∧ o % 8 + w ≤ 8 then (unsignedAt d o w : Int)
      else if s then fieldValue d o w true
      else twosComplement 64 (unsignedAt d o w)) := by
  have ho : o % 8 < 8 := Nat.mod_lt _ (by omega)
  obtain ⟨x, hx, hxb⟩ := goAt_some (d := d) (i := o / 8) (by omega)
  simp only [goRead, hx, Option.bind_eq_bind, Option.bind_some]
  by_cases h0 : o % 8 = 0
  · rw [if_neg (by simp [h0]), if_neg (by simp [h0])]
    rw [goRest_spec d o w s hw hw' w (o / 8) x 0#64 (by omega) (by omega) (by omega) hxb (by intro k; simp)]
    cases s <;> simp [fieldValue]
  · rw [if_pos h0]
    by_cases h1 : w ≤ 8 - o % 8
    · rw [if_pos h1, if_pos ⟨h0, by omega⟩]
      have hb : ∀ k, (x >>> (o % 8) &&& (1#64 <<< w) - 1#64).getLsbD k = (decide (k < w) && bitAt d (o + k)) := by
        intro k
        rw [BitVec.getLsbD_and, BitVec.getLsbD_ushiftRight, hxb, lowMask_bits (by omega)]
        by_cases hk : k < w
        · have e1 : decide (o % 8 + k < 8) = true := by simp; omega
          have e2 : 8 * (o / 8) + (o % 8 + k) = o + k := by omega
          rw [e1, e2]; simp [hk]
        · simp [hk]
      have hn := toNat_field hb
      rw [toInt_twos, hn, twosComplement, if_neg]
      have h2 := unsignedAt_lt d o w
      have h3 : 2 ^ w ≤ 2 ^ 8 := Nat.pow_le_pow_right (by omega) (by omega)
      omega
    · rw [if_neg h1, if_neg (by omega)]
      obtain ⟨y, hy, hyb⟩ := goAt_some (d := d) (i := o / 8 + 1) (by omega)
      simp only [hy, Option.bind_some]
      rw [goRest_spec d o w s hw hw' (w - (8 - o % 8)) (o / 8 + 1) y (x >>> (o % 8)) (by omega) (by omega) (by omega) hyb
        (by
          intro k
          rw [BitVec.getLsbD_ushiftRight, hxb]
          have e1 : w - (w - (8 - o % 8)) = 8 - o % 8 := by omega
          have e2 : 8 * (o / 8) + (o % 8 + k) = o + k := by omega
          rw [e1, e2]
          congr 1
          simp only [decide_eq_decide]; omega)]
      cases s <;> simp [fieldValue]

/-- The field types and widths that occur. -/
def GoHolds : GoType → Nat → Prop
  | .bool, w => w = 1
  | .int b _, w => 8 ≤ b ∧ w ≤ b ∧ b ≤ 64

/-- The signed fields Go gets wrong: inside one byte, but not from its first bit on. -/
def GoMisread (t : GoType) (o w : Nat) : Prop := t.isSigned = true ∧ o % 8 ≠ 0 ∧ o % 8 + w ≤ 8

instance (t : GoType) (o w : Nat) : Decidable (GoMisread t o w) := by unfold GoMisread; infer_instance

/-- **C74.** For every buffer with at least one byte after the field, every field of 1 to 64 bits and every
Go type that can hold it, the generated accessor does not panic and returns the integer stored in the
field's bits, with one exception: signed fields that lie inside one byte but do not begin with it are
returned without their sign. (A signed one-bit field at a byte boundary therefore reads -1, elsewhere 1.) -/
theorem C74_go_get (t : GoType) (d : Bytes) (o w : Nat) (hw : 1 ≤ w) (hw' : w ≤ 64) (ht : GoHolds t w)
    (hpad : o + w + 8 ≤ 8 * d.length) :
    goGet t d o w = some (if GoMisread t o w then (unsignedAt d o w : Int) else fieldValue d o w t.isSigned) := by
  have hlt := unsignedAt_lt d o w
  simp only [goGet]
  rw [C74_go_read_exact d o w t.isSigned hw hw' hpad]
  simp only [Option.bind_eq_bind, Option.bind_some]
  cases t with
  | bool =>
    simp only [GoHolds] at ht; subst ht
    have hm : ¬ GoMisread .bool o 1 := by simp [GoMisread, GoType.isSigned]
    rw [if_neg hm]
    simp only [GoType.isSigned, fieldValue, Bool.false_eq_true, if_false]
    have h2 : twosComplement 64 (unsignedAt d o 1) = unsignedAt d o 1 := by
      rw [twosComplement, if_neg (by omega)]
    rw [h2]
    congr 1
    split <;> split <;> omega
  | int b s =>
    obtain ⟨hb8, hwb, hb64⟩ := ht
    simp only [GoType.isSigned, valueOf_ofInt]
    congr 1
    have hpw : 2 ^ w ≤ 2 ^ 64 := Nat.pow_le_pow_right (by omega) hw'
    cases s with
    | true =>
      by_cases hm : o % 8 ≠ 0 ∧ o % 8 + w ≤ 8
      · have hm' : GoMisread (.int b true) o w := ⟨rfl, hm⟩
        rw [if_pos hm, if_pos hm']
        apply wrap_of_inRange
        have : 2 ^ w ≤ 2 ^ 7 := Nat.pow_le_pow_right (by omega) (by omega)
        apply inRange_mono hb8
        simp only [InRange, if_true]
        omega
      · have hm' : ¬ GoMisread (.int b true) o w := fun h => hm h.2
        rw [if_neg hm, if_neg hm']
        simp only [if_true]
        exact wrap_of_inRange (inRange_mono hwb (inRange_fieldValue d o w true))
    | false =>
      have hm' : ¬ GoMisread (.int b false) o w := by simp [GoMisread, GoType.isSigned]
      rw [if_neg hm']
      have key : wrap b false (unsignedAt d o w : Int) = unsignedAt d o w :=
        wrap_of_inRange (inRange_mono hwb (by have := inRange_fieldValue d o w false; simpa [fieldValue] using this))
      split
      · rw [key]; simp [fieldValue]
      · simp only [Bool.false_eq_true, if_false, fieldValue]
        unfold twosComplement
        split
        · have hbw : b = 64 := by
            by_contra hne
            have h63 : 2 ^ w ≤ 2 ^ 63 := Nat.pow_le_pow_right (by omega) (by omega)
            omega
          subst hbw
          rw [← key]
          simp only [wrap, Bool.false_eq_true, if_false]
          omega
        · exact key

/-- The exception: -1 in three bits from bit 1 on reads as 7; from bit 0 on it reads as -1. -/
theorem C74_counterexample : fieldValue [0xE, 0] 1 3 true = -1 ∧ goGet (.int 8 true) [0xE, 0] 1 3 = some 7 ∧
    goGet (.int 8 true) [0x7, 0] 0 3 = some (-1) := by decide +kernel

/-- The byte after the field is needed: `Read` panics at the very end of a buffer. -/
theorem C74_padding_needed : goRead [1] 0 8 false = none ∧ goRead [1, 0] 0 8 false = some 1 := by decide +kernel

example : goGet (.int 16 true) [0x34, 0xF2, 0xFF, 0] 4 13 = some (-221) := by decide +kernel
example : GoHolds (.int 16 true) 13 ∧ ¬ GoMisread (.int 16 true) 4 13 ∧ 4 + 13 + 8 ≤ 8 * ([0x34, 0xF2, 0xFF, 0] : Bytes).length := by
  simp [GoHolds, GoMisread]
example : goGet (.int 64 false) [0xFE, 0xFF, 0xFF, 0xFF, 0xFF, 0xFF, 0xFF, 0xFF, 1, 0] 1 64 = some (2 ^ 64 - 1) := by decide +kernel

end Props
