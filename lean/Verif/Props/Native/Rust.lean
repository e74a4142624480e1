import Verif.Props.Native.Cpp
import Verif.Model.Native.Rust

/-!
# C72, C73: the Rust runtime reads and writes the same fields
-/

namespace Props
open Py Spec Model Model.Native _root_.Native

/-! ## Auxiliary facts -/

theorem rustMask_bits {w : Nat} (x : BitVec 64) (i : Nat) :
    (rustMask x w).getLsbD i = (decide (i < w) && x.getLsbD i) := by
  unfold rustMask
  split
  · rw [BitVec.getLsbD_and, lowMask_bits (by omega), Bool.and_comm]
  · by_cases hi : i < w
    · simp [hi]
    · rw [BitVec.getLsbD_of_ge _ _ (by omega)]; simp

theorem twosComplement_shift (w e n : Nat) :
    twosComplement (w + e) (n * 2 ^ e) = twosComplement w n * 2 ^ e := by
  have hp : 0 < 2 ^ e := by positivity
  unfold twosComplement
  by_cases h : 2 ^ w ≤ 2 * n
  · rw [if_pos h, if_pos]
    · push_cast; ring
    · rw [pow_add, ← mul_assoc]; exact Nat.mul_le_mul_right _ h
  · rw [if_neg h, if_neg]
    · push_cast; ring
    · rw [pow_add, ← mul_assoc]; intro hc; exact h (Nat.le_of_mul_le_mul_right hc hp)

theorem rustExtend_signed {b w : Nat} {x : BitVec 64} (hw : 1 ≤ w) (hwb : w ≤ b) (hx : x.toNat < 2 ^ w) :
    rustExtend b true x w = some (twosComplement w x.toNat) := by
  have hmod : (b - w) % b = b - w := Nat.mod_eq_of_lt (by omega)
  have hxb : x.toNat < 2 ^ b := lt_of_lt_of_le hx (Nat.pow_le_pow_right (by omega) hwb)
  have hshift : x.toNat * 2 ^ (b - w) < 2 ^ b := by
    calc x.toNat * 2 ^ (b - w) < 2 ^ w * 2 ^ (b - w) := Nat.mul_lt_mul_of_pos_right hx (by positivity)
      _ = 2 ^ b := by rw [← pow_add]; congr 1; omega
  simp only [rustExtend, if_true, hwb, hmod]
  rw [BitVec.toInt_sshiftRight, toInt_twos, BitVec.toNat_shiftLeft, BitVec.toNat_setWidth, Nat.mod_eq_of_lt hxb,
    Nat.shiftLeft_eq, Nat.mod_eq_of_lt hshift, Int.shiftRight_eq_div_pow]
  have : twosComplement b (x.toNat * 2 ^ (b - w)) = twosComplement w x.toNat * 2 ^ (b - w) := by
    have := twosComplement_shift w (b - w) x.toNat
    rwa [show w + (b - w) = b by omega] at this
  rw [this]
  congr 1
  push_cast
  exact Int.mul_ediv_cancel _ (by positivity)

theorem rustExtend_unsigned {b w : Nat} {x : BitVec 64} (hwb : w ≤ b) (hx : x.toNat < 2 ^ w) :
    rustExtend b false x w = some (x.toNat : Int) := by
  have hxb : x.toNat < 2 ^ b := lt_of_lt_of_le hx (Nat.pow_le_pow_right (by omega) hwb)
  simp [rustExtend, Nat.mod_eq_of_lt hxb]

/-- The position the Rust reader takes bit `k` of a field from: after 64 bits the byte offset is added a
second time. -/
def rustBit (o k : Nat) : Nat := if o % 8 + k < 64 then o + k else o + k + 8 * (o / 8)

/-- The number `rustReadInt` extends to a value. -/
theorem rustReadInt_exact (b : Nat) (s : Bool) (d : Bytes) (o w : Nat) (hw : 2 ≤ w) (hw' : w ≤ 64) (hwb : w ≤ b)
    (hlen : o + w ≤ 8 * d.length) (hlen' : 64 < o % 8 + w → 2 * (o / 8) + 8 < d.length) :
    ∃ x : Nat, (∀ k, x.testBit k = (decide (k < w) && bitAt d (rustBit o k))) ∧
      rustReadInt b s d o w = some (if s then twosComplement w x else x) := by
  have h1 : ¬ w = 1 := by omega
  have ho : o % 8 < 8 := Nat.mod_lt _ (by omega)
  simp only [rustReadInt, h1, if_false]
  generalize hnb : min 8 ((w + o % 8 + 7) / 8) = nb
  have hnb8 : nb ≤ 8 := by omega
  obtain ⟨r, hr⟩ := load_some (d := d) (a := o / 8) (n := nb) (by omega)
  have hrb := load_bits hr
  have key : ∀ y : BitVec 64, (∀ k, k < w → y.getLsbD k = bitAt d (rustBit o k)) →
      ∃ x : Nat, (∀ k, x.testBit k = (decide (k < w) && bitAt d (rustBit o k))) ∧
        rustExtend b s (rustMask y w) w = some (if s then twosComplement w x else x) := by
    intro y hy
    have hb : ∀ k, (rustMask y w).getLsbD k = (decide (k < w) && bitAt d (rustBit o k)) := by
      intro k
      rw [rustMask_bits]
      by_cases hk : k < w
      · rw [hy k hk]
      · simp [hk]
    have hlt : (rustMask y w).toNat < 2 ^ w := by
      apply Nat.lt_pow_two_of_testBit
      intro k hk
      have := hb k
      rw [BitVec.getLsbD] at this
      rw [this]; simp; omega
    refine ⟨(rustMask y w).toNat, fun k => hb k, ?_⟩
    cases s
    · rw [rustExtend_unsigned hwb hlt]; simp
    · rw [rustExtend_signed (by omega) hwb hlt]; simp
  rw [hr]
  simp only [Option.bind_eq_bind, Option.bind_some]
  by_cases hc : nb * 8 - o % 8 < w
  · have hnb8' : nb = 8 := by omega
    subst hnb8'
    rw [if_pos hc]
    obtain ⟨c, hcb⟩ := byteAt_some (d := d) (a := o / 8 + (o / 8 + 8)) (by omega)
    have hcbb := byteAt_bits hcb
    rw [hcb]
    simp only [Option.bind_some]
    apply key
    intro k hk
    rw [BitVec.getLsbD_or, BitVec.getLsbD_ushiftRight, BitVec.getLsbD_setWidth, hrb, BitVec.getLsbD_shiftLeft,
      BitVec.getLsbD_setWidth, hcbb]
    have hm : (8 * 8 - o % 8) % (8 * 8) = 64 - o % 8 := by omega
    rw [hm]
    unfold rustBit
    by_cases h64 : o % 8 + k < 64
    · rw [if_pos h64]
      have e2 : decide (k < 64 - o % 8) = true := by simp; omega
      have e3 : 8 * (o / 8) + (o % 8 + k) = o + k := by omega
      rw [e2, e3]; simp [h64]
    · rw [if_neg h64]
      have e1 : decide (o % 8 + k < 8 * 8) = false := by simp; omega
      have e2 : decide (k < 64 - o % 8) = false := by simp; omega
      have e3 : 8 * (o / 8 + (o / 8 + 8)) + (k - (64 - o % 8)) = o + k + 8 * (o / 8) := by omega
      have e4 : decide (k < 64) = true := by simp; omega
      have e5 : decide (k - (64 - o % 8) < 64) = true := by simp; omega
      have e6 : decide (k - (64 - o % 8) < 8) = true := by simp; omega
      rw [e1, e2, e3, e4, e5, e6]; simp
  · rw [if_neg hc]
    apply key
    intro k hk
    rw [BitVec.getLsbD_ushiftRight, BitVec.getLsbD_setWidth, hrb]
    unfold rustBit
    have h64 : o % 8 + k < 64 := by omega
    have e1 : decide (o % 8 + k < 8 * nb) = true := by simp; omega
    have e3 : 8 * (o / 8) + (o % 8 + k) = o + k := by omega
    rw [if_pos h64, e1, e3]; simp [h64]

/-- The field types and widths that occur. -/
def RustHolds : RustType → Nat → Prop
  | .bool, w => w = 1
  | .int b _, w => 8 ≤ b ∧ w ≤ b

/-- The fields the Rust runtime handles: those that do not span nine bytes, and those in the first byte. -/
def RustPortable (o w : Nat) : Prop := o < 8 ∨ o % 8 + w ≤ 64

theorem rustRead_one (t : RustType) (d : Bytes) (o : Nat) (hlen : o / 8 < d.length) :
    rustRead t d o 1 = some (if bitAt d o then 1 else 0) := by
  obtain ⟨b, hb⟩ := byteAt_some hlen
  have hbt := bit_test hb (Nat.mod_lt o (by omega : 8 > 0))
  have e : 8 * (o / 8) + o % 8 = o := by omega
  rw [e] at hbt
  have key : ∀ n s, rustReadInt n s d o 1 = some (if bitAt d o then 1 else 0) := by
    intro n s
    simp only [rustReadInt, if_true, hb, Option.bind_eq_bind, Option.bind_some]
    by_cases h : bitAt d o = true
    · rw [if_pos (hbt.mpr h), if_pos h]
    · rw [if_neg (fun hn => h (hbt.mp hn)), if_neg h]
  cases t with
  | bool =>
    simp only [rustRead, key, Option.bind_eq_bind, Option.bind_some]
    cases bitAt d o <;> simp
  | int n s => exact key n s

/-! ## C72 -/

/-- **C72.** For every buffer, every field of 1 to 64 bits inside it (no padding is needed) that does not
span nine bytes or begins in the first byte, and every Rust type that can hold it, the Rust reader stays
inside the buffer and returns the integer stored in the field's bits, with one exception: a signed
one-bit field reads 0 or 1, never -1. -/
theorem C72_rust_read (t : RustType) (d : Bytes) (o w : Nat) (hw : 1 ≤ w) (hw' : w ≤ 64) (ht : RustHolds t w)
    (hp : RustPortable o w) (hlen : o + w ≤ 8 * d.length) :
    rustRead t d o w = some (
      if t.isSigned = true ∧ w = 1 then (if bitAt d o then 1 else 0)
      else fieldValue d o w t.isSigned) := by
  by_cases h1 : w = 1
  · subst h1
    rw [rustRead_one t d o (by omega)]
    cases hs : t.isSigned
    · cases hb : bitAt d o <;> simp [fieldValue, unsignedAt, hb]
    · simp
  · rw [if_neg (by simp [h1])]
    cases t with
    | bool => exact absurd ht h1
    | int b s =>
      unfold RustPortable at hp
      obtain ⟨x, hx, he⟩ := rustReadInt_exact b s d o w (by omega) hw' ht.2 hlen (by omega)
      have : x = unsignedAt d o w := by
        apply Nat.eq_of_testBit_eq; intro k
        rw [hx, unsignedAt_testBit]
        by_cases hk : k < w
        · congr 2; unfold rustBit; split <;> omega
        · simp [hk]
      rw [this] at he
      simp only [rustRead, he, fieldValue, RustType.isSigned]
      cases s <;> rfl

/-- **C72, the defect.** A field that spans nine bytes and begins after the first byte is read without its
last byte: the value returned does not depend on it. (Two buffers that differ only there read alike.) -/
theorem C72_ninth_byte_ignored (t : RustType) (d e : Bytes) (o w : Nat) (hw' : w ≤ 64) (ht : RustHolds t w)
    (ho : 8 ≤ o) (h9 : 64 < o % 8 + w) (hd : 2 * (o / 8) + 8 < d.length) (hlen : d.length = e.length)
    (hsame : ∀ i, i / 8 ≠ o / 8 + 8 → bitAt d i = bitAt e i) :
    rustRead t d o w = rustRead t e o w := by
  cases t with
  | bool => simp only [RustHolds] at ht; omega
  | int b s =>
    obtain ⟨x, hx, hex⟩ := rustReadInt_exact b s d o w (by omega) hw' ht.2 (by omega) (fun _ => hd)
    obtain ⟨y, hy, hey⟩ := rustReadInt_exact b s e o w (by omega) hw' ht.2 (by omega) (fun _ => by omega)
    have : x = y := by
      apply Nat.eq_of_testBit_eq; intro k
      rw [hx, hy]
      by_cases hk : k < w
      · rw [hsame]
        unfold rustBit; split <;> omega
      · simp [hk]
    simp only [rustRead, hex, hey, this]

/-- The value is wrong even if the memory read is the structure's own: a 64-bit field at bit 9 holding
`2 ^ 63` reads as 0 (with a ten-byte structure followed by zeros). -/
theorem C72_counterexample :
    fieldValue ([0, 0, 0, 0, 0, 0, 0, 0, 0, 1] ++ List.replicate 8 0) 9 64 false = 2 ^ 63 ∧
    rustRead (.int 64 false) ([0, 0, 0, 0, 0, 0, 0, 0, 0, 1] ++ List.replicate 8 0) 9 64 = some 0 := by
  decide +kernel

example : rustRead (.int 16 true) [0x34, 0xF2, 0xFF] 4 13 = some (-221) := by decide +kernel
example : RustHolds (.int 16 true) 13 ∧ RustPortable 4 13 ∧ 4 + 13 ≤ 8 * ([0x34, 0xF2, 0xFF] : Bytes).length := by
  simp [RustHolds, RustPortable]
example : rustRead (.int 64 true) [0, 0, 0, 0, 0, 0, 0, 0, 1] 1 64 = some (-(2 ^ 63)) := by decide +kernel

/-! ## C73 -/

/-- The end of the bits a Rust write may touch: the end of the field's last byte or, if the field spans
nine bytes, 64 bits after its begin. -/
def rustReach (o w : Nat) : Nat := if o % 8 + w ≤ 64 then 8 * ((o + w + 7) / 8) else o + 64

/-- **C73 (exact).** The effect of a Rust write of *any* integer into a field that does not span nine
bytes or begins in the first byte: the bits of the field become the digits of the value; if the type is
unsigned the higher digits of the value are added (disjunction) to the bits after the field, up to
`rustReach`; all other bits keep their values. -/
theorem C73_rust_write_exact (t : RustType) (d : Bytes) (o w : Nat) (v : Int) (hw : 1 ≤ w) (hw' : w ≤ 64)
    (hp : RustPortable o w) (hlen : o + w ≤ 8 * d.length) :
    ∃ d', rustWrite t d o w v = some d' ∧ d'.length = d.length ∧ ∀ i, bitAt d' i =
      if o ≤ i ∧ i < o + w then digit v (i - o)
      else if t.isSigned = false ∧ o + w ≤ i ∧ i < rustReach o w then bitAt d i || digit v (i - o)
      else bitAt d i := by
  have ho : o % 8 < 8 := Nat.mod_lt _ (by omega)
  unfold RustPortable at hp
  unfold rustReach
  simp only [rustWrite]
  generalize hnb : min 8 ((w + o % 8 + 7) / 8) = nb
  have hnb8 : nb ≤ 8 := by omega
  obtain ⟨r, hr⟩ := load_some (d := d) (a := o / 8) (n := nb) (by omega)
  have hrb := load_bits hr
  rw [hr]
  simp only [Option.bind_eq_bind, Option.bind_some]
  generalize hV : (if t.isSigned = true then rustMask (BitVec.ofInt 64 v) w else BitVec.ofInt 64 v) = V
  generalize hM : rustMask (BitVec.allOnes 64) w = Mk
  have hVb : ∀ i, V.getLsbD i = (decide (i < 64) && digit v i && (decide (i < w) || !t.isSigned)) := by
    intro i
    subst hV
    cases t.isSigned
    · simp [ofInt_bits]
    · simp only [if_true, rustMask_bits, ofInt_bits]
      by_cases hi : i < w <;> simp [hi]
  have hMb : ∀ i, Mk.getLsbD i = decide (i < w) := by
    intro i
    subst hM
    rw [rustMask_bits, BitVec.getLsbD_allOnes]
    by_cases hi : i < w
    · simp [hi]; omega
    · simp [hi]
  obtain ⟨d1, hd1⟩ := store_some (d := d) (a := o / 8) (n := nb)
    (BitVec.setWidth (8 * nb) (BitVec.setWidth 64 r &&& ~~~(Mk <<< (o % 8)) ||| V <<< (o % 8))) (by omega)
  obtain ⟨hl1, hb1⟩ := store_bits hd1
  rw [hd1]
  simp only [Option.bind_some]
  have hnew : ∀ i, 8 * (o / 8) ≤ i → i < 8 * (o / 8 + nb) → bitAt d1 i =
      if o ≤ i ∧ i < o + w then digit v (i - o)
      else if t.isSigned = false ∧ o + w ≤ i then bitAt d i || digit v (i - o)
      else bitAt d i := by
    intro i hi hi'
    rw [hb1, if_pos ⟨hi, hi'⟩, BitVec.getLsbD_setWidth, BitVec.getLsbD_or, BitVec.getLsbD_and, BitVec.getLsbD_not,
      BitVec.getLsbD_setWidth, hrb, BitVec.getLsbD_shiftLeft, BitVec.getLsbD_shiftLeft, hVb, hMb]
    have e1 : decide (i - 8 * (o / 8) < 8 * nb) = true := by simp; omega
    have e1' : decide (i - 8 * (o / 8) < 64) = true := by simp; omega
    have e2 : 8 * (o / 8) + (i - 8 * (o / 8)) = i := by omega
    rw [e1, e1', e2]
    simp only [Bool.true_and]
    by_cases hlo : o ≤ i
    · have e3 : decide (i - 8 * (o / 8) < o % 8) = false := by simp; omega
      have e4 : i - 8 * (o / 8) - o % 8 = i - o := by omega
      have e5 : decide (i - o < 64) = true := by simp; omega
      rw [e3, e4, e5]
      simp only [Bool.not_false, Bool.true_and]
      by_cases hin : i < o + w
      · have e6 : decide (i - o < w) = true := by simp; omega
        rw [e6, if_pos ⟨hlo, hin⟩]; simp
      · have e6 : decide (i - o < w) = false := by simp; omega
        rw [e6, if_neg (by omega)]
        cases t.isSigned
        · simp [show o + w ≤ i by omega]
        · simp
    · have e3 : decide (i - 8 * (o / 8) < o % 8) = true := by simp; omega
      rw [e3, if_neg (by omega), if_neg (by omega)]; simp
  have hrest : ∀ i, ¬ (8 * (o / 8) ≤ i ∧ i < 8 * (o / 8 + nb)) → bitAt d1 i = bitAt d i := by
    intro i hi
    rw [hb1, if_neg hi]
  by_cases hc : nb * 8 - o % 8 < w
  · have h8 : nb = 8 := by omega
    have ho8 : o / 8 = 0 := by omega
    have hom : o % 8 = o := by omega
    subst h8
    rw [if_pos hc]
    obtain ⟨b, hb⟩ := byteAt_some (d := d1) (a := 8) (by omega)
    have hbb := byteAt_bits hb
    rw [hb]
    simp only [Option.bind_some]
    have hm : (8 * 8 - o % 8) % (8 * 8) = 64 - o := by omega
    rw [hm, if_neg (by omega : ¬ o % 8 + w ≤ 64)]
    generalize hX : (b &&& ~~~(BitVec.setWidth 8 (Mk >>> (64 - o))) ||| BitVec.setWidth 8 (V >>> (64 - o))) = X
    obtain ⟨d2, hd2⟩ := store_some (d := d1) (a := 8) (n := 1) X (by omega)
    obtain ⟨hl2, hb2⟩ := store_bits hd2
    refine ⟨d2, hd2, by omega, fun i => ?_⟩
    rw [hb2]
    by_cases hi : 8 * 8 ≤ i ∧ i < 8 * (8 + 1)
    · rw [if_pos hi]
      subst hX
      have e1 : decide (i - 8 * 8 < 8) = true := by simp; omega
      have e3 : 8 * 8 + (i - 8 * 8) = i := by omega
      have e4 : 64 - o + (i - 8 * 8) = i - o := by omega
      simp only [BitVec.getLsbD_or, BitVec.getLsbD_and, BitVec.getLsbD_not, BitVec.getLsbD_setWidth,
        BitVec.getLsbD_ushiftRight, hbb, hVb, hMb, e1, e3, e4, Bool.true_and]
      rw [hrest i (by omega)]
      by_cases hin : i < o + w
      · have e6 : decide (i - o < w) = true := by simp; omega
        have e7 : decide (i - o < 64) = true := by simp; omega
        rw [e6, e7, if_pos ⟨by omega, hin⟩]; simp
      · have e6 : decide (i - o < w) = false := by simp; omega
        rw [e6, if_neg (by omega)]
        by_cases h64 : i < o + 64
        · have e7 : decide (i - o < 64) = true := by simp; omega
          rw [e7]
          cases t.isSigned
          · simp [show o + w ≤ i by omega, h64]
          · simp
        · have e7 : decide (i - o < 64) = false := by simp; omega
          rw [e7, if_neg (by omega)]; simp
    · rw [if_neg hi]
      by_cases h1 : 8 * (o / 8) ≤ i ∧ i < 8 * (o / 8 + 8)
      · rw [hnew i h1.1 h1.2]
        by_cases hin : o ≤ i ∧ i < o + w
        · rw [if_pos hin, if_pos hin]
        · rw [if_neg hin, if_neg hin]
          have : i < o + 64 := by omega
          simp [this]
      · rw [hrest i h1, if_neg (by omega), if_neg (by omega)]
  · rw [if_neg hc, if_pos (by omega : o % 8 + w ≤ 64)]
    refine ⟨d1, rfl, hl1, fun i => ?_⟩
    have hend : 8 * (o / 8 + nb) = 8 * ((o + w + 7) / 8) := by omega
    rw [← hend]
    by_cases h1 : 8 * (o / 8) ≤ i ∧ i < 8 * (o / 8 + nb)
    · rw [hnew i h1.1 h1.2]
      simp [h1.2]
    · rw [hrest i h1, if_neg (by omega), if_neg (by omega)]

/-- **C73.** For every buffer, whatever it contains, every field of 1 to 64 bits inside it that does not
span nine bytes or begins in the first byte, and every value in the range of the field, the Rust writer
stays inside the buffer, puts the digits of the value into the bits of the field and keeps every other bit. -/
theorem C73_rust_write (t : RustType) (d : Bytes) (o w : Nat) (v : Int) (hw : 1 ≤ w) (hw' : w ≤ 64)
    (hp : RustPortable o w) (hv : InRange w t.isSigned v) (hlen : o + w ≤ 8 * d.length) :
    ∃ d', rustWrite t d o w v = some d' ∧ d'.length = d.length ∧
      ∀ i, bitAt d' i = if o ≤ i ∧ i < o + w then digit v (i - o) else bitAt d i := by
  obtain ⟨d', he, hl, hb⟩ := C73_rust_write_exact t d o w v hw hw' hp hlen
  refine ⟨d', he, hl, fun i => ?_⟩
  rw [hb]
  by_cases hin : o ≤ i ∧ i < o + w
  · rw [if_pos hin, if_pos hin]
  · rw [if_neg hin, if_neg hin]
    split
    · rename_i hs
      rw [hs.1] at hv
      simp only [InRange, Bool.false_eq_true, if_false] at hv
      rw [digit_high hv.1 hv.2 (by omega)]; simp
    · rfl

/-- **C73, corollary.** What a Rust writer stores the Rust reader returns (-1 in a signed one-bit field
reads as 1), and the values of all fields that do not overlap are unchanged, for every later reader. -/
theorem C73_rust_round_trip (t : RustType) (d : Bytes) (o w : Nat) (v : Int) (hw : 1 ≤ w) (hw' : w ≤ 64)
    (ht : RustHolds t w) (hp : RustPortable o w) (hv : InRange w t.isSigned v) (hlen : o + w ≤ 8 * d.length) :
    ∃ d', rustWrite t d o w v = some d' ∧ d'.length = d.length ∧
      rustRead t d' o w = some (if t.isSigned = true ∧ w = 1 ∧ v = -1 then 1 else v) ∧
      ∀ o' w' s', o' + w' ≤ o ∨ o + w ≤ o' → fieldValue d' o' w' s' = fieldValue d o' w' s' := by
  obtain ⟨d', he, hl, hb⟩ := C73_rust_write t d o w v hw hw' hp hv hlen
  have hf : fieldValue d' o w t.isSigned = v := by
    apply fieldValue_of_digits hv
    intro k hk
    rw [hb, if_pos ⟨by omega, by omega⟩]; congr 1; omega
  refine ⟨d', he, hl, ?_, ?_⟩
  · rw [C72_rust_read t d' o w hw hw' ht hp (by omega)]
    by_cases h1 : t.isSigned = true ∧ w = 1
    · rw [if_pos h1]
      obtain ⟨hs, rfl⟩ := h1
      rw [hs] at hf hv
      simp only [InRange, if_true] at hv
      have : v = -1 ∨ v = 0 := by omega
      rcases this with rfl | rfl
      · cases hbt : bitAt d' o
        · simp [fieldValue, unsignedAt, twosComplement, hbt] at hf
        · simp [hs]
      · cases hbt : bitAt d' o
        · simp
        · simp [fieldValue, unsignedAt, twosComplement, hbt] at hf
    · rw [if_neg h1, if_neg (by tauto), hf]
  · intro o' w' s' hdis
    have hu : unsignedAt d' o' w' = unsignedAt d o' w' := by
      apply Nat.eq_of_testBit_eq; intro k
      rw [unsignedAt_testBit, unsignedAt_testBit]
      by_cases hk : k < w'
      · rw [hb, if_neg (by omega)]
      · simp [hk]
    simp [fieldValue, hu]

/-- **C73, the defect.** A field that spans nine bytes and begins after the first byte never gets its last
bits: whatever is written, the field's ninth byte is left as it was. -/
theorem C73_ninth_byte_lost (t : RustType) (d d' : Bytes) (o w : Nat) (v : Int) (hw' : w ≤ 64)
    (ho : 8 ≤ o) (h9 : 64 < o % 8 + w) (h : rustWrite t d o w v = some d') (i : Nat) (hi : i / 8 = o / 8 + 8) :
    bitAt d' i = bitAt d i := by
  have hnb : min 8 ((w + o % 8 + 7) / 8) = 8 := by omega
  simp only [rustWrite] at h
  generalize min 8 ((w + o % 8 + 7) / 8) = nb at h hnb
  subst hnb
  simp only [Option.bind_eq_bind] at h
  cases hr : load d (o / 8) 8 with
  | none => simp [hr] at h
  | some r =>
    rw [hr] at h
    simp only [Option.bind_some] at h
    generalize hX : BitVec.setWidth (8 * 8) _ = X at h
    cases hd1 : store d (o / 8) 8 X with
    | none => simp [hd1] at h
    | some d1 =>
      rw [hd1] at h
      simp only [Option.bind_some] at h
      rw [if_pos (by omega)] at h
      cases hb : byteAt d1 8 with
      | none => simp [hb] at h
      | some b =>
        rw [hb] at h
        simp only [Option.bind_some] at h
        obtain ⟨-, hb1⟩ := store_bits hd1
        obtain ⟨-, hb2⟩ := store_bits h
        rw [hb2, if_neg (by omega), hb1, if_neg (by omega)]

/-- Writing `2 ^ 63` into a 64-bit field at bit 9 of a zeroed structure of ten bytes stores 0 in it and
sets a bit of byte 8 instead. -/
theorem C73_counterexample :
    rustWrite (.int 64 false) (List.replicate 10 0) 9 64 (2 ^ 63) = some [0, 0, 0, 0, 0, 0, 0, 0, 1, 0] := by
  decide +kernel

/-- A too large unsigned value destroys the field behind it. -/
theorem C73_counterexample_overflow :
    rustWrite (.int 8 false) [0] 0 3 8 = some [8] ∧ rustRead (.int 8 false) [8] 3 5 = some 1 := by decide +kernel

example : InRange 13 (RustType.int 16 true).isSigned (-221) := by decide
example : rustWrite (.int 16 true) [0xFF, 0xFF, 0xFF] 4 13 (-221) = some [0x3F, 0xF2, 0xFF] := by decide +kernel

end Props
