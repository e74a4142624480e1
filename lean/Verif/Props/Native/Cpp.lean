import Verif.Lemmas.Native
import Verif.Model.Native.Cpp

/-!
# C70, C71: the C++ runtime reads and writes the same fields
-/

namespace Props
open Py Spec Model Model.Native _root_.Native

/-! ## Auxiliary facts -/

theorem masked_bits {n w : Nat} (x : BitVec n) (hw : w ≤ n) (i : Nat) :
    (masked w x).getLsbD i = (decide (i < w) && x.getLsbD i) := by
  unfold masked
  split
  · rename_i h; subst h
    by_cases hi : i < w
    · simp [hi]
    · rw [BitVec.getLsbD_of_ge _ _ (by omega)]; simp
  · rw [BitVec.getLsbD_and, lowMask_bits (by omega), Bool.and_comm]

theorem storage_cases (o w : Nat) (hw' : w ≤ 64) :
    (storageBytes o w ≤ 8) ∧ (1 ≤ storageBytes o w) ∧ (w ≤ 8 * storageBytes o w) ∧
    (8 * storageBytes o w < o % 8 + w → storageBytes o w = 8) ∧
    (o % 8 + w ≤ 64 → o % 8 + w ≤ 8 * storageBytes o w) := by
  unfold storageBytes makeUnsigned
  split <;> split <;> (try split) <;> (try split) <;> omega

/-- The field types and widths that occur: `bool` has one bit, an integer or enumeration at least eight,
and the field is not wider than its type. -/
def CppHolds : CppType → Nat → Prop
  | .bool, w => w = 1
  | .int b _, w => 8 ≤ b ∧ w ≤ b
  | .enum b _, w => 8 ≤ b ∧ w ≤ b

theorem cpp_cast {t : CppType} {w : Nat} {v : Int} (ht : CppHolds t w) (h : InRange w t.isSigned v) :
    t.cast v = v := by
  cases t with
  | bool =>
    simp only [CppHolds] at ht; subst ht
    simp [InRange, CppType.isSigned] at h
    simp only [CppType.cast]
    split <;> omega
  | int b s => simp only [CppType.cast, valueOf_ofInt]; exact wrap_of_inRange (inRange_mono ht.2 h)
  | enum b s => simp only [CppType.cast, valueOf_ofInt]; exact wrap_of_inRange (inRange_mono ht.2 h)

theorem cpp_cast_bit {t : CppType} {w : Nat} (ht : CppHolds t w) (b : Bool) :
    t.cast (if b then 1 else 0) = if b then 1 else 0 := by
  cases t with
  | bool => cases b <;> rfl
  | int n s =>
    simp only [CppType.cast, valueOf_ofInt]
    apply wrap_of_inRange
    apply inRange_mono (w := 8) ht.1
    cases b <;> cases s <;> decide
  | enum n s =>
    simp only [CppType.cast, valueOf_ofInt]
    apply wrap_of_inRange
    apply inRange_mono (w := 8) ht.1
    cases b <;> cases s <;> decide

/-- the value a C++ reader returns, for every buffer that is long enough for its memory accesses -/
theorem cppRead_eq (t : CppType) (d : Bytes) (o w : Nat) (hw : 2 ≤ w) (hw' : w ≤ 64) (ht : CppHolds t w)
    (hlen : o / 8 + storageBytes o w ≤ d.length)
    (hlen' : 8 * storageBytes o w < o % 8 + w → o / 8 + storageBytes o w < d.length) :
    cppRead t d o w = some (fieldValue d o w t.isSigned) := by
  have h1 : ¬ w = 1 := by omega
  obtain ⟨hs8, hs1, hsw, hs9, hsf⟩ := storage_cases o w hw'
  simp only [cppRead, h1, if_false]
  obtain ⟨r, hr⟩ := load_some hlen
  have hrb := load_bits hr
  generalize hS : storageBytes o w = S at *
  have key : ∀ x : BitVec (8 * S), (∀ i, i < w → x.getLsbD i = bitAt d (o + i)) →
      t.extendSign w (masked w x) = fieldValue d o w t.isSigned := by
    intro x hx
    have hb : ∀ i, (masked w x).getLsbD i = (decide (i < w) && bitAt d (o + i)) := by
      intro i
      rw [masked_bits _ hsw]
      by_cases hi : i < w
      · rw [hx i hi]
      · simp [hi]
    have hv := inRange_fieldValue d o w t.isSigned
    unfold CppType.extendSign
    cases hsg : t.isSigned with
    | true =>
      rw [if_pos rfl, setWidth_toInt hb, cpp_cast ht]
      · simp [fieldValue]
      · rw [hsg] at hv ⊢; simpa [fieldValue] using hv
    | false =>
      rw [if_neg (by simp), toNat_field hb, cpp_cast ht]
      · simp [fieldValue]
      · rw [hsg] at hv ⊢; simpa [fieldValue] using hv
  rw [hr]
  simp only [Option.bind_eq_bind, Option.bind_some]
  by_cases hc : 8 * S - o % 8 < w
  · have hc9 : 8 * S < o % 8 + w := by omega
    have hS8 := hs9 hc9
    obtain ⟨b, hb⟩ := byteAt_some (hlen' hc9)
    have hbb := byteAt_bits hb
    rw [if_pos hc, hb]
    simp only [Option.bind_some]
    rw [key]
    intro i hi
    subst hS8
    rw [BitVec.getLsbD_or, BitVec.getLsbD_ushiftRight, hrb, BitVec.getLsbD_shiftLeft, BitVec.getLsbD_setWidth, hbb]
    have ho : o % 8 < 8 := Nat.mod_lt _ (by omega)
    have ho0 : 0 < o % 8 := by omega
    have hm : (8 * 8 - o % 8) % (8 * 8) = 64 - o % 8 := by omega
    rw [hm]
    by_cases h64 : o % 8 + i < 64
    · have e1 : decide (o % 8 + i < 8 * 8) = true := by simpa using h64
      have e2 : decide (i < 64 - o % 8) = true := by simp; omega
      have e3 : 8 * (o / 8) + (o % 8 + i) = o + i := by omega
      rw [e1, e2, e3]; simp
    · have e1 : decide (o % 8 + i < 8 * 8) = false := by simp; omega
      have e2 : decide (i < 64 - o % 8) = false := by simp; omega
      have e3 : 8 * (o / 8 + 8) + (i - (64 - o % 8)) = o + i := by omega
      have e4 : decide (i < 8 * 8) = true := by simp; omega
      have e5 : decide (i - (64 - o % 8) < 8 * 8) = true := by simp; omega
      have e6 : decide (i - (64 - o % 8) < 8) = true := by simp; omega
      rw [e1, e2, e3, e4, e5, e6]; simp
  · rw [if_neg hc]
    rw [key]
    intro i hi
    rw [BitVec.getLsbD_ushiftRight, hrb]
    have e1 : decide (o % 8 + i < 8 * S) = true := by simp; omega
    have e3 : 8 * (o / 8) + (o % 8 + i) = o + i := by omega
    rw [e1, e3]; simp

theorem cppRead_one (t : CppType) (d : Bytes) (o : Nat) (ht : CppHolds t 1) (hlen : o / 8 < d.length) :
    cppRead t d o 1 = some (if bitAt d o then 1 else 0) := by
  obtain ⟨b, hb⟩ := byteAt_some hlen
  have hbt := bit_test hb (Nat.mod_lt o (by omega : 8 > 0))
  have e : 8 * (o / 8) + o % 8 = o := by omega
  rw [e] at hbt
  have hc := cpp_cast_bit ht (bitAt d o)
  simp only [cppRead, if_true, hb, Option.bind_eq_bind, Option.bind_some]
  rw [show (if b &&& 1#8 <<< (o % 8) ≠ 0#8 then (1 : Int) else 0) = if bitAt d o then 1 else 0 from by
    by_cases h : bitAt d o = true
    · rw [if_pos (hbt.mpr h), if_pos h]
    · rw [if_neg (fun hn => h (hbt.mp hn)), if_neg h]]
  rw [hc]

/-! ## C70 -/

/-- **C70.** For every buffer whose last eight bytes are padding, every field of 1 to 64 bits before the
padding and every C++ field type that can hold it, the C++ reader stays inside the buffer and returns the
integer stored in the field's bits, with one exception: a signed one-bit field reads 0 or 1, never -1. -/
theorem C70_cpp_read (t : CppType) (d : Bytes) (o w : Nat) (hw : 1 ≤ w) (hw' : w ≤ 64) (ht : CppHolds t w)
    (hpad : o + w + 64 ≤ 8 * d.length) :
    cppRead t d o w = some (
      if t.isSigned = true ∧ w = 1 then (if bitAt d o then 1 else 0)
      else fieldValue d o w t.isSigned) := by
  by_cases h1 : w = 1
  · subst h1
    rw [cppRead_one t d o ht (by omega)]
    cases hs : t.isSigned
    · cases hb : bitAt d o <;> simp [fieldValue, unsignedAt, hb]
    · simp
  · rw [if_neg (by simp [h1])]
    obtain ⟨hs8, hs1, hsw, hs9, hsf⟩ := storage_cases o w hw'
    exact cppRead_eq t d o w (by omega) hw' ht (by omega) (fun h => by omega)

/-- The padding is needed: a 17-bit field at the end of a buffer of exactly three bytes is read as four. -/
theorem C70_padding_needed : cppRead (.int 32 false) [1, 2, 3] 0 17 = none ∧
    cppRead (.int 32 false) [1, 2, 3, 0] 0 17 = some 66049 := by decide +kernel

example : cppRead (.int 16 true) ([0x34, 0xF2, 0xFF] ++ List.replicate 8 0) 4 13 = some (-221) := by decide +kernel
/-- a field that spans nine bytes -/
example : cppRead (.int 64 false) ([0, 0, 0xFE, 0xFF, 0xFF, 0xFF, 0xFF, 0xFF, 0xFF, 0xFF, 3] ++ List.replicate 8 7) 17 64
    = some (2 ^ 64 - 1) := by decide +kernel
example : CppHolds (.int 16 true) 13 ∧ 4 + 13 + 64 ≤ 8 * (([0x34, 0xF2, 0xFF] : Bytes) ++ List.replicate 8 0).length := by
  simp [CppHolds]

/-! ## C71 -/

/-- The end of the bits a C++ write may touch: the end of the integer it loads and stores or, if the
field spans nine bytes, 64 bits after its begin. -/
def cppReach (o w : Nat) : Nat :=
  if 8 * storageBytes o w < o % 8 + w then o + 64 else 8 * (o / 8 + storageBytes o w)

/-- **C71 (exact).** The effect of a C++ write of *any* integer: the bits of the field become the digits
of the value; if the type is not a signed integer type the higher digits of the value are added
(disjunction) to the bits after the field, up to `cppReach`; all other bits keep their values. -/
theorem C71_cpp_write_exact (t : CppType) (d : Bytes) (o w : Nat) (v : Int) (hw : 1 ≤ w) (hw' : w ≤ 64)
    (hpad : o + w + 64 ≤ 8 * d.length) :
    ∃ d', cppWrite t d o w v = some d' ∧ d'.length = d.length ∧ ∀ i, bitAt d' i =
      if o ≤ i ∧ i < o + w then digit v (i - o)
      else if t.stdIsSigned = false ∧ o + w ≤ i ∧ i < cppReach o w then bitAt d i || digit v (i - o)
      else bitAt d i := by
  obtain ⟨hs8, hs1, hsw, hs9, hsf⟩ := storage_cases o w hw'
  unfold cppReach
  simp only [cppWrite]
  generalize hS : storageBytes o w = S at *
  obtain ⟨r, hr⟩ := load_some (d := d) (a := o / 8) (n := S) (by omega)
  have hrb := load_bits hr
  rw [hr]
  simp only [Option.bind_eq_bind, Option.bind_some]
  -- the stored value and the mask
  generalize hV : (if t.stdIsSigned = true then masked w (BitVec.ofInt (8 * S) v) else BitVec.ofInt (8 * S) v) = V
  generalize hM : masked w (BitVec.allOnes (8 * S)) = Mk
  have hVb : ∀ i, V.getLsbD i = (decide (i < 8 * S) && digit v i && (decide (i < w) || !t.stdIsSigned)) := by
    intro i
    subst hV
    cases t.stdIsSigned
    · simp [ofInt_bits]
    · simp only [if_true, masked_bits _ hsw, ofInt_bits]
      by_cases hi : i < w <;> simp [hi]
  have hMb : ∀ i, Mk.getLsbD i = decide (i < w) := by
    intro i
    subst hM
    rw [masked_bits _ hsw, BitVec.getLsbD_allOnes]
    by_cases hi : i < w
    · simp [hi]; omega
    · simp [hi]
  obtain ⟨d1, hd1⟩ := store_some (d := d) (a := o / 8) (n := S)
    (r &&& ~~~(Mk <<< (o % 8)) ||| V <<< (o % 8)) (by omega)
  obtain ⟨hl1, hb1⟩ := store_bits hd1
  rw [hd1]
  simp only [Option.bind_some]
  have ho : o % 8 < 8 := Nat.mod_lt _ (by omega)
  -- the bits of the stored integer
  have hnew : ∀ i, 8 * (o / 8) ≤ i → i < 8 * (o / 8 + S) → bitAt d1 i =
      if o ≤ i ∧ i < o + w then digit v (i - o)
      else if t.stdIsSigned = false ∧ o + w ≤ i then bitAt d i || digit v (i - o)
      else bitAt d i := by
    intro i hi hi'
    rw [hb1, if_pos ⟨hi, hi'⟩, BitVec.getLsbD_or, BitVec.getLsbD_and, BitVec.getLsbD_not, hrb,
      BitVec.getLsbD_shiftLeft, BitVec.getLsbD_shiftLeft, hVb, hMb]
    have e1 : decide (i - 8 * (o / 8) < 8 * S) = true := by simp; omega
    have e2 : 8 * (o / 8) + (i - 8 * (o / 8)) = i := by omega
    rw [e1, e2]
    simp only [Bool.true_and]
    by_cases hlo : o ≤ i
    · have e3 : decide (i - 8 * (o / 8) < o % 8) = false := by simp; omega
      have e4 : i - 8 * (o / 8) - o % 8 = i - o := by omega
      have e5 : decide (i - o < 8 * S) = true := by simp; omega
      rw [e3, e4, e5]
      simp only [Bool.not_false, Bool.true_and]
      by_cases hin : i < o + w
      · have e6 : decide (i - o < w) = true := by simp; omega
        rw [e6, if_pos ⟨hlo, hin⟩]; simp
      · have e6 : decide (i - o < w) = false := by simp; omega
        rw [e6, if_neg (by omega)]
        cases t.stdIsSigned
        · simp [show o + w ≤ i by omega]
        · simp
    · have e3 : decide (i - 8 * (o / 8) < o % 8) = true := by simp; omega
      rw [e3, if_neg (by omega), if_neg (by omega)]; simp
  have hrest : ∀ i, ¬ (8 * (o / 8) ≤ i ∧ i < 8 * (o / 8 + S)) → bitAt d1 i = bitAt d i := by
    intro i hi
    rw [hb1, if_neg hi]
  by_cases hc : 8 * S - o % 8 < w
  · have hc9 : 8 * S < o % 8 + w := by omega
    have hS8 := hs9 hc9
    subst hS8
    rw [if_pos hc, if_pos hc9]
    obtain ⟨b, hb⟩ := byteAt_some (d := d1) (a := o / 8 + 8) (by omega)
    have hbb := byteAt_bits hb
    rw [hb]
    simp only [Option.bind_some]
    have hm : (8 * 8 - o % 8) % (8 * 8) = 64 - o % 8 := by omega
    rw [hm]
    generalize hX : (BitVec.setWidth 8 (BitVec.setWidth (8 * 8) b &&& ~~~(Mk >>> (64 - o % 8))) |||
        BitVec.setWidth 8 (V >>> (64 - o % 8))) = X
    obtain ⟨d2, hd2⟩ := store_some (d := d1) (a := o / 8 + 8) (n := 1) X (by omega)
    obtain ⟨hl2, hb2⟩ := store_bits hd2
    refine ⟨d2, hd2, by omega, fun i => ?_⟩
    rw [hb2]
    by_cases hi : 8 * (o / 8 + 8) ≤ i ∧ i < 8 * (o / 8 + 8 + 1)
    · rw [if_pos hi]
      subst hX
      have e1 : decide (i - 8 * (o / 8 + 8) < 8) = true := by simp; omega
      have e2 : decide (i - 8 * (o / 8 + 8) < 8 * 8) = true := by simp; omega
      have e3 : 8 * (o / 8 + 8) + (i - 8 * (o / 8 + 8)) = i := by omega
      have e4 : 64 - o % 8 + (i - 8 * (o / 8 + 8)) = i - o := by omega
      simp only [BitVec.getLsbD_or, BitVec.getLsbD_and, BitVec.getLsbD_not, BitVec.getLsbD_setWidth, BitVec.getLsbD_ushiftRight, hbb, hVb, hMb, e1, e2, e3, e4,
        Bool.true_and]
      rw [hrest i (by omega)]
      by_cases hin : i < o + w
      · have e6 : decide (i - o < w) = true := by simp; omega
        have e7 : decide (i - o < 8 * 8) = true := by simp; omega
        rw [e6, e7, if_pos ⟨by omega, hin⟩]; simp
      · have e6 : decide (i - o < w) = false := by simp; omega
        rw [e6, if_neg (by omega)]
        by_cases h64 : i < o + 64
        · have e7 : decide (i - o < 8 * 8) = true := by simp; omega
          rw [e7]
          cases t.stdIsSigned
          · simp [show o + w ≤ i by omega, h64]
          · simp
        · have e7 : decide (i - o < 8 * 8) = false := by simp; omega
          rw [e7, if_neg (by omega)]; simp
    · rw [if_neg hi]
      by_cases h1 : 8 * (o / 8) ≤ i ∧ i < 8 * (o / 8 + 8)
      · rw [hnew i h1.1 h1.2]
        by_cases hin : o ≤ i ∧ i < o + w
        · rw [if_pos hin, if_pos hin]
        · rw [if_neg hin, if_neg hin]
          have : i < o + 64 := by omega
          simp [this]
      · rw [hrest i h1, if_neg (by omega), if_neg (by omega)]
  · rw [if_neg hc, if_neg (by omega)]
    refine ⟨d1, rfl, hl1, fun i => ?_⟩
    by_cases h1 : 8 * (o / 8) ≤ i ∧ i < 8 * (o / 8 + S)
    · rw [hnew i h1.1 h1.2]
      simp [h1.2]
    · rw [hrest i h1, if_neg (by omega), if_neg (by omega)]

/-- The values a C++ writer stores faithfully: those in the range of the field, except that the negative
values of an enumeration are not masked. -/
def CppStorable (t : CppType) (w : Nat) (v : Int) : Prop :=
  InRange w t.isSigned v ∧ (t.stdIsSigned = false → 0 ≤ v)

theorem digit_high {w k : Nat} {v : Int} (h0 : 0 ≤ v) (h : v < 2 ^ w) (hk : w ≤ k) : digit v k = false := by
  obtain ⟨n, rfl⟩ := Int.eq_ofNat_of_zero_le h0
  have hn : n < 2 ^ w := by exact_mod_cast h
  rw [digit_natCast]
  exact Nat.testBit_lt_two_pow (lt_of_lt_of_le hn (Nat.pow_le_pow_right (by omega) hk))

theorem storable_lt {t : CppType} {w : Nat} {v : Int} (h : CppStorable t w v) (hs : t.stdIsSigned = false) :
    0 ≤ v ∧ v < 2 ^ w := by
  refine ⟨h.2 hs, ?_⟩
  have h1 := h.1
  have h0 := h.2 hs
  cases hsg : t.isSigned <;> rw [hsg] at h1 <;> simp [InRange] at h1 <;> omega

/-- **C71.** For every buffer whose last eight bytes are padding, whatever it contains, every field of 1
to 64 bits before the padding and every value in the range of the field (non-negative for enumerations),
the C++ writer stays inside the buffer, puts the digits of the value into the bits of the field and keeps
every other bit. -/
theorem C71_cpp_write (t : CppType) (d : Bytes) (o w : Nat) (v : Int) (hw : 1 ≤ w) (hw' : w ≤ 64)
    (hv : CppStorable t w v) (hpad : o + w + 64 ≤ 8 * d.length) :
    ∃ d', cppWrite t d o w v = some d' ∧ d'.length = d.length ∧
      ∀ i, bitAt d' i = if o ≤ i ∧ i < o + w then digit v (i - o) else bitAt d i := by
  obtain ⟨d', he, hl, hb⟩ := C71_cpp_write_exact t d o w v hw hw' hpad
  refine ⟨d', he, hl, fun i => ?_⟩
  rw [hb]
  by_cases hin : o ≤ i ∧ i < o + w
  · rw [if_pos hin, if_pos hin]
  · rw [if_neg hin, if_neg hin]
    split
    · rename_i hs
      have := storable_lt hv hs.1
      rw [digit_high this.1 this.2 (by omega)]; simp
    · rfl

/-- a buffer whose field bits are the digits of an in-range value holds the value -/
theorem fieldValue_of_digits {d : Bytes} {o w : Nat} {s : Bool} {v : Int} (hv : InRange w s v)
    (h : ∀ k, k < w → bitAt d (o + k) = digit v k) : fieldValue d o w s = v := by
  rw [← wrap_of_inRange hv]
  cases s
  · simp only [fieldValue, wrap, unsignedAt_of_bits h, Bool.false_eq_true, if_false]; exact emod_toNat_cast v w
  · simp only [fieldValue, wrap, unsignedAt_of_bits h, if_true]

/-- **C71, corollary.** What a C++ writer stores the C++ reader returns (-1 in a signed one-bit field
reads as 1), and the values of all fields that do not overlap are unchanged, for every later reader. -/
theorem C71_cpp_round_trip (t : CppType) (d : Bytes) (o w : Nat) (v : Int) (hw : 1 ≤ w) (hw' : w ≤ 64)
    (ht : CppHolds t w) (hv : CppStorable t w v) (hpad : o + w + 64 ≤ 8 * d.length) :
    ∃ d', cppWrite t d o w v = some d' ∧ d'.length = d.length ∧
      cppRead t d' o w = some (if t.isSigned = true ∧ w = 1 ∧ v = -1 then 1 else v) ∧
      ∀ o' w' s', o' + w' ≤ o ∨ o + w ≤ o' → fieldValue d' o' w' s' = fieldValue d o' w' s' := by
  obtain ⟨d', he, hl, hb⟩ := C71_cpp_write t d o w v hw hw' hv hpad
  have hf : fieldValue d' o w t.isSigned = v := by
    apply fieldValue_of_digits hv.1
    intro k hk
    rw [hb, if_pos ⟨by omega, by omega⟩]; congr 1; omega
  refine ⟨d', he, hl, ?_, ?_⟩
  · rw [C70_cpp_read t d' o w hw hw' ht (by omega)]
    by_cases h1 : t.isSigned = true ∧ w = 1
    · rw [if_pos h1]
      obtain ⟨hs, rfl⟩ := h1
      rw [hs] at hf
      have hr := hv.1
      rw [hs] at hr
      simp only [InRange, if_true] at hr
      have : v = -1 ∨ v = 0 := by omega
      rcases this with rfl | rfl
      · cases hbt : bitAt d' o
        · simp [fieldValue, unsignedAt, twosComplement, hbt] at hf
        · simp [hs]
      · cases hbt : bitAt d' o
        · simp
        · simp [fieldValue, unsignedAt, twosComplement, hbt] at hf
    · rw [if_neg h1, if_neg (by tauto), hf]
  · intro o' w' s' hdis
    have hu : unsignedAt d' o' w' = unsignedAt d o' w' := by
      apply Nat.eq_of_testBit_eq; intro k
      rw [unsignedAt_testBit, unsignedAt_testBit]
      by_cases hk : k < w'
      · rw [hb, if_neg (by omega)]
      · simp [hk]
    simp [fieldValue, hu]

/-- Storing a negative value of an enumeration with a signed underlying type destroys the field behind
it: three bits with -1, then five bits holding 0, read 31 afterwards. -/
theorem C71_counterexample_enum :
    cppWrite (.enum 8 true) (List.replicate 9 0) 0 3 (-1) = some (0xFF :: List.replicate 8 0) ∧
    cppRead (.enum 8 true) (0xFF :: List.replicate 8 0) 0 3 = some (-1) ∧
    cppRead (.int 8 false) (List.replicate 9 0) 3 5 = some 0 ∧
    cppRead (.int 8 false) (0xFF :: List.replicate 8 0) 3 5 = some 31 := by decide +kernel

/-- The same happens with a too large unsigned value. -/
theorem C71_counterexample_overflow :
    cppWrite (.int 8 false) (List.replicate 9 0) 0 3 8 = some (8 :: List.replicate 8 0) ∧
    cppRead (.int 8 false) (8 :: List.replicate 8 0) 3 5 = some 1 := by decide +kernel

example : CppStorable (.int 16 true) 13 (-221) ∧ CppStorable (.enum 8 true) 3 2 := by
  refine ⟨⟨by decide, by decide⟩, ⟨by decide, by decide⟩⟩
example : cppWrite (.int 16 true) ([0xFF, 0xFF, 0xFF] ++ List.replicate 8 0) 4 13 (-221) =
    some ([0x3F, 0xF2, 0xFF] ++ List.replicate 8 0) := by decide +kernel

end Props
