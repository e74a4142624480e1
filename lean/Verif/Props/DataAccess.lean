import Verif.Lemmas.Fields

/-!
# C01 – C05: reading and writing bit fields

`Spec.bitAt`, `Spec.fieldValue`, `Spec.InRange`, `Spec.wrap`, `Spec.digit` (Verif/Spec/Bits.lean) define
what the words in the properties mean; `Model.readValue`, `Model.writeValue`
(Verif/Model/DataAccess.lean) are the code.
-/

namespace Props
open Py Spec Model

/-! ## C01 -/

/-- **C01 (exact).** For every buffer, every offset and width 1..64 inside it and both signednesses,
`read_value` returns the integer stored in the field's bits *if and only if* neither of two defects
applies: a signed 1-bit field whose bit is set, and an unsigned 64-bit field at an unaligned offset with
a set bit behind it in its last byte. -/
theorem C01_read_value_iff (d : Bytes) (o w : Nat) (s : Bool) (hw : 1 ≤ w) (hw' : w ≤ 64)
    (hfit : o + w ≤ 8 * d.length) :
    readValue d o w s = .ok (fieldValue d o w s) ↔
      ¬ (s = true ∧ w = 1 ∧ bitAt d o = true) ∧
      ¬ (s = false ∧ w = 64 ∧ o % 8 ≠ 0 ∧
          ∃ i, o + 64 ≤ i ∧ i < 8 * (o / 8 + 9) ∧ bitAt d i = true) := by
  by_cases h1 : w = 1
  · subst h1
    rw [readValue_one d o s hfit]
    cases s <;> cases hb : bitAt d o <;> simp [fieldValue, unsignedAt, hb, twosComplement]
  · rw [readValue_eq d o w s (by omega) hw' hfit]
    cases s with
    | true => simp [fieldValue, h1]
    | false =>
      simp only [fieldValue, Bool.false_eq_true, if_false, Except.ok.injEq, false_and, not_false_eq_true,
        true_and]
      rw [Int.natCast_inj, unsignedAt_extend_iff (rawWidth_ge hw')]
      constructor
      · rintro h ⟨hw64, ho, i, hi, hi', hb⟩
        have : rawWidth o w = 72 - o % 8 := by unfold rawWidth; rw [if_neg]; omega
        rw [h i (by omega) (by omega)] at hb
        exact Bool.false_ne_true hb
      · intro h i hi hi'
        unfold rawWidth at hi'
        split at hi'
        · omega
        · by_contra hb
          exact h ⟨by omega, by omega, i, by omega, by omega, by simpa using hb⟩

/-- **C01.** For every buffer, every field of width 1..64 inside it and both signednesses, `read_value` returns exactly: the stored
bit (0 or 1, never -1) for a signed 1-bit field; the `72 - o mod 8` bits up to the end of the last byte for an unsigned 64-bit field that
does not begin at a byte boundary; and the integer stored in the field's bits for every other field. -/
theorem C01_read_value (d : Bytes) (o w : Nat) (s : Bool) (hw : 1 ≤ w) (hw' : w ≤ 64) (hfit : o + w ≤ 8 * d.length) :
    readValue d o w s = .ok (
      if s = true ∧ w = 1 then (if bitAt d o then 1 else 0)
      else if s = false ∧ w = 64 ∧ o % 8 ≠ 0 then (unsignedAt d o (72 - o % 8) : Int)
      else fieldValue d o w s) := by
  by_cases h1 : s = true ∧ w = 1
  · obtain ⟨rfl, rfl⟩ := h1
    rw [readValue_one d o true hfit]; simp
  · rw [if_neg h1]
    by_cases h2 : s = false ∧ w = 64 ∧ o % 8 ≠ 0
    · obtain ⟨rfl, rfl, ho⟩ := h2
      rw [readValue_eq d o 64 false (by omega) (by omega) hfit]
      simp [rawWidth, ho]
    · rw [if_neg h2]
      exact (C01_read_value_iff d o w s hw hw' hfit).mpr
        ⟨fun h => h1 ⟨h.1, h.2.1⟩, fun h => h2 ⟨h.1, h.2.1, h.2.2.1⟩⟩

/-- Outside the two defects reading returns the stored integer. -/
theorem readValue_field (d : Bytes) (o w : Nat) (s : Bool) (hw : 1 ≤ w) (hw' : w ≤ 64)
    (hfit : o + w ≤ 8 * d.length) (hbit : s = true → w ≠ 1) (h64 : s = false → w = 64 → o % 8 = 0) :
    readValue d o w s = .ok (fieldValue d o w s) :=
  (C01_read_value_iff d o w s hw hw' hfit).mpr
    ⟨fun h => hbit h.1 h.2.1, fun h => h.2.2.1 (h64 h.1 h.2.1)⟩

/-- What the second defect returns: `72 - o mod 8` bits instead of 64. -/
theorem C01_unaligned_u64 (d : Bytes) (o : Nat) (ho : o % 8 ≠ 0) (hfit : o + 64 ≤ 8 * d.length) :
    readValue d o 64 false = .ok (unsignedAt d o (72 - o % 8) : Int) := by
  rw [readValue_eq d o 64 false (by omega) (by omega) hfit]
  simp [rawWidth, ho]

/-- The property C01 without side conditions fails: a 64-bit unsigned field at bit 1, followed by a set
bit, reads as `2^64`. -/
theorem C01_counterexample_u64 :
    ∃ (d : Bytes) (o : Nat), o + 64 ≤ 8 * d.length ∧ fieldValue d o 64 false = 0 ∧
      readValue d o 64 false = .ok (2 ^ 64) :=
  ⟨[0, 0, 0, 0, 0, 0, 0, 0, 2], 1, by decide, by decide +kernel, by decide +kernel⟩

/-- The property C01 without side conditions fails: a signed 1-bit field with its bit set reads as 1,
although its two's complement value is -1. -/
theorem C01_counterexample_i1 :
    ∃ (d : Bytes), fieldValue d 0 1 true = -1 ∧ readValue d 0 1 true = .ok 1 :=
  ⟨[1], by decide, by decide +kernel⟩

example : readValue [0x34, 0xF2, 0xFF] 4 13 true = .ok (-221) ∧
    fieldValue [0x34, 0xF2, 0xFF] 4 13 true = -221 := ⟨by decide +kernel, by decide⟩
example : (1 ≤ 13 ∧ 13 ≤ 64 ∧ 4 + 13 ≤ 8 * ([0x34, 0xF2, 0xFF] : Bytes).length) := by decide

/-- Width 0 (accepted by the generator): reads 0 at aligned offsets, raises otherwise. -/
theorem C01_width_zero (d : Bytes) (o : Nat) (s : Bool) :
    readValue d o 0 s =
      if o % 8 = 0 then .ok 0
      else if o / 8 < d.length then .error .valueError else .error .indexError := by
  by_cases ho : o % 8 = 0
  · have h : (readBits d o 0 : M Int) = .ok 0 := by
      simp [readBits, ho, sliceNN, fromLE, shr, pure, Except.pure, bind, Except.bind]
      rfl
    cases s
    · simp [readValue, h, ho, pure, Except.pure, bind, Except.bind]
    · simp [readValue, h, ho, pure, Except.pure, bind, Except.bind, signBits]; decide +kernel
  · have hpos : (0 : Int) < (o % 8 : Nat) := by omega
    have hc : (((0 + 7) / 8 : Nat) : Int) * 8 - (o % 8 : Nat) < ((0 : Nat) : Int) := by
      simp only [Nat.reduceAdd, Nat.reduceDiv, Int.ofNat_zero]; omega
    have hneg : (((0 + 7) / 8 : Nat) : Int) * 8 - (o % 8 : Nat) < 0 := hc
    by_cases hl : o / 8 < d.length
    · have hg : getByte d (o / 8 + (0 + 7) / 8) = _ := getByte_ok hl
      simp only [readValue, readBits, hc, hg, shlChecked, hneg, ho, hl, if_true, if_false, bind, Except.bind,
        Nat.zero_ne_one]
      rfl
    · have hg : getByte d (o / 8 + (0 + 7) / 8) = _ := getByte_err (Nat.le_of_not_lt hl)
      simp only [readValue, readBits, hc, hg, ho, hl, if_true, if_false, bind, Except.bind, Nat.zero_ne_one]

/-! ## C03 -/

/-- **C03.** The effect of a write inside the buffer, on every bit:
the length and all bits before the field and beyond its last byte are unchanged; the field's bits
become the value's digits - OR-ed with the old bits in the field's first byte if the field starts at
bit 8 or later (a defect when overwriting); the remaining bits of the last touched byte survive only in
1-bit writes, in the first byte if `o ≥ 8`, and above position `o` of the trailing byte (i.e. only if
`o < 8`); otherwise they are cleared. -/
theorem C03_write_effect (d : Bytes) (o w : Nat) (s : Bool) (v : Int) (hw : 1 ≤ w) (hw' : w ≤ 64)
    (hfit : o + w ≤ 8 * d.length) :
    ∃ d', writeValue d o w s v = .ok d' ∧ d'.length = d.length ∧
      (∀ i, i < o → bitAt d' i = bitAt d i) ∧
      (∀ i, 8 * ((o + w + 7) / 8) ≤ i → bitAt d' i = bitAt d i) ∧
      (∀ k, k < w → bitAt d' (o + k) =
        (storedDigit w v k || (decide (w ≠ 1 ∧ 8 ≤ o ∧ (o + k) / 8 = o / 8) && bitAt d (o + k)))) ∧
      (∀ i, o + w ≤ i → i < 8 * ((o + w + 7) / 8) → bitAt d' i =
        (bitAt d i && decide (w = 1 ∨ (i / 8 = o / 8 ∧ 8 ≤ o) ∨
          (i / 8 = o / 8 + (w + 7) / 8 ∧ o ≤ i % 8)))) := by
  by_cases h1 : w = 1
  · subst h1
    obtain ⟨d', he, hl, hb⟩ := writeValue_one_bits d o s v hfit
    refine ⟨d', he, hl, fun i hi => ?_, fun i hi => ?_, fun k hk => ?_, fun i hi _ => ?_⟩
    · rw [hb, if_neg (by omega)]
    · rw [hb, if_neg (by omega)]
    · have : k = 0 := by omega
      subst this
      simp [hb, storedDigit]
    · rw [hb, if_neg (by omega)]; simp
  · obtain ⟨d', he, hl, hb⟩ := writeValue_bits d o w s v (by omega) hw' hfit
    refine ⟨d', he, hl, fun i hi => ?_, fun i hi => ?_, fun k hk => ?_, fun i hi hi' => ?_⟩
    · rw [hb]
      by_cases h : i / 8 = o / 8
      · have h2 : i % 8 < o := by omega
        have h3 : ¬ o ≤ i := by omega
        simp [h, h2, h3]
      · rw [if_neg h, if_neg (by omega), if_neg (by omega)]
    · rw [hb, if_neg (by omega)]
      by_cases h : o / 8 < i / 8 ∧ i / 8 < o / 8 + (w + 7) / 8
      · omega
      · rw [if_neg h, if_neg (by omega)]
    · rw [hb]
      have hs : storedDigit w v k = digit v (o + k - o) := by
        simp [storedDigit, h1]
      rw [hs]
      by_cases h : (o + k) / 8 = o / 8
      · rw [if_pos h]
        by_cases h8 : 8 ≤ o
        · have : (o + k) % 8 < o := by omega
          simp [h1, h, h8, this, hk]
        · have : ¬ (o + k) % 8 < o := by omega
          simp [h8, this, hk]
      · rw [if_neg h]
        by_cases h2 : o / 8 < (o + k) / 8 ∧ (o + k) / 8 < o / 8 + (w + 7) / 8
        · rw [if_pos h2]; simp [h, hk]
        · rw [if_neg h2, if_pos (by omega)]
          have : (o + k) % 8 < o := by omega
          simp [h, hk, this]
    · rw [hb]
      have hlt : ¬ i < o + w := by omega
      by_cases h : i / 8 = o / 8
      · rw [if_pos h]
        have h2 : ¬ (i / 8 = o / 8 + (w + 7) / 8) := by omega
        by_cases h8 : 8 ≤ o
        · have : i % 8 < o := by omega
          simp [hlt, h, h8, this]
        · have : ¬ i % 8 < o := by omega
          simp only [hlt, h2, h1, h8, this]; simp
      · rw [if_neg h]
        by_cases h2 : o / 8 < i / 8 ∧ i / 8 < o / 8 + (w + 7) / 8
        · rw [if_pos h2]
          have h3 : ¬ (i / 8 = o / 8 + (w + 7) / 8) := by omega
          simp [hlt, h, h1, h3]
        · rw [if_neg h2, if_pos (by omega)]
          have h3 : (i / 8 = o / 8 + (w + 7) / 8) := by omega
          have h4 : ¬ (o / 8 + (w + 7) / 8 = o / 8) := by omega
          by_cases h8 : o ≤ i % 8
          · have : ¬ i % 8 < o := by omega
            simp [hlt, h8, this, h3]
          · have : i % 8 < o := by omega
            simp only [hlt, h1, h8, this, h3, h4]; simp

example : writeValue [0xFF, 0xFF, 0xFF] 3 7 false 5 = .ok [0x2F, 0xF8, 0xFF] := by decide +kernel

/-- Overwriting a field that starts at bit 8 or later does not replace the old value (OR). -/
theorem C03_counterexample_overwrite :
    ∃ (d d1 d2 : Bytes), writeValue d 8 4 false 5 = .ok d1 ∧ readValue d1 8 4 false = .ok 5 ∧
      writeValue d1 9 3 false 0 = .ok d2 ∧ readValue d2 9 3 false = .ok 2 :=
  ⟨[0, 0], [0, 5], [0, 5], by decide +kernel, by decide +kernel, by decide +kernel, by decide +kernel⟩

/-- Writing fields in decreasing order damages the later one. -/
theorem C03_counterexample_order :
    ∃ (d1 d2 : Bytes), writeValue [0, 0] 9 4 false 15 = .ok d1 ∧ readValue d1 9 4 false = .ok 15 ∧
      writeValue d1 0 9 false 0 = .ok d2 ∧ readValue d2 9 4 false = .ok 0 :=
  ⟨[0, 30], [0, 0], by decide +kernel, by decide +kernel, by decide +kernel, by decide +kernel⟩

/-! ## C02, C04 -/

/-- **C04.** Writing *any* integer into a field of width 2..64 and reading it back gives its residue
modulo `2^w` in the field's range, provided the part of the buffer the write does not clear is clear:
the field's own bits in its first byte if it starts at bit 8 or later, and - for unaligned unsigned
64-bit fields, whose read is unmasked - the bits behind the field in its last byte. -/
theorem C04_write_read_wrap (d : Bytes) (o w : Nat) (s : Bool) (v : Int) (hw : 2 ≤ w) (hw' : w ≤ 64)
    (hfit : o + w ≤ 8 * d.length)
    (hclear : 8 ≤ o → ∀ i, o ≤ i → i < o + w → i / 8 = o / 8 → bitAt d i = false)
    (h64 : s = false → w = 64 → o % 8 ≠ 0 → ∀ i, o + 64 ≤ i → i < 8 * (o / 8 + 9) → bitAt d i = false) :
    ∃ d', writeValue d o w s v = .ok d' ∧ readValue d' o w s = .ok (wrap w s v) ∧
      InRange w s (wrap w s v) ∧ (2 ^ w : Int) ∣ wrap w s v - v := by
  obtain ⟨d', he, hl, hpre, hpost, hin, hgap⟩ := C03_write_effect d o w s v (by omega) hw' hfit
  refine ⟨d', he, ?_, inRange_wrap w s v, ?_⟩
  · apply readValue_of_bits hw hw' (by omega)
    · intro k hk
      rw [hin k hk]
      have h1 : ¬ w = 1 := by omega
      simp only [storedDigit, h1, if_false]
      by_cases hc : w ≠ 1 ∧ 8 ≤ o ∧ (o + k) / 8 = o / 8
      · rw [hclear hc.2.1 (o + k) (by omega) (by omega) hc.2.2]; simp
      · simp [hc]
    · intro hs hw64 ho i hi hi'
      subst hw64
      rw [hgap i (by omega) (by omega), h64 hs rfl ho i hi hi']; simp
  · cases s with
    | false =>
      simp only [wrap, Bool.false_eq_true, if_false]
      exact ⟨-(v / 2 ^ w), by have := Int.emod_add_mul_ediv v (2 ^ w); linarith⟩
    | true =>
      simp only [wrap, if_true, twosComplement, emod_toNat_cast]
      split
      · exact ⟨-(v / 2 ^ w) - 1, by have := Int.emod_add_mul_ediv v (2 ^ w); linarith⟩
      · exact ⟨-(v / 2 ^ w), by have := Int.emod_add_mul_ediv v (2 ^ w); linarith⟩

/-- **C04, width 1.** A 1-bit field stores 1 for the value 1 and 0 for *every* other integer,
whatever the buffer contained. -/
theorem C04_write_read_bit (d : Bytes) (o : Nat) (s : Bool) (v : Int) (hfit : o + 1 ≤ 8 * d.length) :
    ∃ d', writeValue d o 1 s v = .ok d' ∧ readValue d' o 1 s = .ok (if v = 1 then 1 else 0) := by
  obtain ⟨d', he, hl, hb⟩ := writeValue_one_bits d o s v hfit
  refine ⟨d', he, ?_⟩
  rw [readValue_one d' o s (by omega), hb]
  by_cases hv : v = 1 <;> simp [hv]

/-- **C02.** *Any* integer written into a buffer whose bits from the field's start to the end of its last byte are zero is read back as
`storedValue` (its residue modulo `2 ^ w` in the range of the field; "is it 1" for 1-bit fields). An integer in the range of the field is
therefore read back unchanged, with exactly one exception: -1 in a signed 1-bit field. -/
theorem C02_write_read (d : Bytes) (o w : Nat) (s : Bool) (v : Int) (hw : 1 ≤ w) (hw' : w ≤ 64)
    (hfit : o + w ≤ 8 * d.length) (hzero : ∀ i, o ≤ i → i < 8 * ((o + w + 7) / 8) → bitAt d i = false) :
    (∃ d', writeValue d o w s v = .ok d' ∧ readValue d' o w s = .ok (storedValue w s v)) ∧
    (InRange w s v → (storedValue w s v = v ↔ ¬ (s = true ∧ w = 1 ∧ v = -1))) := by
  by_cases h1 : w = 1
  · subst h1
    obtain ⟨d', he, hr⟩ := C04_write_read_bit d o s v hfit
    refine ⟨⟨d', he, by rw [hr]; simp [storedValue]⟩, fun hv => ?_⟩
    simp only [storedValue, if_true]
    cases s with
    | false =>
      simp only [InRange, Bool.false_eq_true, if_false] at hv
      by_cases hv1 : v = 1
      · simp [hv1]
      · simp [hv1]; omega
    | true =>
      simp only [InRange, if_true] at hv
      by_cases hv1 : v = 1
      · omega
      · simp [hv1]; omega
  · obtain ⟨d', he, hr, -, -⟩ := C04_write_read_wrap d o w s v (by omega) hw' hfit
      (fun _ i hi hi' _ => hzero i hi (by omega))
      (fun _ hw64 ho i hi hi' => hzero i (by omega) (by subst hw64; omega))
    refine ⟨⟨d', he, by rw [hr]; simp [storedValue, h1]⟩, fun hv => ?_⟩
    simp [storedValue, h1, wrap_of_inRange hv]

/-- The exception of C02. -/
theorem C02_counterexample_i1 :
    ∃ d' : Bytes, InRange 1 true (-1) ∧ writeValue [0] 0 1 true (-1) = .ok d' ∧
      readValue d' 0 1 true = .ok 0 :=
  ⟨[0], by decide, by decide +kernel, by decide +kernel⟩

example : ∃ d', writeValue [0x07, 0, 0, 0] 3 17 true (-4711) = .ok d' ∧
    readValue d' 3 17 true = .ok (-4711) := by
  have h : ∀ i, i < 24 → 3 ≤ i → bitAt [0x07, 0, 0, 0] i = false := by decide
  obtain ⟨⟨d', h1, h2⟩, h3⟩ := C02_write_read [0x07, 0, 0, 0] 3 17 true (-4711) (by decide) (by decide) (by decide)
    (fun i h1 h2 => h i h2 h1)
  rw [(h3 (by decide)).mpr (by decide)] at h2
  exact ⟨d', h1, h2⟩

example : ∃ d', writeValue [0xFF, 0xF0, 0xFF] 8 4 false (-1) = .ok d' ∧
    readValue d' 8 4 false = .ok 15 := ⟨[0xFF, 0xFF, 0xFF], by decide +kernel, by decide +kernel⟩

/-! ## C05 -/

/-- **C05.** Inside the buffer, and for widths 1..64, neither reading nor writing raises. -/
theorem C05_in_buffer_total (d : Bytes) (o w : Nat) (s : Bool) (v : Int) (hw : 1 ≤ w) (hw' : w ≤ 64)
    (hfit : o + w ≤ 8 * d.length) :
    (∃ r, readValue d o w s = .ok r) ∧ (∃ d', writeValue d o w s v = .ok d') := by
  refine ⟨?_, ?_⟩
  · by_cases h1 : w = 1
    · subst h1; exact ⟨_, readValue_one d o s hfit⟩
    · exact ⟨_, readValue_eq d o w s (by omega) hw' hfit⟩
  · obtain ⟨d', he, -⟩ := C03_write_effect d o w s v hw hw' hfit
    exact ⟨d', he⟩

/-- **C05.** The result of a read depends only on the bytes the field overlaps. -/
theorem C05_read_local (d e : Bytes) (o w : Nat) (s : Bool) (hw : 1 ≤ w) (hw' : w ≤ 64)
    (hd : o + w ≤ 8 * d.length) (he : o + w ≤ 8 * e.length)
    (hsame : ∀ j, o / 8 ≤ j → j < (o + w + 7) / 8 → d[j]? = e[j]?) :
    readValue d o w s = readValue e o w s := by
  have hb : ∀ i, o ≤ i → i < 8 * ((o + w + 7) / 8) → bitAt d i = bitAt e i := by
    intro i hi hi'
    simp only [bitAt, List.getD, hsame (i / 8) (by omega) (by omega)]
  by_cases h1 : w = 1
  · subst h1
    rw [readValue_one d o s hd, readValue_one e o s he, hb o (by omega) (by omega)]
  · rw [readValue_eq d o w s (by omega) hw' hd, readValue_eq e o w s (by omega) hw' he]
    have hx : ∀ w', w' ≤ 8 * ((o + w + 7) / 8) - o → unsignedAt d o w' = unsignedAt e o w' := by
      intro w' hle
      apply Nat.eq_of_testBit_eq; intro k
      rw [unsignedAt_testBit, unsignedAt_testBit]
      by_cases hk : k < w'
      · rw [hb (o + k) (by omega) (by omega)]
      · simp [hk]
    rw [hx w (by omega), hx (rawWidth o w) (by unfold rawWidth; split <;> omega)]

/-- **C05.** Widths above 64 are refused by the writer and by the signed reader. -/
theorem C05_too_wide (d : Bytes) (o w : Nat) (s : Bool) (v : Int) (hw : 64 < w) :
    writeValue d o w s v = .error .assertionError := by
  simp [writeValue, hw]; rfl

example : (∃ r, readValue [1, 2, 3] 5 19 true = .ok r) := (C05_in_buffer_total [1, 2, 3] 5 19 true 0
  (by decide) (by decide) (by decide)).1

end Props
