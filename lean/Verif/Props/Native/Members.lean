import Verif.Spec.Members
import Verif.Props.Native.Agree

/-!
# C91, C92: comparison and copying of structures, optional fields
-/

namespace Props
open Py Spec Model Model.Native _root_.Native

/-! ## Values and bits -/

theorem digit_fieldValue {d : Bytes} {o w : Nat} {s : Bool} {k : Nat} (hk : k < w) : digit (fieldValue d o w s) k = bitAt d (o + k) := by
  have hm : fieldValue d o w s % 2 ^ w = (unsignedAt d o w : Int) := by
    have hlt : (unsignedAt d o w : Int) < 2 ^ w := by exact_mod_cast unsignedAt_lt d o w
    unfold fieldValue twosComplement
    split
    · split
      · rw [Int.sub_emod_right]; exact Int.emod_eq_of_lt (by omega) hlt
      · exact Int.emod_eq_of_lt (by omega) hlt
    · exact Int.emod_eq_of_lt (by omega) hlt
  have h1 := digit_emod (fieldValue d o w s) w k
  rw [hm, digit_natCast, unsignedAt_testBit] at h1
  simpa [hk] using h1.symm

theorem fieldValue_eq_value {d : Bytes} {o w : Nat} {s : Bool} {v : Int} (hv : InRange w s v) : fieldValue d o w s = v ↔ BitsAre d o w v :=
  ⟨fun h k hk => by rw [← h, digit_fieldValue hk], fieldValue_of_digits hv⟩

theorem fieldValue_eq_iff {a b : Bytes} {o w : Nat} {s : Bool} : fieldValue a o w s = fieldValue b o w s ↔ SameBits a b o w := by
  rw [fieldValue_eq_value (inRange_fieldValue b o w s)]
  exact ⟨fun h k hk => by rw [h k hk, digit_fieldValue hk], fun h k hk => by rw [h k hk, digit_fieldValue hk]⟩

/-- What Rust and C++ make of the bits of a field: signed one-bit fields are 0 or 1. -/
def shownBits (d : Bytes) (o w : Nat) (s : Bool) : Int :=
  if s = true ∧ w = 1 then (if bitAt d o then 1 else 0) else fieldValue d o w s

theorem digit_shownBits {d : Bytes} {o w : Nat} {s : Bool} {k : Nat} (hk : k < w) : digit (shownBits d o w s) k = bitAt d (o + k) := by
  unfold shownBits
  split
  · rename_i h
    obtain ⟨-, rfl⟩ := h
    obtain rfl : k = 0 := by omega
    cases hb : bitAt d o <;> simp [hb, digit]
  · exact digit_fieldValue hk

theorem shownBits_eq_iff {a b : Bytes} {o w : Nat} {s : Bool} : shownBits a o w s = shownBits b o w s ↔ SameBits a b o w := by
  constructor
  · intro h k hk
    rw [← digit_shownBits hk, h, digit_shownBits hk]
  · intro h
    unfold shownBits
    split
    · rename_i hs
      have := h 0 (by omega)
      simp only [Nat.add_zero] at this
      rw [this]
    · exact fieldValue_eq_iff.mpr h

theorem sameBits_self (a : Bytes) (o w : Nat) : SameBits a a o w := fun _ _ => rfl

/-! ## The fields -/

/-- A field of a Rust struct of `n` bytes: inside the struct, of 1 to 64 bits that the runtime can address, of a type that can hold it, and
with an invalid value in its range. -/
structure RustSlotOk (n : Nat) (s : RustSlot) : Prop where
  pos : 1 ≤ s.width
  le : s.width ≤ 64
  holds : RustHolds s.type s.width
  portable : RustPortable s.offset s.width
  inside : s.offset + s.width ≤ 8 * n
  invalid : ∀ v, s.invalid = some v → InRange s.width s.type.isSigned v

/-- A field of a C++ class of `n` bytes. -/
structure CppSlotOk (n : Nat) (s : CppSlot) : Prop where
  pos : 1 ≤ s.width
  le : s.width ≤ 64
  holds : CppHolds s.type s.width
  inside : s.offset + s.width ≤ 8 * n
  invalid : ∀ v, s.invalid = some v → InRange s.width s.type.isSigned v

theorem rust_shown {n : Nat} {s : RustSlot} (h : RustSlotOk n s) {d : Bytes} (hd : n ≤ d.length) :
    rustRead s.type d s.offset s.width = some (shownBits d s.offset s.width s.type.isSigned) :=
  C72_rust_read s.type d s.offset s.width h.pos h.le h.holds h.portable (by have := h.inside; omega)

theorem cpp_shown {n : Nat} {s : CppSlot} (h : CppSlotOk n s) {d : Bytes} (hd : n + 8 ≤ d.length) :
    cppRead s.type d s.offset s.width = some (shownBits d s.offset s.width s.type.isSigned) :=
  C70_cpp_read s.type d s.offset s.width h.pos h.le h.holds (by have := h.inside; omega)

theorem rustGetField_shown {n : Nat} {s : RustSlot} (h : RustSlotOk n s) {d : Bytes} (hd : n ≤ d.length) :
    rustGetField s d = some (if s.invalid = some (shownBits d s.offset s.width s.type.isSigned) then none
      else some (shownBits d s.offset s.width s.type.isSigned)) := by
  simp only [rustGetField, rust_shown h hd, Option.bind_eq_bind, Option.bind_some]
  cases hi : s.invalid with
  | none => simp
  | some z =>
    by_cases hz : shownBits d s.offset s.width s.type.isSigned = z
    · simp [hz]
    · simp [hz, Ne.symm hz]

theorem rustGetField_eq_iff {n : Nat} {s : RustSlot} (h : RustSlotOk n s) {a b : Bytes} (ha : n ≤ a.length) (hb : n ≤ b.length) :
    rustGetField s a = rustGetField s b ↔ SameBits a b s.offset s.width := by
  rw [rustGetField_shown h ha, rustGetField_shown h hb, ← shownBits_eq_iff (s := s.type.isSigned), Option.some.injEq]
  constructor
  · intro he
    split at he <;> split at he
    · rename_i h1 h2
      rw [h1] at h2; exact Option.some.inj h2
    · exact absurd he (by simp)
    · exact absurd he (by simp)
    · exact Option.some.inj he
  · intro he; rw [he]

/-! ## C91: equality -/

/-- **C91, Rust.** Two structs are equal exactly if all their fields have the same bits; the comparison stays inside the structs. -/
theorem C91_rust_equal {n : Nat} {slots : List RustSlot} (h : ∀ s ∈ slots, RustSlotOk n s) {a b : Bytes} (ha : n ≤ a.length) (hb : n ≤ b.length) :
    ∃ r, rustEq a b slots = some r ∧ (r = true ↔ ∀ s ∈ slots, SameBits a b s.offset s.width) := by
  induction slots with
  | nil => exact ⟨true, rfl, by simp⟩
  | cons s ss ih =>
    have hs := h s (by simp)
    obtain ⟨r, hr, hri⟩ := ih fun x hx => h x (by simp [hx])
    have hga := rustGetField_shown hs ha
    have hgb := rustGetField_shown hs hb
    have hiff := rustGetField_eq_iff hs ha hb
    rw [hga, hgb, Option.some.injEq] at hiff
    simp only [rustEq, hga, hgb, Option.bind_eq_bind, Option.bind_some]
    by_cases he : SameBits a b s.offset s.width
    · exact ⟨r, by rw [if_pos (hiff.mpr he), hr], by simp [hri, he]⟩
    · exact ⟨false, by rw [if_neg (fun x => he (hiff.mp x))], by simp [he]⟩

/-- **C91, Rust.** Two structs are equal exactly if all their getters return the same; so `==` is an equivalence relation. -/
theorem C91_rust_equal_getters {n : Nat} {slots : List RustSlot} (h : ∀ s ∈ slots, RustSlotOk n s) {a b : Bytes} (ha : n ≤ a.length) (hb : n ≤ b.length) :
    rustEq a b slots = some true ↔ ∀ s ∈ slots, rustGetField s a = rustGetField s b := by
  obtain ⟨r, hr, hri⟩ := C91_rust_equal h ha hb
  rw [hr, Option.some.injEq, hri]
  exact forall₂_congr fun s hs => (rustGetField_eq_iff (h s hs) ha hb).symm

theorem bytes_eq_iff_bits {a b : Bytes} (hl : a.length = b.length) : a = b ↔ ∀ i, i < 8 * a.length → bitAt a i = bitAt b i :=
  ⟨fun h _ _ => by rw [h], fun h => bytes_ext hl h⟩

theorem cppEqualFrom_eq (a b : Bytes) : ∀ (n i : Nat), i + n ≤ a.length → i + n ≤ b.length →
    cppEqualFrom a b i n = some (decide (sliceNN a i (i + n) = sliceNN b i (i + n)))
  | 0, i, _, _ => by simp [cppEqualFrom, sliceNN]
  | n + 1, i, ha, hb => by
    have ea : a[i]? = some a[i] := List.getElem?_eq_getElem (by omega)
    have eb : b[i]? = some b[i] := List.getElem?_eq_getElem (by omega)
    simp only [cppEqualFrom, ea, eb, Option.bind_eq_bind, Option.bind_some]
    have hsl : ∀ (c : Bytes) (hc : i + (n + 1) ≤ c.length), sliceNN c i (i + (n + 1)) = c[i] :: sliceNN c (i + 1) (i + 1 + n) := by
      intro c hc
      unfold sliceNN
      rw [show i + (n + 1) - i = n + 1 by omega, show i + 1 + n - (i + 1) = n by omega, List.drop_eq_getElem_cons (by omega), List.take_succ_cons]
    rw [hsl a ha, hsl b hb, cppEqualFrom_eq a b n (i + 1) (by omega) (by omega)]
    by_cases he : a[i] = b[i]
    · simp [he]
    · simp [he]

/-- **C91, C++.** Two structures are equal exactly if their bytes are; bytes behind them are not looked at. -/
theorem C91_cpp_equal {n : Nat} {a b : Bytes} (ha : n ≤ a.length) (hb : n ≤ b.length) :
    cppEqual n a b = some (decide (a.take n = b.take n)) := by
  rw [cppEqual, cppEqualFrom_eq a b n 0 (by omega) (by omega)]
  simp [sliceNN]

theorem consecutive_le : ∀ {fs : List (Nat × Nat)} {o e : Nat}, Consecutive o fs e → o ≤ e
  | [], _, _, h => Nat.le_of_eq h
  | _ :: _, _, _, h => by have := consecutive_le h.2; omega

/-- Fields without gaps contain every bit. -/
theorem consecutive_inside : ∀ {fs : List (Nat × Nat)} {o e : Nat}, Consecutive o fs e → ∀ i, InsideFields fs i ↔ o ≤ i ∧ i < e
  | [], o, e, h, i => by
    have : o = e := h
    constructor
    · rintro ⟨f, hf, -⟩; simp at hf
    · omega
  | f :: fs, o, e, h, i => by
    obtain ⟨h1, h2⟩ := h
    have hle := consecutive_le h2
    have ih := consecutive_inside h2 i
    constructor
    · rintro ⟨g, hg, hi⟩
      rcases List.mem_cons.mp hg with rfl | hg
      · omega
      · have := ih.mp ⟨g, hg, hi⟩; omega
    · intro hi
      by_cases hlt : i < o + f.2
      · exact ⟨f, by simp, by omega⟩
      · obtain ⟨g, hg, hgi⟩ := ih.mpr ⟨by omega, hi.2⟩
        exact ⟨g, by simp [hg], hgi⟩

theorem same_inside {fs : List (Nat × Nat)} {a b : Bytes} : (∀ f ∈ fs, SameBits a b f.1 f.2) ↔ ∀ i, InsideFields fs i → bitAt a i = bitAt b i := by
  constructor
  · rintro h i ⟨f, hf, h1, h2⟩
    have := h f hf (i - f.1) (by omega)
    rwa [show f.1 + (i - f.1) = i by omega] at this
  · intro h f hf k hk
    exact h _ ⟨f, hf, by omega, by omega⟩

theorem rust_same_places {slots : List RustSlot} {a b : Bytes} :
    (∀ s ∈ slots, SameBits a b s.offset s.width) ↔ ∀ f ∈ rustPlaces slots, SameBits a b f.1 f.2 := by
  simp [rustPlaces]

theorem bitAt_take (d : Bytes) (n i : Nat) : bitAt (d.take n) i = (decide (i < 8 * n) && bitAt d i) := by
  have := bitAt_slice d 0 n i
  simpa [sliceNN] using this

/-- **C91.** C++ and Rust agree about the equality of two structures whose unused bits - those between the last field and the end of the
structure - are the same, as they are in structures that were filled by setting their fields. -/
theorem C91_equal_agree {n e : Nat} {slots : List RustSlot} (h : ∀ s ∈ slots, RustSlotOk n s) (hc : Consecutive 0 (rustPlaces slots) e)
    {a b : Bytes} (ha : n ≤ a.length) (hb : n ≤ b.length) (hrest : ∀ i, e ≤ i → i < 8 * n → bitAt a i = bitAt b i) :
    cppEqual n a b = rustEq a b slots := by
  obtain ⟨r, hr, hri⟩ := C91_rust_equal h ha hb
  rw [C91_cpp_equal ha hb, hr, Option.some.injEq]
  have key : (a.take n = b.take n) ↔ r = true := by
    rw [hri, rust_same_places, same_inside, bytes_eq_iff_bits (by simp; omega)]
    constructor
    · intro hh i hi
      have hin := (consecutive_inside hc i).mp hi
      obtain ⟨f, hf, hf1, hf2⟩ := hi
      simp only [rustPlaces, List.mem_map] at hf
      obtain ⟨s, hs, rfl⟩ := hf
      have hs8 := (h s hs).inside
      have := hh i (by simp at hf1 hf2 ⊢; omega)
      have hlt : i < 8 * n := by simp at hf2; omega
      simpa [bitAt_take, hlt] using this
    · intro hh i hi
      rw [bitAt_take, bitAt_take]
      by_cases hlt : i < 8 * n
      · by_cases hie : i < e
        · rw [hh i ((consecutive_inside hc i).mpr ⟨by omega, hie⟩)]
        · rw [hrest i (by omega) hlt]
      · simp [hlt]
  cases r with
  | true => simp [key.mpr rfl]
  | false => simpa using fun he => absurd (key.mp he) (by simp)

/-- In particular they agree if every bit of the structure belongs to a field. -/
theorem C91_equal_agree_full {n : Nat} {slots : List RustSlot} (h : ∀ s ∈ slots, RustSlotOk n s) (hc : Consecutive 0 (rustPlaces slots) (8 * n))
    {a b : Bytes} (ha : n ≤ a.length) (hb : n ≤ b.length) : cppEqual n a b = rustEq a b slots :=
  C91_equal_agree h hc ha hb fun i h1 h2 => absurd h1 (by omega)

/-- A structure with a 4-bit and a 3-bit field. -/
def exampleSlots : List RustSlot := [⟨.int 8 false, 0, 4, none⟩, ⟨.int 8 true, 4, 3, none⟩]

theorem exampleSlots_ok : (∀ s ∈ exampleSlots, RustSlotOk 1 s) ∧ Consecutive 0 (rustPlaces exampleSlots) 7 := by
  refine ⟨fun s hs => ?_, by simp [exampleSlots, rustPlaces, Consecutive]⟩
  simp only [exampleSlots, List.mem_cons, List.not_mem_nil, or_false] at hs
  rcases hs with rfl | rfl
  · exact ⟨by decide, by decide, ⟨by decide, by decide⟩, by simp [RustPortable], by decide, by simp⟩
  · exact ⟨by decide, by decide, ⟨by decide, by decide⟩, by simp [RustPortable], by decide, by simp⟩

/-- They disagree if the unused bits differ: the bit after the two fields is set in one structure, as in a file that was not written by flatdata.
All fields are the same, Rust finds the structures equal and C++ does not. -/
theorem C91_counterexample_unused_bits :
    rustEq [0x25] [0xA5] exampleSlots = some true ∧ cppEqual 1 [0x25] [0xA5] = some false := by decide +kernel

example : rustEq [0x25] [0x35] exampleSlots = some false ∧ cppEqual 1 [0x25] [0x35] = some false := by decide +kernel

/-! ## C91: order -/

/-- **C91, C++.** `<` of structures compares all fields: it holds if *every* field is less. It is defined for structures without optional
fields only. -/
theorem C91_cpp_less {n : Nat} {slots : List CppSlot} (h : ∀ s ∈ slots, CppSlotOk n s) (hne : slots ≠ []) (ho : ∀ s ∈ slots, s.invalid = none)
    {a b : Bytes} (ha : n + 8 ≤ a.length) (hb : n + 8 ≤ b.length) :
    ∃ r, cppLess a b slots = some r ∧ (r = true ↔ ∀ s ∈ slots, ∃ x y, cppRead s.type a s.offset s.width = some x ∧
      cppRead s.type b s.offset s.width = some y ∧ x < y) := by
  induction slots with
  | nil => exact absurd rfl hne
  | cons s ss ih =>
    have hs := h s (by simp)
    have hx := cpp_shown hs ha
    have hy := cpp_shown hs hb
    have hi := ho s (by simp)
    have hlt : (∃ x y, cppRead s.type a s.offset s.width = some x ∧ cppRead s.type b s.offset s.width = some y ∧ x < y) ↔
        shownBits a s.offset s.width s.type.isSigned < shownBits b s.offset s.width s.type.isSigned := by
      rw [hx, hy]
      constructor
      · rintro ⟨x, y, e1, e2, hlt⟩; cases e1; cases e2; exact hlt
      · intro hlt; exact ⟨_, _, rfl, rfl, hlt⟩
    simp only [cppLess, hi, hx, hy, Option.bind_eq_bind, Option.bind_some, Option.isSome_none, Bool.false_eq_true, if_false]
    cases ss with
    | nil => exact ⟨_, rfl, by rw [decide_eq_true_eq, ← hlt]; simp⟩
    | cons s2 ss =>
      obtain ⟨r, hr, hri⟩ := ih (fun x hx => h x (by simp [hx])) (by simp) (fun x hx => ho x (by simp [hx]))
      by_cases hl : shownBits a s.offset s.width s.type.isSigned < shownBits b s.offset s.width s.type.isSigned
      · refine ⟨r, by simp only [if_pos hl, hr], ?_⟩
        rw [List.forall_mem_cons, ← hri, hlt]; simp [hl]
      · refine ⟨false, by simp only [if_neg hl], ?_⟩
        rw [List.forall_mem_cons, hlt]; simp [hl]

/-- **C91, C++.** `<` is irreflexive, and transitive: a strict partial order. -/
theorem C91_cpp_less_order {n : Nat} {slots : List CppSlot} (h : ∀ s ∈ slots, CppSlotOk n s) (hne : slots ≠ []) (ho : ∀ s ∈ slots, s.invalid = none)
    {a b c : Bytes} (ha : n + 8 ≤ a.length) (hb : n + 8 ≤ b.length) (hc : n + 8 ≤ c.length) :
    cppLess a a slots = some false ∧
    (cppLess a b slots = some true → cppLess b a slots = some false) ∧
    (cppLess a b slots = some true → cppLess b c slots = some true → cppLess a c slots = some true) := by
  have key : ∀ {x y : Bytes}, n + 8 ≤ x.length → n + 8 ≤ y.length → ∃ r, cppLess x y slots = some r ∧ (r = true ↔
      ∀ s ∈ slots, shownBits x s.offset s.width s.type.isSigned < shownBits y s.offset s.width s.type.isSigned) := by
    intro x y hx hy
    obtain ⟨r, hr, hri⟩ := C91_cpp_less h hne ho hx hy
    refine ⟨r, hr, hri.trans (forall₂_congr fun s hs => ?_)⟩
    rw [cpp_shown (h s hs) hx, cpp_shown (h s hs) hy]
    constructor
    · rintro ⟨x, y, e1, e2, hlt⟩; cases e1; cases e2; exact hlt
    · intro hlt; exact ⟨_, _, rfl, rfl, hlt⟩
  obtain ⟨s, hs⟩ := List.exists_mem_of_ne_nil _ hne
  obtain ⟨raa, eaa, haa⟩ := key ha ha
  obtain ⟨rab, eab, hab⟩ := key ha hb
  obtain ⟨rba, eba, hba⟩ := key hb ha
  obtain ⟨rbc, ebc, hbc⟩ := key hb hc
  obtain ⟨rac, eac, hac⟩ := key ha hc
  rw [eaa, eab, eba, ebc, eac]
  simp only [Option.some.injEq]
  refine ⟨?_, fun h1 => ?_, fun h1 h2 => ?_⟩
  · exact Bool.eq_false_iff.mpr fun ht => absurd (haa.mp ht s hs) (by omega)
  · refine Bool.eq_false_iff.mpr fun ht => ?_
    have := hab.mp h1 s hs
    have := hba.mp ht s hs
    omega
  · exact hac.mpr fun x hx => lt_trans (hab.mp h1 x hx) (hbc.mp h2 x hx)

/-- Two bytes as a structure with two fields. -/
def pairSlots : List CppSlot := [⟨.int 8 false, 0, 8, none⟩, ⟨.int 8 false, 8, 8, none⟩]

/-- The order is *not* one that sorting or ordered containers can use (a strict weak order): (0, 1) and (2, 0) cannot be compared, (2, 0) and
(1, 2) cannot be compared, but (0, 1) is less than (1, 2). It is not the lexicographic order: (0, 5) is not less than (1, 5). -/
theorem C91_counterexample_order :
    let x : Bytes := [0, 1] ++ List.replicate 8 0
    let y : Bytes := [2, 0] ++ List.replicate 8 0
    let z : Bytes := [1, 2] ++ List.replicate 8 0
    cppLess x y pairSlots = some false ∧ cppLess y x pairSlots = some false ∧
    cppLess y z pairSlots = some false ∧ cppLess z y pairSlots = some false ∧
    cppLess x z pairSlots = some true ∧
    cppLess ([0, 5] ++ List.replicate 8 0) ([1, 5] ++ List.replicate 8 0) pairSlots = some false := by decide +kernel

theorem pairSlots_ok : ∀ s ∈ pairSlots, CppSlotOk 2 s ∧ s.invalid = none := by
  intro s hs
  simp only [pairSlots, List.mem_cons, List.not_mem_nil, or_false] at hs
  rcases hs with rfl | rfl
  · exact ⟨⟨by decide, by decide, ⟨by decide, by decide⟩, by decide, by simp⟩, rfl⟩
  · exact ⟨⟨by decide, by decide, ⟨by decide, by decide⟩, by decide, by simp⟩, rfl⟩

/-! ## C91: copying -/

/-- Setting what a getter returned: the bits of the field are copied, all others are kept. -/
theorem rust_copy {n : Nat} {s : RustSlot} (h : RustSlotOk n s) {a b : Bytes} (ha : n ≤ a.length) (hb : n ≤ b.length) :
    ∃ x a', rustGetField s b = some x ∧ rustSetField s a x = some a' ∧ a'.length = a.length ∧
      ∀ i, bitAt a' i = if s.offset ≤ i ∧ i < s.offset + s.width then bitAt b i else bitAt a i := by
  obtain ⟨a', he, hl, hbits⟩ := C73_rust_write_exact s.type a s.offset s.width (shownBits b s.offset s.width s.type.isSigned) h.pos h.le h.portable
    (by have := h.inside; omega)
  refine ⟨_, a', rustGetField_shown h hb, ?_, hl, fun i => ?_⟩
  · cases hi : s.invalid with
    | none => simp [rustSetField, hi, he]
    | some z =>
      by_cases hz : z = shownBits b s.offset s.width s.type.isSigned
      · simp [rustSetField, hi, hz, he]
      · simp [rustSetField, hi, hz, he]
  · rw [hbits]
    by_cases hin : s.offset ≤ i ∧ i < s.offset + s.width
    · rw [if_pos hin, if_pos hin, digit_shownBits (by omega), show s.offset + (i - s.offset) = i by omega]
    · rw [if_neg hin, if_neg hin]
      split
      · rename_i hs
        have hr : InRange s.width false (shownBits b s.offset s.width s.type.isSigned) := by
          rw [hs.1]; simpa [shownBits] using inRange_fieldValue b s.offset s.width false
        simp only [InRange, Bool.false_eq_true, if_false] at hr
        rw [digit_high hr.1 hr.2 (by omega)]; simp
      · rfl

/-- **C91, Rust.** `fill_from` copies the bits of all fields, whatever the two structs contained, and changes nothing else; afterwards the
struct is equal to the other one, and all getters return the same (also for fields with an invalid value, and for signed one-bit fields). -/
theorem C91_fill_from {n : Nat} {slots : List RustSlot} (h : ∀ s ∈ slots, RustSlotOk n s) {a b : Bytes} (ha : n ≤ a.length) (hb : n ≤ b.length) :
    ∃ a', rustFillFrom a b slots = some a' ∧ a'.length = a.length ∧
      (∀ i, InsideFields (rustPlaces slots) i → bitAt a' i = bitAt b i) ∧ (∀ i, ¬ InsideFields (rustPlaces slots) i → bitAt a' i = bitAt a i) ∧
      rustEq a' b slots = some true := by
  have key : ∀ (ss : List RustSlot), (∀ s ∈ ss, RustSlotOk n s) → ∀ a : Bytes, n ≤ a.length →
      ∃ a', rustFillFrom a b ss = some a' ∧ a'.length = a.length ∧
        (∀ i, InsideFields (rustPlaces ss) i → bitAt a' i = bitAt b i) ∧ (∀ i, ¬ InsideFields (rustPlaces ss) i → bitAt a' i = bitAt a i) := by
    intro ss
    induction ss with
    | nil => exact fun _ a _ => ⟨a, rfl, rfl, fun i hi => by obtain ⟨f, hf, -⟩ := hi; simp [rustPlaces] at hf, fun _ _ => rfl⟩
    | cons s ss ih =>
      intro h a ha
      obtain ⟨x, a1, hg, hs, hl1, hb1⟩ := rust_copy (h s (by simp)) ha hb
      obtain ⟨a2, h2, hl2, hin, hout⟩ := ih (fun y hy => h y (by simp [hy])) a1 (by omega)
      refine ⟨a2, by simp [rustFillFrom, hg, hs, h2], by omega, fun i hi => ?_, fun i hi => ?_⟩
      · by_cases hi2 : InsideFields (rustPlaces ss) i
        · exact hin i hi2
        · rw [hout i hi2, hb1]
          obtain ⟨f, hf, hfi⟩ := hi
          rcases List.mem_cons.mp hf with rfl | hf
          · rw [if_pos hfi]
          · exact absurd ⟨f, hf, hfi⟩ hi2
      · have hi2 : ¬ InsideFields (rustPlaces ss) i := fun ⟨f, hf, hfi⟩ => hi ⟨f, List.mem_cons_of_mem _ hf, hfi⟩
        rw [hout i hi2, hb1, if_neg]
        exact fun hfi => hi ⟨(s.offset, s.width), by simp [rustPlaces], hfi⟩
  obtain ⟨a', h1, h2, h3, h4⟩ := key slots h a ha
  refine ⟨a', h1, h2, h3, h4, ?_⟩
  obtain ⟨r, hr, hri⟩ := C91_rust_equal h (a := a') (b := b) (by omega) hb
  rw [hr, hri.mpr (rust_same_places.mpr (same_inside.mpr h3))]

example : rustFillFrom [0xFF] [0x25] exampleSlots = some [0xA5] := by decide +kernel
example : rustFillFrom [0xFF] [0x25] [⟨.int 8 false, 0, 4, some 5⟩, ⟨.int 8 true, 4, 1, none⟩, ⟨.int 8 true, 5, 1, some (-1)⟩] = some [0xE5] := by
  decide +kernel

/-! ## C92: optional fields -/

/-- The case in which an optional field does not work: a signed one-bit field, whose constant is -1. -/
def NeverInvalid (w : Nat) (s : Bool) (z : Int) : Prop := s = true ∧ w = 1 ∧ z = -1

theorem shownBits_eq_value {d : Bytes} {o w : Nat} {s : Bool} {v : Int} (hv : InRange w s v) (h1 : ¬ NeverInvalid w s v) :
    shownBits d o w s = v ↔ BitsAre d o w v := by
  constructor
  · rintro h k hk; rw [← h, digit_shownBits hk]
  · intro h
    unfold shownBits
    split
    · rename_i hs
      obtain ⟨rfl, rfl⟩ := hs
      have hr := hv
      simp only [InRange, if_true] at hr
      have hne : v ≠ -1 := fun e => h1 ⟨rfl, rfl, e⟩
      obtain rfl : v = 0 := by omega
      have := h 0 (by omega)
      simp only [Nat.add_zero] at this
      simp [this, digit]
    · exact fieldValue_of_digits hv h

/-- **C92, Rust.** The getter of an optional field returns `None` exactly if the bits of the field are those of the constant, and otherwise the
value stored. -/
theorem C92_rust_get {n : Nat} {s : RustSlot} {z : Int} (h : RustSlotOk n s) (hz : s.invalid = some z)
    (h1 : ¬ NeverInvalid s.width s.type.isSigned z) {d : Bytes} (hd : n ≤ d.length) :
    (rustGetField s d = some none ↔ BitsAre d s.offset s.width z) ∧
    (¬ BitsAre d s.offset s.width z → ∃ v, rustRead s.type d s.offset s.width = some v ∧ v ≠ z ∧ rustGetField s d = some (some v)) := by
  have hiff := shownBits_eq_value (d := d) (o := s.offset) (h.invalid z hz) h1
  rw [rustGetField_shown h hd, hz]
  refine ⟨?_, fun hb => ⟨_, rust_shown h hd, fun he => hb (hiff.mp he), ?_⟩⟩
  · rw [← hiff]
    by_cases he : shownBits d s.offset s.width s.type.isSigned = z
    · simp [he]
    · simp [he, Ne.symm he]
  · rw [if_neg]
    rintro he
    exact hb (hiff.mp (Option.some.inj he).symm)

/-- **C92, Rust.** What is set is what is got: `None` and every value in the range of the field other than the constant; the constant itself
reads as `None`. All bits of other fields are kept. -/
theorem C92_rust_round_trip {n : Nat} {s : RustSlot} {z : Int} (h : RustSlotOk n s) (hz : s.invalid = some z)
    (h1 : ¬ (s.type.isSigned = true ∧ s.width = 1)) {d : Bytes} (hd : n ≤ d.length) (v : Option Int)
    (hv : ∀ x, v = some x → InRange s.width s.type.isSigned x) :
    ∃ d', rustSetField s d v = some d' ∧ d'.length = d.length ∧ (∀ i, ¬ (s.offset ≤ i ∧ i < s.offset + s.width) → bitAt d' i = bitAt d i) ∧
      rustGetField s d' = some (if v = some z then none else v) := by
  have hv' : InRange s.width s.type.isSigned (v.getD z) := by
    cases v with
    | none => exact h.invalid z hz
    | some x => exact hv x rfl
  obtain ⟨d', he, hl, hb⟩ := C73_rust_write s.type d s.offset s.width (v.getD z) h.pos h.le h.portable hv' (by have := h.inside; omega)
  refine ⟨d', by simp [rustSetField, hz, he], hl, fun i hi => by rw [hb, if_neg hi], ?_⟩
  have hsh : shownBits d' s.offset s.width s.type.isSigned = v.getD z :=
    (shownBits_eq_value hv' fun hn => h1 ⟨hn.1, hn.2.1⟩).mpr fun k hk => by
      rw [hb, if_pos ⟨by omega, by omega⟩]; congr 1; omega
  rw [rustGetField_shown h (by omega), hsh, hz]
  cases v with
  | none => simp
  | some x =>
    by_cases hx : x = z
    · simp [hx]
    · simp [hx, Ne.symm hx]

/-- **C92, C++.** The member converts to an empty `boost::optional` - and to `false` - exactly if the bits of the field are those of the
constant, and otherwise to the value stored. -/
theorem C92_cpp_get {n : Nat} {s : CppSlot} {z : Int} (h : CppSlotOk n s) (hz : s.invalid = some z)
    (h1 : ¬ NeverInvalid s.width s.type.isSigned z) {d : Bytes} (hd : n + 8 ≤ d.length) :
    (cppOptional s z d = some none ↔ BitsAre d s.offset s.width z) ∧
    (cppHas s z d = some false ↔ BitsAre d s.offset s.width z) ∧
    (¬ BitsAre d s.offset s.width z → cppHas s z d = some true ∧
      ∃ v, cppRead s.type d s.offset s.width = some v ∧ v ≠ z ∧ cppOptional s z d = some (some v)) := by
  have hiff := shownBits_eq_value (d := d) (o := s.offset) (h.invalid z hz) h1
  simp only [cppOptional, cppHas, cpp_shown h hd, Option.bind_eq_bind, Option.bind_some, Option.some.injEq]
  rw [← hiff]
  by_cases he : shownBits d s.offset s.width s.type.isSigned = z
  · simp [he]
  · simp [he]

/-- **C92, C++.** Assigning a value in the range of the field: it is what the member then converts to, unless it is the constant. All bits of
other fields are kept. -/
theorem C92_cpp_round_trip {n : Nat} {s : CppSlot} {z : Int} (h : CppSlotOk n s) (hz : s.invalid = some z)
    (h1 : ¬ (s.type.isSigned = true ∧ s.width = 1)) {d : Bytes} (hd : n + 8 ≤ d.length) (v : Int) (hv : CppStorable s.type s.width v) :
    ∃ d', cppTaggedAssign s d v = some d' ∧ d'.length = d.length ∧ (∀ i, ¬ (s.offset ≤ i ∧ i < s.offset + s.width) → bitAt d' i = bitAt d i) ∧
      cppOptional s z d' = some (if v = z then none else some v) := by
  obtain ⟨d', he, hl, hb⟩ := C71_cpp_write s.type d s.offset s.width v h.pos h.le hv (by have := h.inside; omega)
  refine ⟨d', he, hl, fun i hi => by rw [hb, if_neg hi], ?_⟩
  have hsh : shownBits d' s.offset s.width s.type.isSigned = v :=
    (shownBits_eq_value hv.1 fun hn => h1 ⟨hn.1, hn.2.1⟩).mpr fun k hk => by
      rw [hb, if_pos ⟨by omega, by omega⟩]; congr 1; omega
  simp only [cppOptional, cpp_shown h (show n + 8 ≤ d'.length by omega), hsh, Option.bind_eq_bind, Option.bind_some]
  split <;> rfl

/-- **C92.** Rust and C++ agree about optional fields, whatever the bytes are: both find no value, or both find the same value. -/
theorem C92_agree {n : Nat} {r : RustSlot} {c : CppSlot} {z : Int} (hr : RustSlotOk n r) (hc : CppSlotOk n c) (hzr : r.invalid = some z)
    (ho : r.offset = c.offset) (hw : r.width = c.width) (hs : r.type.isSigned = c.type.isSigned)
    {d : Bytes} (hd : n + 8 ≤ d.length) : ∃ v, rustGetField r d = some v ∧ cppOptional c z d = some v := by
  refine ⟨_, rustGetField_shown hr (by omega), ?_⟩
  simp only [cppOptional, cpp_shown hc hd, Option.bind_eq_bind, Option.bind_some, hzr, ho, hw, hs]
  by_cases he : shownBits d c.offset c.width c.type.isSigned = z
  · simp [he]
  · simp [he, Ne.symm he]

/-- **C92, the defect.** A signed one-bit field with the constant -1 (which the generator accepts: -1 fits into one bit) never is invalid:
setting `None` stores the constant, and the getter returns `Some(1)`. -/
theorem C92_counterexample_one_bit (n : Nat) (s : RustSlot) (h : RustSlotOk n s) (hz : s.invalid = some (-1)) (h1 : NeverInvalid s.width s.type.isSigned (-1))
    (d : Bytes) (hd : n ≤ d.length) :
    rustGetField s d ≠ some none ∧ ∃ d', rustSetField s d none = some d' ∧ rustGetField s d' = some (some 1) := by
  obtain ⟨hs, hw, -⟩ := h1
  have hsh : ∀ e : Bytes, shownBits e s.offset s.width s.type.isSigned = if bitAt e s.offset then 1 else 0 := fun e => by simp [shownBits, hs, hw]
  constructor
  · rw [rustGetField_shown h hd, hz, hsh]
    cases bitAt d s.offset <;> simp
  · obtain ⟨d', he, hl, hb⟩ := C73_rust_write s.type d s.offset s.width (-1) h.pos h.le h.portable (h.invalid _ hz) (by have := h.inside; omega)
    refine ⟨d', by simp [rustSetField, hz, he], ?_⟩
    have : bitAt d' s.offset = true := by
      rw [hb, if_pos ⟨by omega, by omega⟩]; simp [digit]
    rw [rustGetField_shown h (by omega), hz, hsh, this]
    simp

example : RustSlotOk 1 ⟨.int 8 true, 3, 1, some (-1)⟩ ∧ NeverInvalid 1 true (-1) :=
  ⟨⟨by decide, by decide, ⟨by decide, by decide⟩, by simp [RustPortable], by decide, fun v hv => by cases hv; decide⟩, rfl, rfl, rfl⟩

example : RustSlotOk 2 ⟨.int 16 true, 4, 10, some (-512)⟩ ∧ CppSlotOk 2 ⟨.int 16 true, 4, 10, some (-512)⟩ ∧ ¬ NeverInvalid 10 true (-512) :=
  ⟨⟨by decide, by decide, ⟨by decide, by decide⟩, by simp [RustPortable], by decide, fun v hv => by cases hv; decide⟩,
   ⟨by decide, by decide, ⟨by decide, by decide⟩, by decide, fun v hv => by cases hv; decide⟩, by simp [NeverInvalid]⟩

example : rustSetField ⟨.int 16 true, 4, 10, some (-512)⟩ [0xFF, 0xFF] none = some [0x0F, 0xE0] ∧
    rustGetField ⟨.int 16 true, 4, 10, some (-512)⟩ [0x0F, 0xE0] = some none ∧
    cppOptional ⟨.int 16 true, 4, 10, some (-512)⟩ (-512) ([0x0F, 0xE0] ++ List.replicate 8 0) = some none ∧
    rustGetField ⟨.int 16 true, 4, 10, some (-512)⟩ [0x1F, 0xE0] = some (some (-511)) := by decide +kernel

end Props
