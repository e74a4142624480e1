import Verif.Model.Structure
import Verif.Props.DataAccess

namespace Model
open Py Spec Props

theorem layoutFrom_getElem? (o : Nat) (fs : List FieldDecl) (i : Nat) :
    (layoutFrom o fs)[i]? = fs[i]?.map fun f =>
      (f.name, { offset := o + ((fs.take i).map (·.width)).sum, width := f.width, isSigned := f.isSigned }) := by
  induction fs generalizing o i with
  | nil => simp [layoutFrom]
  | cons f fs ih =>
    cases i with
    | zero => simp [layoutFrom]
    | succ i => simp [layoutFrom, ih, Nat.add_assoc]

theorem layoutFrom_length (o : Nat) (fs : List FieldDecl) : (layoutFrom o fs).length = fs.length := by
  induction fs generalizing o with
  | nil => rfl
  | cons f fs ih => simp [layoutFrom, ih]

theorem sizeInBitsFrom_eq (o : Nat) (fs : List FieldDecl) :
    sizeInBitsFrom o fs = o + (fs.map (·.width)).sum := by
  induction fs generalizing o with
  | nil => simp [sizeInBitsFrom]
  | cons f fs ih => simp [sizeInBitsFrom, ih, Nat.add_assoc]

theorem layoutFrom_keys (o : Nat) (fs : List FieldDecl) :
    (layoutFrom o fs).map (·.1) = fs.map (·.name) := by
  induction fs generalizing o with
  | nil => rfl
  | cons f fs ih => simp [layoutFrom, ih]

/-- Fields sorted by offset without overlap, starting at or after `o` and ending at or before `e`. -/
def Ascending : Nat → Nat → List (String × FieldSig) → Prop
  | o, e, [] => o ≤ e
  | o, e, (_, f) :: fs => o ≤ f.offset ∧ 1 ≤ f.width ∧ f.width ≤ 64 ∧ Ascending (f.offset + f.width) e fs

theorem ascending_le {o e : Nat} {fs : List (String × FieldSig)} (h : Ascending o e fs) : o ≤ e := by
  induction fs generalizing o with
  | nil => exact h
  | cons p fs ih => obtain ⟨h1, h2, h3, h4⟩ := h; have := ih h4; omega

theorem ascending_layout (o : Nat) (fs : List FieldDecl) (h : ∀ f ∈ fs, 1 ≤ f.width ∧ f.width ≤ 64) :
    Ascending o (sizeInBitsFrom o fs) (layoutFrom o fs) := by
  induction fs generalizing o with
  | nil => simp [layoutFrom, sizeInBitsFrom, Ascending]
  | cons f fs ih =>
    have hf := h f (by simp)
    exact ⟨Nat.le_refl _, hf.1, hf.2, ih _ fun g hg => h g (by simp [hg])⟩

theorem ascending_mem {o e : Nat} {fs : List (String × FieldSig)} (h : Ascending o e fs)
    {p : String × FieldSig} (hp : p ∈ fs) :
    o ≤ p.2.offset ∧ 1 ≤ p.2.width ∧ p.2.width ≤ 64 ∧ p.2.offset + p.2.width ≤ e := by
  induction fs generalizing o with
  | nil => simp at hp
  | cons q fs ih =>
    obtain ⟨h1, h2, h3, h4⟩ := h
    rcases List.mem_cons.mp hp with rfl | hp
    · exact ⟨h1, h2, h3, ascending_le h4⟩
    · have := ih h4 hp; omega

/-- A successful lookup. -/
theorem dictGet_of_lookup {α} {d : List (String × α)} {k : String} {v : α} (h : d.lookup k = some v) :
    dictGet d k = .ok v := by simp [dictGet, h]; rfl

/-- The bits produced by writing fields in ascending order into a buffer that is zero from the first
field on. -/
theorem writeFields_bits (shift : Nat) (value : List (String × Int)) (fs : List (String × FieldSig))
    (o e : Nat) (d : Bytes) (hasc : Ascending o e fs) (hfit : shift + e ≤ 8 * d.length)
    (hkeys : ∀ p ∈ fs, (value.lookup p.1).isSome)
    (hzero : ∀ i, shift + o ≤ i → bitAt d i = false) :
    ∃ d', writeFields shift value fs d = .ok d' ∧ d'.length = d.length ∧
      (∀ i, i < shift + o → bitAt d' i = bitAt d i) ∧
      (∀ i, shift + e ≤ i → bitAt d' i = false) ∧
      (∀ p ∈ fs, ∀ v, value.lookup p.1 = some v → ∀ k, k < p.2.width →
        bitAt d' (p.2.offset + shift + k) = storedDigit p.2.width v k) ∧
      (∀ i, shift + o ≤ i → (∀ p ∈ fs, ¬ (p.2.offset + shift ≤ i ∧ i < p.2.offset + shift + p.2.width)) →
        bitAt d' i = false) := by
  induction fs generalizing o d with
  | nil =>
    exact ⟨d, rfl, rfl, fun i _ => rfl, fun i hi => hzero i (by have : o ≤ e := hasc; omega), by simp,
      fun i hi _ => hzero i hi⟩
  | cons p fs ih =>
    obtain ⟨name, f⟩ := p
    obtain ⟨h1, h2, h3, h4⟩ := hasc
    have he := ascending_le h4
    obtain ⟨v, hv⟩ := Option.isSome_iff_exists.mp (hkeys (name, f) (by simp))
    obtain ⟨d1, he1, hl1, hpre, hpost, hin, hgap⟩ :=
      C03_write_effect d (f.offset + shift) f.width f.isSigned v h2 h3 (by omega)
    have hz1 : ∀ i, shift + (f.offset + f.width) ≤ i → bitAt d1 i = false := by
      intro i hi
      by_cases hlt : i < 8 * ((f.offset + shift + f.width + 7) / 8)
      · rw [hgap i (by omega) hlt, hzero i (by omega)]; rfl
      · rw [hpost i (by omega), hzero i (by omega)]
    obtain ⟨d2, he2, hl2, hpre2, hpost2, hin2, hgap2⟩ := ih (f.offset + f.width) d1 h4 (by omega)
      (fun q hq => hkeys q (by simp [hq])) hz1
    have hf2 : ∀ k, k < f.width → bitAt d2 (f.offset + shift + k) = storedDigit f.width v k := by
      intro k hk
      rw [hpre2 _ (by omega), hin k hk, hzero _ (by omega)]; simp
    refine ⟨d2, ?_, by omega, fun i hi => ?_, hpost2, ?_, ?_⟩
    · simp only [writeFields, dictGet_of_lookup hv, bind, Except.bind, he1, he2]
    · rw [hpre2 i (by omega), hpre i (by omega)]
    · intro q hq v' hv' k hk
      rcases List.mem_cons.mp hq with rfl | hq
      · simp only at hv' hk ⊢
        rw [hv] at hv'; cases hv'
        exact hf2 k hk
      · exact hin2 q hq v' hv' k hk
    · intro i hi hno
      have hno0 := hno (name, f) (by simp)
      simp only at hno0
      by_cases hlt : i < f.offset + shift
      · rw [hpre2 i (by omega), hpre i (by omega), hzero i (by omega)]
      · exact hgap2 i (by omega) fun q hq => hno q (by simp [hq])

theorem storedValue_of_inRange {w : Nat} {s : Bool} {v : Int} (h : InRange w s v)
    (hbit : ¬ (s = true ∧ w = 1 ∧ v = -1)) : storedValue w s v = v := by
  unfold storedValue
  split
  · rename_i hw; subst hw
    by_cases hv : v = 1
    · simp [hv]
    · simp only [hv, if_false]
      cases s with
      | false => simp [InRange] at h; omega
      | true => simp [InRange] at h; simp at hbit; omega
  · exact wrap_of_inRange h

/-- Reading a field whose bits hold the stored digits of `v`. -/
theorem readValue_stored {d : Bytes} {o w : Nat} {s : Bool} {v : Int} (hw : 1 ≤ w) (hw' : w ≤ 64)
    (hfit : o + w ≤ 8 * d.length) (h : ∀ k, k < w → bitAt d (o + k) = storedDigit w v k)
    (hu : s = false → w = 64 → o % 8 ≠ 0 →
      ∀ i, o + 64 ≤ i → i < 8 * (o / 8 + 9) → bitAt d i = false) :
    readValue d o w s = .ok (storedValue w s v) := by
  by_cases h1 : w = 1
  · subst h1
    have := h 0 (by omega)
    simp only [Nat.add_zero, storedDigit, if_true] at this
    rw [readValue_one d o s hfit, this, storedValue]
    by_cases hv : v = 1 <;> simp [hv]
  · rw [readValue_of_bits (by omega) hw' hfit (v := v) (fun k hk => by simpa [storedDigit, h1] using h k hk) hu]
    simp [storedValue, h1]

/-- Reading inside a part of a larger buffer is reading in the part. -/
theorem readValue_embed {mem buf : Bytes} {p : Nat} {o w : Nat} {s : Bool} (hw : 1 ≤ w) (hw' : w ≤ 64)
    (hfit : o + w ≤ 8 * buf.length) (hsub : (mem.drop p).take buf.length = buf)
    (hlen : p + buf.length ≤ mem.length) :
    readValue mem (p * 8 + o) w s = readValue buf o w s := by
  have hbit : ∀ i, i < 8 * buf.length → bitAt mem (p * 8 + i) = bitAt buf i := by
    intro i hi
    have : bitAt (sliceNN mem p (p + buf.length)) i = _ := bitAt_slice mem p (p + buf.length) i
    have e : sliceNN mem p (p + buf.length) = buf := by simp [sliceNN, hsub]
    rw [e] at this
    rw [this]
    have h2 : i < 8 * (p + buf.length - p) := by omega
    rw [decide_eq_true h2, Bool.true_and, Nat.mul_comm]
  by_cases h1 : w = 1
  · subst h1
    rw [readValue_one _ _ _ (by omega), readValue_one _ _ _ hfit, hbit o (by omega)]
  · rw [readValue_eq _ _ _ _ (by omega) hw' (by omega), readValue_eq _ _ _ _ (by omega) hw' hfit]
    have hr : rawWidth (p * 8 + o) w = rawWidth o w := by
      unfold rawWidth
      have : (p * 8 + o) % 8 = o % 8 := by omega
      rw [this]
    have hx : ∀ w', o + w' ≤ 8 * buf.length → unsignedAt mem (p * 8 + o) w' = unsignedAt buf o w' := by
      intro w' hle
      apply Nat.eq_of_testBit_eq; intro k
      rw [unsignedAt_testBit, unsignedAt_testBit]
      by_cases hk : k < w'
      · rw [Nat.add_assoc, hbit (o + k) (by omega)]
      · simp [hk]
    rw [hr, hx w (by omega), hx (rawWidth o w) (by unfold rawWidth; split <;> omega)]

theorem bitAt_replicate_zero (n i : Nat) : bitAt (List.replicate n 0) i = false := by
  simp only [bitAt, List.getD]
  by_cases h : i / 8 < n
  · simp [h]
  · simp [h]

end Model
