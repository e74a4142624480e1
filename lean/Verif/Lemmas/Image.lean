import Verif.Spec.Image
import Verif.Lemmas.Layout

namespace Model
open Py Spec Props

theorem storedNat_lt {w : Nat} {v : Int} (hw : 1 ≤ w) : storedNat w v < 2 ^ w := by
  unfold storedNat
  split
  · rename_i h; subst h; split <;> decide
  · have hp : (0 : Int) < 2 ^ w := by positivity
    have h0 := Int.emod_nonneg v (ne_of_gt hp)
    have h1 := Int.emod_lt_of_pos v hp
    zify
    rw [Int.toNat_of_nonneg h0]; exact h1

theorem storedNat_testBit {w k : Nat} {v : Int} (hk : k < w) : (storedNat w v).testBit k = storedDigit w v k := by
  unfold storedNat storedDigit
  split
  · rename_i h
    subst h
    have : k = 0 := by omega
    subst this
    by_cases hv : v = 1 <;> simp [hv]
  · rw [testBit_toNat_emod]; simp [hk]

theorem image_bits {d : List (String × Int)} {buf : Bytes} (fs : List FieldDecl) (o : Nat) (hg : ∀ f ∈ fs, 1 ≤ f.width)
    (hkeys : ∀ f ∈ fs, (d.lookup f.name).isSome)
    (hin : ∀ p ∈ layoutFrom o fs, ∀ v, d.lookup p.1 = some v → ∀ k, k < p.2.width → bitAt buf (p.2.offset + k) = storedDigit p.2.width v k)
    (hpost : ∀ i, sizeInBitsFrom o fs ≤ i → bitAt buf i = false) (i : Nat) : bitAt buf (o + i) = (image d fs).testBit i := by
  induction fs generalizing o i with
  | nil =>
    simp only [image, Nat.zero_testBit]
    exact hpost _ (by simp [sizeInBitsFrom])
  | cons f fs ih =>
    obtain ⟨v, hv⟩ := Option.isSome_iff_exists.mp (hkeys f (by simp))
    have hw := hg f (by simp)
    simp only [image, hv, Option.getD_some]
    rw [Nat.add_comm (storedNat _ _), Nat.testBit_two_pow_mul_add _ (storedNat_lt hw)]
    split
    · rename_i h
      rw [storedNat_testBit h]
      exact hin (f.name, ⟨o, f.width, f.isSigned⟩) (by rw [layoutFrom]; exact List.mem_cons_self) v hv i h
    · rename_i h
      have hih := ih (o + f.width) (fun g hg' => hg g (by simp [hg'])) (fun g hg' => hkeys g (by simp [hg']))
        (fun p hp => hin p (by simp only [layoutFrom]; exact List.mem_cons_of_mem _ hp)) (fun j hj => hpost j hj) (i - f.width)
      rw [← hih, Nat.add_assoc, Nat.add_sub_cancel' (by omega)]

theorem image_drop {d : List (String × Int)} {fs : List FieldDecl} (hg : ∀ f ∈ fs, 1 ≤ f.width) (i : Nat) :
    image d fs / 2 ^ bitOffset fs i = image d (fs.drop i) := by
  induction fs generalizing i with
  | nil => simp [image, bitOffset]
  | cons f fs ih =>
    cases i with
    | zero => simp [bitOffset]
    | succ i =>
      have hb : bitOffset (f :: fs) (i + 1) = f.width + bitOffset fs i := by simp [bitOffset]
      rw [hb, Nat.pow_add, ← Nat.div_div_eq_div_mul]
      simp only [image, List.drop_succ_cons]
      rw [Nat.add_mul_div_left _ _ (by positivity), Nat.div_eq_of_lt (storedNat_lt (hg f (by simp))), Nat.zero_add]
      exact ih (fun g hg' => hg g (by simp [hg'])) i

theorem image_mod {d : List (String × Int)} {f : FieldDecl} {rest : List FieldDecl} {v : Int} (hw : 1 ≤ f.width) (hv : d.lookup f.name = some v) :
    image d (f :: rest) % 2 ^ f.width = storedNat f.width v := by
  simp only [image, hv, Option.getD_some, Nat.add_mul_mod_self_left]
  exact Nat.mod_eq_of_lt (storedNat_lt hw)

/-- Reading a field of a buffer that is the image of a structure. -/
theorem readValue_image {buf : Bytes} {d : List (String × Int)} {fs rest : List FieldDecl} {i : Nat} {f : FieldDecl} {v : Int} (hb : fromLE buf = image d fs)
    (hg : ∀ f ∈ fs, 1 ≤ f.width) (hw' : f.width ≤ 64) (hi : fs.drop i = f :: rest) (hv : d.lookup f.name = some v)
    (hfit : bitOffset fs i + f.width ≤ 8 * buf.length) :
    readValue buf (bitOffset fs i) f.width f.isSigned = .ok (shownValue (bitOffset fs i) f rest d v) := by
  have hf : f ∈ fs := List.mem_of_mem_drop (i := i) (by rw [hi]; simp)
  have hw := hg f hf
  have hu : ∀ n, unsignedAt buf (bitOffset fs i) n = image d (f :: rest) % 2 ^ n := by
    intro n
    rw [unsignedAt_eq, hb, image_drop hg, hi]
  by_cases h1 : f.width = 1
  · have hbit : bitAt buf (bitOffset fs i) = decide (v = 1) := by
      have := hu 1
      have h2 := image_mod (rest := rest) hw hv
      rw [h1] at h2
      rw [h2] at this
      simp only [unsignedAt, storedNat, if_true, Nat.add_zero, Nat.zero_add, Nat.pow_zero] at this
      by_cases hv1 : v = 1
      · simp only [hv1, if_true] at this ⊢
        cases hc : bitAt buf (bitOffset fs i)
        · simp [hc] at this
        · rfl
      · simp only [hv1, if_false] at this ⊢
        cases hc : bitAt buf (bitOffset fs i)
        · rfl
        · simp [hc] at this
    have he : shownValue (bitOffset fs i) f rest d v = if v = 1 then 1 else 0 := by
      simp [shownValue, storedValue, h1]
    rw [he]
    rw [h1] at hfit ⊢
    rw [readValue_one _ _ _ hfit, hbit]
    by_cases hv1 : v = 1 <;> simp [hv1]
  · rw [readValue_eq _ _ _ _ (by omega) hw' hfit]
    have hm := image_mod (rest := rest) hw hv
    have hsn : storedNat f.width v = (v % 2 ^ f.width).toNat := by simp [storedNat, h1]
    cases hs : f.isSigned with
    | true =>
      simp only [if_true, shownValue, storedValue, h1, if_false, hs, wrap, Bool.true_eq_false, false_and, Int.add_zero]
      rw [hu, hm, hsn]
    | false =>
      simp only [Bool.false_eq_true, if_false, shownValue, storedValue, h1, hs, wrap, true_and]
      rw [hu]
      congr 1
      by_cases hc : f.width = 64 ∧ bitOffset fs i % 8 ≠ 0
      · rw [if_pos hc]
        obtain ⟨h64, ho⟩ := hc
        have hr : rawWidth (bitOffset fs i) f.width = 64 + (8 - bitOffset fs i % 8) := by
          unfold rawWidth; rw [if_neg (by omega)]; omega
        rw [hr, Nat.pow_add, Nat.mod_mul]
        have h2 : image d (f :: rest) / 2 ^ 64 = image d rest := by
          simp only [image, hv, Option.getD_some, h64]
          rw [Nat.add_mul_div_left _ _ (by positivity)]
          have := storedNat_lt (v := v) hw
          rw [h64] at this
          rw [Nat.div_eq_of_lt this, Nat.zero_add]
        rw [h64] at hm hsn
        rw [h2, hm, hsn, h64, Nat.cast_add, Nat.cast_mul, emod_toNat_cast]
        rfl
      · rw [if_neg hc]
        have hr : rawWidth (bitOffset fs i) f.width = f.width := by
          unfold rawWidth; rw [if_pos (by omega)]
        rw [hr, hm, hsn, emod_toNat_cast, Int.add_zero]

/-- Values in the range of a field are shown unless one of the two defects applies. -/
theorem shownValue_eq_iff {o : Nat} {f : FieldDecl} {rest : List FieldDecl} {d : List (String × Int)} {v : Int} (hr : InRange f.width f.isSigned v) :
    shownValue o f rest d v = v ↔ ¬ (f.isSigned = true ∧ f.width = 1 ∧ v = -1) ∧
      ¬ (f.isSigned = false ∧ f.width = 64 ∧ o % 8 ≠ 0 ∧ image d rest % 2 ^ (8 - o % 8) ≠ 0) := by
  unfold shownValue
  by_cases h1 : f.isSigned = true ∧ f.width = 1 ∧ v = -1
  · obtain ⟨a, b, c⟩ := h1
    simp [a, b, c, storedValue]
  · rw [storedValue_of_inRange hr h1]
    by_cases hc : f.isSigned = false ∧ f.width = 64 ∧ o % 8 ≠ 0
    · rw [if_pos hc]
      simp only [h1, not_false_eq_true, true_and, hc.1, hc.2.1, hc.2.2, ne_eq, not_not]
      omega
    · rw [if_neg hc]
      simp only [Int.add_zero, h1, not_false_eq_true, true_and, true_iff]
      exact fun h => hc ⟨h.1, h.2.1, h.2.2.1⟩

end Model
