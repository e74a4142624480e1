import Verif.Props.Files
import Verif.Props.Native.Agree

namespace Props
open Py Spec Model Model.Native _root_.Native

theorem image_irrelevant {n : String} {v : Int} {d : Dict} {fs : List FieldDecl} (h : n ∉ fs.map (·.name)) :
    image ((n, v) :: d) fs = image d fs := by
  induction fs with
  | nil => rfl
  | cons f fs ih =>
    simp only [List.map_cons, List.mem_cons, not_or] at h
    have hb : (f.name == n) = false := by simpa using fun e => h.1 e.symm
    simp only [image, List.lookup, hb, ih h.2]

/-- Changing the value of one field changes the digits of that field. -/
theorem image_update {d : Dict} {v : Int} (fs : List FieldDecl) (hg : GoodWidths fs) (hn : (fs.map (·.name)).Nodup) (i : Nat)
    (f : FieldDecl) (hi : fs[i]? = some f) (j : Nat) :
    (image ((f.name, v) :: d) fs).testBit j =
      if bitOffset fs i ≤ j ∧ j < bitOffset fs i + f.width then storedDigit f.width v (j - bitOffset fs i)
      else (image d fs).testBit j := by
  induction fs generalizing i j with
  | nil => simp at hi
  | cons g fs ih =>
    have hw := (hg g (by simp)).1
    have hn' := List.nodup_cons.mp (by simpa using hn : (g.name :: fs.map (·.name)).Nodup)
    cases i with
    | zero =>
      simp only [List.getElem?_cons_zero, Option.some.injEq] at hi
      subst hi
      have hb : (g.name == g.name) = true := by simp
      simp only [image, List.lookup, hb, Option.getD_some]
      rw [image_irrelevant hn'.1, Nat.add_comm (storedNat _ _), Nat.add_comm (storedNat _ _),
        Nat.testBit_two_pow_mul_add _ (storedNat_lt hw), Nat.testBit_two_pow_mul_add _ (storedNat_lt hw)]
      simp only [bitOffset, List.take_zero, List.map_nil, List.sum_nil, Nat.zero_le, true_and, Nat.zero_add, Nat.sub_zero]
      by_cases h : j < g.width
      · rw [if_pos h, if_pos h, storedNat_testBit h]
      · rw [if_neg h, if_neg h, if_neg h]
    | succ i =>
      simp only [List.getElem?_cons_succ] at hi
      have hne : (g.name == f.name) = false := by
        simp only [beq_eq_false_iff_ne]
        intro e
        exact hn'.1 (e ▸ List.mem_map_of_mem (List.mem_of_getElem? hi))
      have hb : bitOffset (g :: fs) (i + 1) = g.width + bitOffset fs i := by simp [bitOffset]
      simp only [image, List.lookup, hne]
      rw [Nat.add_comm (storedNat _ _), Nat.add_comm (storedNat _ _),
        Nat.testBit_two_pow_mul_add _ (storedNat_lt hw), Nat.testBit_two_pow_mul_add _ (storedNat_lt hw), hb]
      by_cases h : j < g.width
      · rw [if_pos h, if_pos h, if_neg (by omega)]
      · rw [if_neg h, if_neg h, ih (fun x hx => hg x (by simp [hx])) hn'.2 i hi (j - g.width)]
        by_cases h2 : bitOffset fs i ≤ j - g.width ∧ j - g.width < bitOffset fs i + f.width
        · rw [if_pos h2, if_pos (by omega)]; congr 1; omega
        · rw [if_neg h2, if_neg (by omega)]

theorem image_lt (d : Dict) (fs : List FieldDecl) (hg : GoodWidths fs) : image d fs < 2 ^ (fs.map (·.width)).sum := by
  induction fs with
  | nil => simp [image]
  | cons f fs ih =>
    have h1 := storedNat_lt (v := (d.lookup f.name).getD 0) (hg f (by simp)).1
    have h2 := ih fun x hx => hg x (by simp [hx])
    simp only [image, List.map_cons, List.sum_cons, Nat.pow_add]
    have h3 : image d fs + 1 ≤ 2 ^ (fs.map (·.width)).sum := h2
    have := Nat.mul_le_mul_left (2 ^ f.width) h3
    rw [Nat.mul_succ] at this
    omega

theorem structBytes_bit (fs : List FieldDecl) (hg : GoodWidths fs) (d : Dict) (j : Nat) :
    bitAt (structBytes fs d) j = (image d fs).testBit j := by
  rw [structBytes, bitAt_toLE]
  by_cases h : j < 8 * (((fs.map (·.width)).sum + 7) / 8)
  · simp [h]
  · have := Nat.testBit_lt_two_pow (lt_of_lt_of_le (image_lt d fs hg)
      (Nat.pow_le_pow_right (by omega : 0 < 2) (by omega : (fs.map (·.width)).sum ≤ j)))
    simp [this]

theorem bitAt_append_right {a b : Bytes} {i : Nat} (h : 8 * a.length ≤ i) : bitAt (a ++ b) i = bitAt b (i - 8 * a.length) := by
  unfold bitAt
  rw [List.getD_append_right _ _ _ _ (by omega)]
  rw [show (i - 8 * a.length) / 8 = i / 8 - a.length by omega, show (i - 8 * a.length) % 8 = i % 8 by omega]

theorem bitOffset_fits {fs : List FieldDecl} {i : Nat} {f : FieldDecl} (hi : fs[i]? = some f) :
    bitOffset fs i + f.width ≤ (fs.map (·.width)).sum := by
  induction fs generalizing i with
  | nil => simp at hi
  | cons g fs ih =>
    cases i with
    | zero => simp at hi; subst hi; simp [bitOffset]
    | succ i =>
      simp at hi
      have := ih hi
      have hb : bitOffset (g :: fs) (i + 1) = g.width + bitOffset fs i := by simp [bitOffset]
      rw [hb]; simp; omega

/-- A write into the bits of one field of a structure, at the beginning of a larger buffer. -/
theorem write_struct {fs : List FieldDecl} (hg : GoodWidths fs) (hn : (fs.map (·.name)).Nodup) {i : Nat} {f : FieldDecl}
    (hi : fs[i]? = some f) {d : Dict} {rest d' : Bytes} {v : Int} (hv : f.width = 1 → v = 0 ∨ v = 1)
    (hl : d'.length = (structBytes fs d ++ rest).length)
    (hb : ∀ j, bitAt d' j = if bitOffset fs i ≤ j ∧ j < bitOffset fs i + f.width then digit v (j - bitOffset fs i)
      else bitAt (structBytes fs d ++ rest) j) :
    d' = structBytes fs ((f.name, v) :: d) ++ rest := by
  have hfit := bitOffset_fits hi
  apply bytes_ext
  · rw [hl]; simp [structBytes_length]
  intro j _
  rw [hb]
  by_cases hj : j < 8 * (((fs.map (·.width)).sum + 7) / 8)
  · rw [bitAt_append_left (by rw [structBytes_length]; exact hj), bitAt_append_left (by rw [structBytes_length]; exact hj),
      structBytes_bit fs hg, structBytes_bit fs hg, image_update fs hg hn i f hi]
    by_cases hc : bitOffset fs i ≤ j ∧ j < bitOffset fs i + f.width
    · rw [if_pos hc, if_pos hc]
      unfold storedDigit
      split
      · rename_i h1
        have h0 : j - bitOffset fs i = 0 := by omega
        rw [h0]
        rcases hv h1 with rfl | rfl <;> decide
      · rfl
    · rw [if_neg hc, if_neg hc]
  · rw [if_neg (by omega), bitAt_append_right (by rw [structBytes_length]; omega),
      bitAt_append_right (by rw [structBytes_length]; omega), structBytes_length, structBytes_length]

/-- What is assigned by a call: a value for a field of the structure, in a form its type can take. -/
def GoodCall (fs : List FieldDecl) (ok : FieldDecl → Int → Prop) (c : String × Int) : Prop :=
  ∃ f ∈ fs, f.name = c.1 ∧ ok f c.2 ∧ (f.width = 1 → c.2 = 0 ∨ c.2 = 1)

/-- Assignments to a structure inside of a buffer. -/
theorem assignAll_struct (write : String → Bytes → Nat → Nat → Int → Option Bytes) {fs : List FieldDecl} (hg : GoodWidths fs)
    (hn : (fs.map (·.name)).Nodup) (ok : FieldDecl → Int → Prop) (len : Nat)
    (hwrite : ∀ (i : Nat) f v buf, fs[i]? = some f → ok f v → ((fs.map (·.width)).sum + 7) / 8 + len ≤ buf.length →
      ∃ d', write f.name buf (bitOffset fs i) f.width v = some d' ∧ d'.length = buf.length ∧
        ∀ j, bitAt d' j = if bitOffset fs i ≤ j ∧ j < bitOffset fs i + f.width then digit v (j - bitOffset fs i) else bitAt buf j)
    (calls : List (String × Int)) (hcalls : ∀ c ∈ calls, GoodCall fs ok c) (d : Dict) (rest : Bytes) (hr : len ≤ rest.length) :
    assignAll write (layoutFrom 0 fs) (structBytes fs d ++ rest) calls = some (structBytes fs (calls.reverse ++ d) ++ rest) := by
  induction calls generalizing d with
  | nil => rfl
  | cons c calls ih =>
    obtain ⟨m, v⟩ := c
    obtain ⟨f, hf, hfm, hok, h1⟩ := hcalls (m, v) (by simp)
    simp only at hfm hok h1
    subst hfm
    obtain ⟨i, hi⟩ := List.getElem?_of_mem hf
    have hkeysn : ((layoutFrom 0 fs).map (·.1)).Nodup := by rw [layoutFrom_keys]; exact hn
    have hlk := layoutFrom_getElem? 0 fs i
    rw [hi] at hlk
    have hlk := lookup_of_mem_nodup hkeysn (List.mem_of_getElem? hlk)
    obtain ⟨d', e, hl, hb⟩ := hwrite i f v (structBytes fs d ++ rest) hi hok (by simp [structBytes_length]; omega)
    have he := write_struct hg hn hi h1 hl hb
    simp only [assignAll, hlk, Option.bind_eq_bind, Option.bind_some, Nat.zero_add]
    show Option.bind (write f.name _ (bitOffset fs i) f.width v) _ = _
    rw [e, Option.bind_some, he, ih (fun c hc => hcalls c (by simp [hc]))]
    simp

theorem image_nil (fs : List FieldDecl) : image [] fs = 0 := by
  induction fs with
  | nil => rfl
  | cons f fs ih =>
    simp only [image, List.lookup, Option.getD_none, ih, Nat.mul_zero, Nat.add_zero, storedNat]
    split <;> simp

theorem toLE_zero (n : Nat) : toLE n 0 = List.replicate n 0 := by
  induction n with
  | zero => rfl
  | succ n ih => simp [toLE, ih, List.replicate_succ]

/-- A structure nothing was assigned to. -/
theorem structBytes_nil (fs : List FieldDecl) : structBytes fs [] = List.replicate (((fs.map (·.width)).sum + 7) / 8) 0 := by
  rw [structBytes, image_nil, toLE_zero]

end Props
