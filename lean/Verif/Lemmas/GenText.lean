import Verif.Model.Gen.Enumeration
import Mathlib.Tactic.Ring

/-!
# Decimal texts
-/

namespace Gen

/-- The value of a decimal digit character. -/
def digitVal (c : Char) : Nat := c.toNat - 48
/-- The number a list of digits stands for. -/
def digitsVal (t : Text) : Nat := t.foldl (fun n c => 10 * n + digitVal c) 0

theorem digitVal_digitChar {d : Nat} (h : d < 10) : digitVal (digitChar d) = d := by
  have : ∀ d : Fin 10, digitVal (digitChar d) = d := by decide
  exact this ⟨d, h⟩

theorem digitsVal_append (a : Text) (c : Char) : digitsVal (a ++ [c]) = 10 * digitsVal a + digitVal c := by
  simp [digitsVal, List.foldl_append]

theorem digitsVal_natText (n : Nat) : digitsVal (natText n) = n := by
  induction n using Nat.strongRecOn with
  | ind n ih =>
    rw [natText]
    split
    · rename_i h
      simp [digitsVal, digitVal_digitChar h]
    · rw [digitsVal_append, ih (n / 10) (by omega), digitVal_digitChar (by omega)]
      omega

theorem natText_inj {m n : Nat} (h : natText m = natText n) : m = n := by
  rw [← digitsVal_natText m, ← digitsVal_natText n, h]

/-- A decimal digit. -/
def IsDigit (c : Char) : Prop := 48 ≤ c.toNat ∧ c.toNat ≤ 57

instance (c : Char) : Decidable (IsDigit c) := by unfold IsDigit; infer_instance

theorem digitChar_isDigit {d : Nat} (h : d < 10) : IsDigit (digitChar d) := by
  have : ∀ d : Fin 10, IsDigit (digitChar d) := by decide
  exact this ⟨d, h⟩

theorem natText_digits (n : Nat) : ∀ c ∈ natText n, IsDigit c := by
  induction n using Nat.strongRecOn with
  | ind n ih =>
    intro c hc
    rw [natText] at hc
    split at hc
    · rename_i h
      simp at hc; subst hc; exact digitChar_isDigit h
    · simp only [List.mem_append, List.mem_singleton] at hc
      rcases hc with hc | rfl
      · exact ih (n / 10) (by omega) c hc
      · exact digitChar_isDigit (by omega)

theorem natText_ne_nil (n : Nat) : natText n ≠ [] := by
  rw [natText]; split <;> simp

/-- No leading zeros: only 0 starts with a zero. -/
theorem natText_head (n : Nat) : (natText n).head? = some '0' ↔ n = 0 := by
  induction n using Nat.strongRecOn with
  | ind n ih =>
    rw [natText]
    split
    · rename_i h
      have : ∀ d : Fin 10, [digitChar d].head? = some '0' ↔ (d : Nat) = 0 := by decide
      exact this ⟨n, h⟩
    · rename_i h
      rw [List.head?_append, List.head?_eq_some_head (natText_ne_nil _), Option.some_or,
        ← List.head?_eq_some_head (natText_ne_nil _), ih (n / 10) (by omega)]
      omega

theorem intText_inj {m n : Int} (h : intText m = intText n) : m = n := by
  unfold intText at h
  have hd : ∀ k : Nat, ∀ l, natText k ≠ '-' :: l := by
    intro k l hk
    have := natText_digits k '-' (by rw [hk]; simp)
    revert this; decide
  split at h <;> split at h
  · simp at h; have := natText_inj h; omega
  · exact absurd h.symm (hd _ _)
  · exact absurd h (hd _ _)
  · have := natText_inj h; omega

theorem replaceMinus_digits {t : Text} (h : ∀ c ∈ t, IsDigit c) : replaceMinus t = t := by
  unfold replaceMinus
  induction t with
  | nil => rfl
  | cons c t ih =>
    rw [List.flatMap_cons, ih fun x hx => h x (by simp [hx]), if_neg]
    · rfl
    · rintro rfl
      have := h '-' (by simp)
      revert this; decide

end Gen
