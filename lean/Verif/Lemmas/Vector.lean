import Verif.Lemmas.Slice
import Verif.Lemmas.Layout
import Verif.Model.Resources

namespace Model
open Py Spec

theorem pyLen_ok {n : Nat} (h : n < 2 ^ 63) : pyLen n = .ok n := by
  unfold pyLen; rw [if_pos h]; rfl

theorem pyLen_err {n : Nat} (h : ¬ n < 2 ^ 63) : pyLen n = .error .overflowError := by
  unfold pyLen; rw [if_neg h]; rfl

theorem checkResource_ok {mem : Bytes} (h : 16 ≤ mem.length) : checkResource mem = .ok () := by
  unfold checkResource
  rw [if_neg (by show ¬ mem.length < 16; omega)]; rfl

theorem checkResource_err {mem : Bytes} (h : mem.length < 16) : checkResource mem = .error .corruptResource := by
  unfold checkResource
  rw [if_pos (by show mem.length < 16; exact h)]; rfl

theorem read_header {mem : Bytes} (h : 8 ≤ mem.length) :
    readValue mem 0 64 false = .ok ((unsignedAt mem 0 64 : Nat) : Int) := by
  rw [readValue_eq mem 0 64 false (by omega) (by omega) (by omega)]
  simp [rawWidth]

theorem vector_len_ok {v : FdVector} (h : v.size < 2 ^ 63) : v.len = .ok v.size := pyLen_ok h

theorem vector_get_nonneg (v : FdVector) (i : Nat) :
    v.get (i : Int) = if i < v.size then .ok (getItem v.type v.mem i) else .error .indexError := by
  have h0 : ¬ (i : Int) < 0 := by omega
  simp only [FdVector.get, h0, if_false, bind, Except.bind, pure, Except.pure, or_false]
  by_cases h : i < v.size
  · rw [if_neg (by omega), if_pos h]; rfl
  · rw [if_pos (by omega), if_neg h]; rfl

theorem mapM_eq_ok {α β : Type _} {f : α → M β} {l : List α} {r : List β} (h : l.mapM f = .ok r) :
    r.length = l.length ∧ ∀ (i : Nat) x, l[i]? = some x → ∃ y, r[i]? = some y ∧ f x = .ok y := by
  induction l generalizing r with
  | nil =>
    cases h
    simp
  | cons a l ih =>
    rw [List.mapM_cons] at h
    cases hfa : f a with
    | error e => rw [hfa] at h; simp [bind, Except.bind] at h
    | ok b =>
      rw [hfa] at h
      cases hl : l.mapM f with
      | error e => rw [hl] at h; simp [bind, Except.bind] at h
      | ok r' =>
        rw [hl] at h
        simp only [bind, Except.bind, pure, Except.pure, Except.ok.injEq] at h
        subst h
        obtain ⟨h1, h2⟩ := ih hl
        refine ⟨by simp [h1], ?_⟩
        intro i x hx
        cases i with
        | zero => simp at hx; subst hx; exact ⟨b, by simp, hfa⟩
        | succ i => simp at hx; obtain ⟨y, hy, hf⟩ := h2 i x hx; exact ⟨y, by simpa using hy, hf⟩

theorem filterMap_range_map {α : Type _} (l : List α) (g : Nat → α) (n : Nat) (is : List Nat)
    (hl : l = (List.range n).map g) (h : ∀ i ∈ is, i < n) : is.filterMap (l[·]?) = is.map g := by
  induction is with
  | nil => rfl
  | cons i is ih =>
    have hi := h i (by simp)
    have : l[i]? = some (g i) := by rw [hl]; simp [hi]
    rw [List.filterMap_cons, this, List.map_cons, ih fun j hj => h j (by simp [hj])]

end Model
