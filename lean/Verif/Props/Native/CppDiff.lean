import Verif.Model.Native.CppDiff
import Verif.Spec.Diff
import Mathlib.Data.List.Induction
import Mathlib.Data.List.Chain

/-!
# C96: the explanation of a schema mismatch in C++
-/

namespace Props
open Py Model.Native Spec

/-! ## Lines -/

theorem toLinesFrom_spec (rest : Bytes) : ∀ line, 10 ∉ line → (∀ l ∈ toLinesFrom line rest, 10 ∉ l) ∧
    (line ++ rest = (toLinesFrom line rest).flatMap (· ++ [10]) ∨ line ++ rest ++ [10] = (toLinesFrom line rest).flatMap (· ++ [10])) := by
  induction rest with
  | nil => intro line h; simp [toLinesFrom, h]
  | cons c cs ih =>
    intro line h
    unfold toLinesFrom
    split
    · rename_i hc
      subst hc
      cases cs with
      | nil => simp [h]
      | cons c' cs' =>
        obtain ⟨h1, h2⟩ := ih [] (by simp)
        simp only
        refine ⟨fun l hl => ?_, ?_⟩
        · rcases List.mem_cons.mp hl with rfl | hl
          · exact h
          · exact h1 l hl
        · rw [List.flatMap_cons]
          rcases h2 with h2 | h2
          · left; rw [← h2]; simp
          · right; rw [← h2]; simp
    · rename_i hc
      have := ih (line ++ [c]) (by simp [h]; exact fun e => hc e.symm)
      simpa using this

/-- **C96** (lines). The texts are split into their lines. -/
theorem C96_lines (text : Bytes) : LinesOf text (toLines text) := by
  cases text with
  | nil => exact ⟨by simp [toLines], .inl rfl⟩
  | cons c cs =>
    obtain ⟨h1, h2⟩ := toLinesFrom_spec (c :: cs) [] (by simp)
    refine ⟨h1, ?_⟩
    rcases h2 with h2 | h2
    · exact .inl h2
    · exact .inr ⟨by simp, h2⟩

/-! ## The table -/

/-- The distance of the first `e` lines and the first `f` lines. -/
def editDist (a b : List Bytes) : Nat → Nat → Nat
  | 0, f => f
  | e + 1, 0 => e + 1
  | e + 1, f + 1 =>
    let c := min (editDist a b e (f + 1) + 1) (editDist a b (e + 1) f + 1)
    if a.getD e [] = b.getD f [] then min c (editDist a b e f) else c

theorem editDist_zero_right (a b : List Bytes) (e : Nat) : editDist a b e 0 = e := by cases e <;> simp [editDist]

theorem diffIndex_inj {L e f e' f' : Nat} (he : e < L) (he' : e' < L) (h : diffIndex L e f = diffIndex L e' f') : e = e' ∧ f = f' := by
  unfold diffIndex at h
  have h1 : (e + f * L) % L = e := by rw [Nat.add_mul_mod_self_right, Nat.mod_eq_of_lt he]
  have h2 : (e' + f' * L) % L = e' := by rw [Nat.add_mul_mod_self_right, Nat.mod_eq_of_lt he']
  have h3 : e = e' := by rw [← h1, ← h2, h]
  subst h3
  exact ⟨rfl, Nat.eq_of_mul_eq_mul_right (by omega) (Nat.add_left_cancel h)⟩

theorem diffIndex_lt {L M e f : Nat} (he : e < L) (hf : f < M) : diffIndex L e f < L * M := by
  unfold diffIndex
  have : (f + 1) * L ≤ M * L := Nat.mul_le_mul_right _ hf
  rw [Nat.mul_comm L M, Nat.succ_mul] at *
  omega

theorem entry_set {t : List Nat} {L M e f e' f' v : Nat} (ht : t.length = L * M) (he : e < L) (hf : f < M) (he' : e' < L) :
    diffEntry (t.set (diffIndex L e f) v) L e' f' = if e = e' ∧ f = f' then v else diffEntry t L e' f' := by
  unfold diffEntry
  have hlt := diffIndex_lt he hf
  by_cases h : e = e' ∧ f = f'
  · obtain ⟨rfl, rfl⟩ := h
    rw [if_pos ⟨rfl, rfl⟩, List.getD_eq_getElem?_getD, List.getElem?_set_self (by omega)]; rfl
  · rw [if_neg h, List.getD_eq_getElem?_getD, List.getElem?_set_ne, ← List.getD_eq_getElem?_getD]
    exact fun e => h (diffIndex_inj he he' e)

/-- The table has the distances where `P` holds. -/
def TableHas (a b : List Bytes) (t : List Nat) (P : Nat → Nat → Prop) : Prop :=
  t.length = (a.length + 1) * (b.length + 1) ∧ ∀ e f, e ≤ a.length → f ≤ b.length → P e f → diffEntry t (a.length + 1) e f = editDist a b e f

theorem table_set {a b : List Bytes} {t : List Nat} {P Q : Nat → Nat → Prop} {e f v : Nat} (h : TableHas a b t P) (he : e ≤ a.length) (hf : f ≤ b.length)
    (hv : v = editDist a b e f) (hQ : ∀ e' f', Q e' f' → P e' f' ∨ e' = e ∧ f' = f) : TableHas a b (t.set (diffIndex (a.length + 1) e f) v) Q := by
  refine ⟨by rw [List.length_set]; exact h.1, fun e' f' he' hf' hq => ?_⟩
  rw [entry_set h.1 (by omega) (by omega) (by omega)]
  by_cases hc : e = e' ∧ f = f'
  · obtain ⟨rfl, rfl⟩ := hc
    rw [if_pos ⟨rfl, rfl⟩, hv]
  · rw [if_neg hc]
    rcases hQ e' f' hq with hp | ⟨rfl, rfl⟩
    · exact h.2 e' f' he' hf' hp
    · exact absurd ⟨rfl, rfl⟩ hc

theorem init_row (a b : List Bytes) (t : List Nat) (ht : t.length = (a.length + 1) * (b.length + 1)) : ∀ n, n ≤ a.length + 1 →
    TableHas a b ((List.range n).foldl (fun t i => t.set (diffIndex (a.length + 1) i 0) i) t) (fun e f => f = 0 ∧ e < n) := by
  intro n
  induction n with
  | zero => intro _; exact ⟨ht, fun e f _ _ h => by omega⟩
  | succ n ih =>
    intro hn
    rw [List.range_succ, List.foldl_append]
    exact table_set (ih (by omega)) (by omega) (by omega) (editDist_zero_right a b n).symm (fun e' f' h => by omega)

theorem init_column (a b : List Bytes) (t : List Nat) (ht : TableHas a b t (fun e f => f = 0 ∧ e < a.length + 1)) : ∀ n, n ≤ b.length + 1 →
    TableHas a b ((List.range n).foldl (fun t i => t.set (diffIndex (a.length + 1) 0 i) i) t) (fun e f => f = 0 ∧ e < a.length + 1 ∨ e = 0 ∧ f < n) := by
  intro n
  induction n with
  | zero => intro _; exact ⟨ht.1, fun e f he hf h => ht.2 e f he hf (by omega)⟩
  | succ n ih =>
    intro hn
    rw [List.range_succ, List.foldl_append]
    exact table_set (ih (by omega)) (by omega) (by omega) (by rw [editDist]) (fun e' f' h => by omega)

theorem init_has (a b : List Bytes) : TableHas a b (diffInit (a.length + 1) (b.length + 1)) (fun e f => f = 0 ∨ e = 0) := by
  have h1 := init_row a b (List.replicate ((a.length + 1) * (b.length + 1)) 0) (by rw [List.length_replicate]) (a.length + 1) (Nat.le_refl _)
  have h2 := init_column a b _ h1 (b.length + 1) (Nat.le_refl _)
  exact ⟨h2.1, fun e f he hf h => h2.2 e f he hf (by omega)⟩

theorem fill_row (a b : List Bytes) (t : List Nat) (f : Nat) (hf : f < b.length) (ht : TableHas a b t (fun e f' => f' ≤ f ∨ e = 0)) : ∀ n, n ≤ a.length →
    TableHas a b ((List.range n).foldl (diffFill1 a b f) t) (fun e f' => f' ≤ f ∨ e = 0 ∨ f' = f + 1 ∧ e ≤ n) := by
  intro n
  induction n with
  | zero => intro _; exact ⟨ht.1, fun e f' he hf' h => ht.2 e f' he hf' (by omega)⟩
  | succ n ih =>
    intro hn
    have ih := ih (by omega)
    rw [List.range_succ, List.foldl_append]
    simp only [List.foldl_cons, List.foldl_nil]
    generalize (List.range n).foldl (diffFill1 a b f) t = T at ih ⊢
    unfold diffFill1
    refine table_set ih (by omega) (by omega) ?_ (fun e' f' h => by omega)
    rw [ih.2 n (f + 1) (by omega) (by omega) (by omega), ih.2 (n + 1) f (by omega) (by omega) (by omega), ih.2 n f (by omega) (by omega) (by omega), editDist]

theorem fill_all (a b : List Bytes) : ∀ n, n ≤ b.length →
    TableHas a b ((List.range n).foldl (fun t f => (List.range a.length).foldl (diffFill1 a b f) t) (diffInit (a.length + 1) (b.length + 1))) (fun e f => f ≤ n ∨ e = 0) := by
  intro n
  induction n with
  | zero => intro _; have := init_has a b; exact ⟨this.1, fun e f he hf h => this.2 e f he hf (by omega)⟩
  | succ n ih =>
    intro hn
    rw [List.range_succ, List.foldl_append]
    have := fill_row a b _ n (by omega) (ih (by omega)) a.length (Nat.le_refl _)
    exact ⟨this.1, fun e f he hf h => this.2 e f he hf (by omega)⟩

/-- The table has all distances. -/
theorem table_dist (a b : List Bytes) {e f : Nat} (he : e ≤ a.length) (hf : f ≤ b.length) : diffEntry (diffTable a b) (a.length + 1) e f = editDist a b e f :=
  (fill_all a b b.length (Nat.le_refl _)).2 e f he hf (.inl hf)

/-! ## Scripts -/

theorem editBefore_append (s t : List Edit) : editBefore (s ++ t) = editBefore s ++ editBefore t := List.filterMap_append
theorem editAfter_append (s t : List Edit) : editAfter (s ++ t) = editAfter s ++ editAfter t := List.filterMap_append
theorem editCost_append (s t : List Edit) : editCost (s ++ t) = editCost s + editCost t := List.countP_append

theorem take_eq_snoc {a : List Bytes} {e : Nat} (he : e ≤ a.length) {p : List Bytes} {l : Bytes} (h : a.take e = p ++ [l]) :
    ∃ e', e = e' + 1 ∧ p = a.take e' ∧ a.getD e' [] = l := by
  cases e with
  | zero => simp at h
  | succ e' =>
    have hlt : e' < a.length := by omega
    rw [List.take_succ_eq_append_getElem hlt] at h
    have := List.append_inj' h rfl
    refine ⟨e', rfl, this.1.symm, ?_⟩
    rw [List.getD_eq_getElem?_getD, List.getElem?_eq_getElem hlt]
    simpa using this.2

/-- No script is shorter than the distance. -/
theorem editDist_le (a b : List Bytes) (s : List Edit) : ∀ e f, e ≤ a.length → f ≤ b.length → editBefore s = a.take e → editAfter s = b.take f → editDist a b e f ≤ editCost s := by
  induction s using List.reverseRecOn with
  | nil =>
    intro e f he hf h1 h2
    have h3 : e = 0 := by have := congrArg List.length h1; simp [editBefore] at this; omega
    have h4 : f = 0 := by have := congrArg List.length h2; simp [editAfter] at this; omega
    subst h3; subst h4
    simp [editDist]
  | append_singleton s x ih =>
    intro e f he hf h1 h2
    rw [editBefore_append] at h1
    rw [editAfter_append] at h2
    rw [editCost_append]
    cases x with
    | kept l =>
      obtain ⟨e', rfl, hp, hl⟩ := take_eq_snoc he h1.symm
      obtain ⟨f', rfl, hp', hl'⟩ := take_eq_snoc hf h2.symm
      have := ih e' f' (by omega) (by omega) hp hp'
      rw [editDist]
      simp only [hl, hl', if_true]
      omega
    | removed l =>
      obtain ⟨e', rfl, hp, hl⟩ := take_eq_snoc he h1.symm
      have h2' : editAfter s = b.take f := by simpa [editAfter] using h2
      have := ih e' f (by omega) (by omega) hp h2'
      have hc : editCost [Edit.removed l] = 1 := rfl
      rw [hc]
      cases f with
      | zero => rw [editDist_zero_right] at *; omega
      | succ f => rw [editDist]; split <;> omega
    | added l =>
      obtain ⟨f', rfl, hp, hl⟩ := take_eq_snoc hf h2.symm
      have h1' : editBefore s = a.take e := by simpa [editBefore] using h1
      have := ih e f' (by omega) (by omega) h1' hp
      have hc : editCost [Edit.added l] = 1 := rfl
      rw [hc]
      cases e with
      | zero => rw [editDist] at *; omega
      | succ e => rw [editDist]; split <;> omega

/-! ## The walk -/

/-- What a step of the walk does. -/
theorem diffNext_cases (a b : List Bytes) {e f : Nat} (he : e ≤ a.length) (hf : f ≤ b.length) (hne : f ≠ 0 ∨ e ≠ 0) :
    (∃ e', e = e' + 1 ∧ diffNext a b (diffTable a b) e f = (e', f) ∧ editDist a b e f = editDist a b e' f + 1) ∨
    (∃ f', f = f' + 1 ∧ diffNext a b (diffTable a b) e f = (e, f') ∧ editDist a b e f = editDist a b e f' + 1) ∨
    ∃ e' f', e = e' + 1 ∧ f = f' + 1 ∧ diffNext a b (diffTable a b) e f = (e', f') ∧ a.getD e' [] = b.getD f' [] ∧ editDist a b e f = editDist a b e' f' := by
  unfold diffNext diffCheck
  simp only
  cases e with
  | zero =>
    cases f with
    | zero => simp at hne
    | succ f =>
      right; left
      refine ⟨f, rfl, ?_, by simp [editDist]⟩
      rw [table_dist a b (by omega) (by omega), table_dist a b (by omega) hf]
      simp [editDist]
  | succ e =>
    cases f with
    | zero =>
      left
      refine ⟨e, rfl, ?_, by simp [editDist_zero_right]⟩
      rw [show e + 1 - 1 = e from rfl, table_dist a b (by omega) (by omega), table_dist a b (by omega) (by omega)]
      simp [editDist_zero_right]
    | succ f =>
      rw [show e + 1 - 1 = e from rfl, show f + 1 - 1 = f from rfl, table_dist a b (e := e + 1) (f := f + 1) (by omega) (by omega), table_dist a b (e := e) (f := f + 1) (by omega) (by omega),
        table_dist a b (e := e + 1) (f := f) (by omega) (by omega), table_dist a b (e := e) (f := f) (by omega) (by omega)]
      have hd : editDist a b (e + 1) (f + 1) = if a.getD e [] = b.getD f [] then min (min (editDist a b e (f + 1) + 1) (editDist a b (e + 1) f + 1)) (editDist a b e f)
        else min (editDist a b e (f + 1) + 1) (editDist a b (e + 1) f + 1) := by rw [editDist]
      simp only [ne_eq, Nat.succ_ne_zero, not_false_eq_true, if_true, true_and]
      by_cases heq : a.getD e [] = b.getD f []
      · rw [if_pos heq] at hd
        rw [if_pos heq]
        by_cases h3 : editDist a b e f + 0 = editDist a b (e + 1) (f + 1)
        · right; right
          exact ⟨e, f, rfl, rfl, if_pos h3, heq, by omega⟩
        · rw [if_neg h3]
          by_cases h1 : editDist a b e (f + 1) + 1 = editDist a b (e + 1) (f + 1)
          · left; exact ⟨e, rfl, if_pos h1, h1.symm⟩
          · right; left
            have h2 : editDist a b (e + 1) f + 1 = editDist a b (e + 1) (f + 1) := by omega
            exact ⟨f, rfl, by rw [if_neg h1, if_pos h2], h2.symm⟩
      · rw [if_neg heq] at hd
        rw [if_neg heq]
        by_cases h1 : editDist a b e (f + 1) + 1 = editDist a b (e + 1) (f + 1)
        · left; exact ⟨e, rfl, if_pos h1, h1.symm⟩
        · right; left
          have h2 : editDist a b (e + 1) f + 1 = editDist a b (e + 1) (f + 1) := by omega
          exact ⟨f, rfl, by rw [if_neg h1, if_pos h2], h2.symm⟩

theorem diffText_eq (e : Edit) : e.text = match e with
    | .kept l => diffText 32 l
    | .removed l => diffText 45 l
    | .added l => diffText 43 l := by cases e <;> rfl

theorem getElem?_of_lt_getD {a : List Bytes} {i : Nat} (h : i < a.length) : a[i]? = some (a.getD i []) := by
  rw [List.getD_eq_getElem?_getD, List.getElem?_eq_getElem h]; rfl

theorem take_succ_getD {a : List Bytes} {i : Nat} (h : i < a.length) : a.take (i + 1) = a.take i ++ [a.getD i []] := by
  rw [List.take_succ_eq_append_getElem h, List.getD_eq_getElem?_getD, List.getElem?_eq_getElem h]; rfl

/-- The walk makes a script with the distance as its cost. -/
theorem diffWalk_script (a b : List Bytes) : ∀ n e f, e ≤ a.length → f ≤ b.length → e + f ≤ n →
    ∃ s, diffWalk a b (diffTable a b) n e f = some ((s.map Edit.text).reverse) ∧ editBefore s = a.take e ∧ editAfter s = b.take f ∧ editCost s = editDist a b e f := by
  intro n
  induction n with
  | zero =>
    intro e f he hf hn
    have h1 : e = 0 := by omega
    have h2 : f = 0 := by omega
    subst h1; subst h2
    exact ⟨[], by simp [diffWalk], rfl, rfl, by simp [editDist, editCost]⟩
  | succ n ih =>
    intro e f he hf hn
    by_cases h0 : f ≠ 0 ∨ e ≠ 0
    · rcases diffNext_cases a b he hf h0 with ⟨e', rfl, hx, hd⟩ | ⟨f', rfl, hx, hd⟩ | ⟨e', f', rfl, rfl, hx, heq, hd⟩
      · obtain ⟨s, h1, h2, h3, h4⟩ := ih e' f (by omega) hf (by omega)
        refine ⟨s ++ [.removed (a.getD e' [])], ?_, ?_, ?_, ?_⟩
        · rw [diffWalk, if_pos h0]
          simp only [hx]
          rw [if_neg (by simp), if_pos trivial, getElem?_of_lt_getD (by omega), h1]
          simp [Edit.text, diffText]
        · rw [editBefore_append, h2, take_succ_getD (by omega)]; rfl
        · rw [editAfter_append, h3]; simp [editAfter]
        · rw [editCost_append, h4, hd]; rfl
      · obtain ⟨s, h1, h2, h3, h4⟩ := ih e f' he (by omega) (by omega)
        refine ⟨s ++ [.added (b.getD f' [])], ?_, ?_, ?_, ?_⟩
        · rw [diffWalk, if_pos h0]
          simp only [hx]
          rw [if_neg (by simp), if_neg (by omega), if_pos trivial, getElem?_of_lt_getD (by omega), h1]
          simp [Edit.text, diffText]
        · rw [editBefore_append, h2]; simp [editBefore]
        · rw [editAfter_append, h3, take_succ_getD (by omega)]; rfl
        · rw [editCost_append, h4, hd]; rfl
      · obtain ⟨s, h1, h2, h3, h4⟩ := ih e' f' (by omega) (by omega) (by omega)
        refine ⟨s ++ [.kept (a.getD e' [])], ?_, ?_, ?_, ?_⟩
        · rw [diffWalk, if_pos h0]
          simp only [hx]
          rw [if_neg (by omega), if_neg (by omega), if_neg (by omega), getElem?_of_lt_getD (by omega), h1]
          simp [Edit.text, diffText]
        · rw [editBefore_append, h2, take_succ_getD (by omega)]; rfl
        · rw [editAfter_append, h3, take_succ_getD (by omega), heq]; rfl
        · rw [editCost_append, h4, hd]; rfl
    · have h1 : e = 0 := by omega
      have h2 : f = 0 := by omega
      subst h1; subst h2
      exact ⟨[], by simp [diffWalk], rfl, rfl, by simp [editDist, editCost]⟩

/-- **C96** (script). The lines that are computed are those of a shortest script from the expected to the found lines; the loop ends after at
most as many iterations as there are lines, its assertion holds and the accessed lines exist. -/
theorem C96_script (a b : List Bytes) (n : Nat) (hn : a.length + b.length ≤ n) : ∃ s, ShortestScript a b s ∧ diffLines a b n = some ((s.map Edit.text).reverse) := by
  obtain ⟨s, h1, h2, h3, h4⟩ := diffWalk_script a b n a.length b.length (Nat.le_refl _) (Nat.le_refl _) hn
  rw [List.take_length] at h2 h3
  refine ⟨s, ⟨h2, h3, fun s' h5 h6 => ?_⟩, h1⟩
  rw [h4]
  exact editDist_le a b s' _ _ (Nat.le_refl _) (Nat.le_refl _) (by rw [h5, List.take_length]) (by rw [h6, List.take_length])

/-! ## The context -/

/-- The line with this index is a change. -/
def ChangedAt (diff : List Bytes) (c : Nat) : Prop := diffChanged (diff.getD c []) = true

/-- What the first loop writes, if it stands at `i` with the counter `g`. -/
def FirstMask (diff : List Bytes) (i : Nat) (g : Int) (j : Nat) : Prop :=
  (∃ c, j ≤ c + 1 ∧ c ≤ j + 2 ∧ c < i ∧ ChangedAt diff c) ∨ (i : Int) ≤ j + g

theorem firstMask_step (diff : List Bytes) (i j : Nat) (g : Int) (hg : g ≤ 2) (hj : j ≤ i) :
    FirstMask diff i ((if diffChanged (diff.getD i []) then 3 else g) - 1) j ↔ FirstMask diff (i + 1) g j := by
  unfold FirstMask
  by_cases hc : diffChanged (diff.getD i []) = true
  · rw [if_pos hc]
    constructor
    · rintro (⟨c, h1, h2, h3, h4⟩ | h)
      · exact .inl ⟨c, h1, h2, by omega, h4⟩
      · exact .inl ⟨i, by omega, by omega, by omega, hc⟩
    · rintro (⟨c, h1, h2, h3, h4⟩ | h)
      · by_cases hci : c = i
        · right; omega
        · exact .inl ⟨c, h1, h2, by omega, h4⟩
      · right; omega
  · rw [if_neg hc]
    constructor
    · rintro (⟨c, h1, h2, h3, h4⟩ | h)
      · exact .inl ⟨c, h1, h2, by omega, h4⟩
      · right; push_cast; omega
    · rintro (⟨c, h1, h2, h3, h4⟩ | h)
      · by_cases hci : c = i
        · subst hci; exact absurd h4 hc
        · exact .inl ⟨c, h1, h2, by omega, h4⟩
      · right; push_cast at h; omega

open Classical in
theorem firstMask_writes (diff : List Bytes) : ∀ (i : Nat) (g : Int) (mask : List Bool), g ≤ 2 →
    ((contextWrites diff i g).foldl (fun mask w => mask.set w.1 w.2) mask).length = mask.length ∧
    ∀ j, ((contextWrites diff i g).foldl (fun mask w => mask.set w.1 w.2) mask)[j]? =
      if 1 ≤ j ∧ j ≤ i ∧ j < mask.length then some (decide (FirstMask diff i g j)) else mask[j]? := by
  intro i
  induction i with
  | zero => intro g mask _; exact ⟨rfl, fun j => by rw [if_neg (by omega)]; rfl⟩
  | succ i ih =>
    intro g mask hg
    rw [contextWrites]
    simp only [List.foldl_cons]
    generalize hb : (if diffChanged (diff.getD i []) then (3 : Int) else g) = g'
    have hg' : g' - 1 ≤ 2 := by rw [← hb]; split <;> omega
    obtain ⟨h1, h2⟩ := ih (g' - 1) (mask.set (i + 1) (decide (0 ≤ g'))) hg'
    refine ⟨by rw [h1, List.length_set], fun j => ?_⟩
    rw [h2 j, List.length_set]
    by_cases hj : 1 ≤ j ∧ j ≤ i ∧ j < mask.length
    · rw [if_pos hj, if_pos (by omega)]
      have := firstMask_step diff i j g hg hj.2.1
      rw [hb] at this
      simp only [this]
    · rw [if_neg hj]
      by_cases hj2 : j = i + 1
      · subst hj2
        by_cases hl : i + 1 < mask.length
        · rw [if_pos (by omega), List.getElem?_set_self hl]
          congr 1
          rw [decide_eq_decide]
          unfold FirstMask
          rw [← hb]
          constructor
          · intro h
            by_cases hc : diffChanged (diff.getD i []) = true
            · exact .inl ⟨i, by omega, by omega, by omega, hc⟩
            · rw [if_neg hc] at h; right; omega
          · rintro (⟨c, h3, h4, h5, h6⟩ | h)
            · have : c = i := by omega
              subst this
              rw [if_pos (show diffChanged (diff.getD c []) = true from h6)]; omega
            · split <;> omega
        · rw [if_neg (by omega), List.getElem?_eq_none (by rw [List.length_set]; omega), List.getElem?_eq_none (by omega)]
      · rw [if_neg (by omega), List.getElem?_set_ne (by omega)]

open Classical in
theorem second_mask (diff : List Bytes) : ∀ (mask : List Bool) (g : Int), mask.length = diff.length → g ≤ 2 →
    (contextSecond diff mask g).length = diff.length ∧
    ∀ i b, mask[i]? = some b → (contextSecond diff mask g)[i]? = some (b || decide ((∃ c, c ≤ i ∧ i ≤ c + 3 ∧ ChangedAt diff c) ∨ (i : Int) ≤ g)) := by
  induction diff with
  | nil => intro mask g hl _; exact ⟨hl, fun i b h => by rw [List.getElem?_eq_none (by simp at hl; simp [hl])] at h; cases h⟩
  | cons line diff ih =>
    intro mask g hl hg
    cases mask with
    | nil => simp at hl
    | cons b0 mask =>
      rw [contextSecond]
      generalize hb : (if diffChanged line then (3 : Int) else g) = g'
      have hg' : g' - 1 ≤ 2 := by rw [← hb]; split <;> omega
      obtain ⟨h1, h2⟩ := ih mask (g' - 1) (by simpa using hl) hg'
      refine ⟨by simp [h1], fun i b hi => ?_⟩
      cases i with
      | zero =>
        simp only [List.getElem?_cons_zero, Option.some.injEq] at hi ⊢
        subst hi
        congr 1
        rw [decide_eq_decide, ← hb]
        constructor
        · intro h
          by_cases hc : diffChanged line = true
          · exact .inl ⟨0, by omega, by omega, hc⟩
          · rw [if_neg hc] at h; right; simpa using h
        · rintro (⟨c, h3, h4, h5⟩ | h)
          · have : c = 0 := by omega
            subst this
            rw [if_pos (show diffChanged line = true from h5)]; omega
          · simp at h; split <;> omega
      | succ i =>
        simp only [List.getElem?_cons_succ] at hi ⊢
        rw [h2 i b hi]
        congr 2
        rw [decide_eq_decide, ← hb]
        constructor
        · rintro (⟨c, h3, h4, h5⟩ | h)
          · exact .inl ⟨c + 1, by omega, by omega, h5⟩
          · by_cases hc : diffChanged line = true
            · rw [if_pos hc] at h
              exact .inl ⟨0, by omega, by omega, hc⟩
            · rw [if_neg hc] at h; right; push_cast; omega
        · rintro (⟨c, h3, h4, h5⟩ | h)
          · cases c with
            | zero =>
              rw [if_pos (show diffChanged line = true from h5)]; right; omega
            | succ c => exact .inl ⟨c, by omega, by omega, h5⟩
          · right; push_cast at h; split <;> omega

/-- The mask after the loops. -/
def MaskAt (diff : List Bytes) (i : Nat) : Prop := ∃ c, c < diff.length ∧ ChangedAt diff c ∧ (c ≤ i ∧ i ≤ c + 3 ∨ i < c ∧ c ≤ i + 2 ∧ 1 ≤ i)

open Classical in
theorem context_mask (diff : List Bytes) :
    contextSecond diff ((contextWrites diff diff.length (-1)).foldl (fun mask w => mask.set w.1 w.2) (List.replicate diff.length false)) (-1) =
      (List.range diff.length).map fun i => decide (MaskAt diff i) := by
  obtain ⟨h1, h2⟩ := firstMask_writes diff diff.length (-1) (List.replicate diff.length false) (by omega)
  rw [List.length_replicate] at h1 h2
  generalize (contextWrites diff diff.length (-1)).foldl (fun mask w => mask.set w.1 w.2) (List.replicate diff.length false) = mask at h1 h2 ⊢
  obtain ⟨h3, h4⟩ := second_mask diff mask (-1) h1 (by omega)
  apply List.ext_getElem?
  intro i
  by_cases hi : i < diff.length
  · have h5 : mask[i]? = some (decide (1 ≤ i ∧ FirstMask diff diff.length (-1) i)) := by
      rw [h2 i]
      by_cases h1i : 1 ≤ i
      · rw [if_pos (by omega)]; simp [h1i]
      · rw [if_neg (by omega), List.getElem?_replicate, if_pos hi]
        congr 1
        symm
        rw [decide_eq_false_iff_not]
        omega
    rw [h4 i _ h5, List.getElem?_map, List.getElem?_range hi]
    simp only [Option.map_some, Option.some.injEq]
    rw [← Bool.decide_or, decide_eq_decide]
    unfold FirstMask MaskAt
    constructor
    · rintro (⟨h6, (⟨c, h7, h8, h9, h10⟩ | h7)⟩ | (⟨c, h7, h8, h9⟩ | h7))
      · by_cases hci : c ≤ i
        · exact ⟨c, h9, h10, .inl ⟨hci, by omega⟩⟩
        · exact ⟨c, h9, h10, .inr ⟨by omega, h8, h6⟩⟩
      · omega
      · exact ⟨c, by omega, h9, .inl ⟨h7, h8⟩⟩
      · omega
    · rintro ⟨c, h6, h7, (⟨h8, h9⟩ | ⟨h8, h9, h10⟩)⟩
      · exact .inr (.inl ⟨c, h8, h9, h7⟩)
      · exact .inl ⟨h10, .inl ⟨c, by omega, h9, h6, h7⟩⟩
  · rw [List.getElem?_eq_none (by omega), List.getElem?_eq_none (by simp; omega)]

theorem contextPrint_filter {α : Type} (l : List α) (t : α → Bytes) (p : α → Bool) (ht : ∀ x, t x ≠ contextDots) : ∀ b,
    (contextPrint (l.map fun x => (t x, p x)) b).filter (fun line => line ≠ contextDots) = (l.filter p).map t := by
  induction l with
  | nil => intro b; rfl
  | cons x l ih =>
    intro b
    rw [List.map_cons, List.filter_cons]
    cases hp : p x with
    | true =>
      rw [contextPrint, List.filter_cons, if_pos (by simpa using ht x), ih, if_pos rfl, List.map_cons]
    | false =>
      rw [contextPrint, if_neg (show ¬ (false = true) by simp)]
      split
      · rw [List.filter_cons, if_neg (by simp), ih]
      · rw [ih]

theorem text_ne_dots (e : Edit) : e.text ≠ contextDots := by cases e <;> simp [Edit.text, contextDots]

theorem text_changed (e : Edit) : diffChanged e.text = e.isChange := by cases e <;> simp [Edit.text, diffChanged, Edit.isChange]

theorem changedAt_reverse (s : List Edit) {c : Nat} (hc : c < s.length) : ChangedAt ((s.map Edit.text).reverse) c ↔ ∃ e, s[s.length - 1 - c]? = some e ∧ e.isChange = true := by
  unfold ChangedAt
  rw [List.getD_eq_getElem?_getD, List.getElem?_reverse (by simpa using hc), List.length_map, List.getElem?_map]
  have hlt : s.length - 1 - c < s.length := by omega
  rw [List.getElem?_eq_getElem hlt]
  simp [text_changed]

theorem maskAt_shown (s : List Edit) {k : Nat} (hk : k < s.length) : MaskAt ((s.map Edit.text).reverse) (s.length - 1 - k) ↔ Shown s k := by
  unfold MaskAt Shown
  constructor
  · rintro ⟨c, h1, h2, h3⟩
    rw [List.length_reverse, List.length_map] at h1
    obtain ⟨e, he, hce⟩ := (changedAt_reverse s h1).mp h2
    exact ⟨s.length - 1 - c, e, he, hce, by omega⟩
  · rintro ⟨c, e, h1, h2, h3⟩
    have hlt : c < s.length := by
      by_contra h
      rw [List.getElem?_eq_none (by omega)] at h1; cases h1
    refine ⟨s.length - 1 - c, by rw [List.length_reverse, List.length_map]; omega, (changedAt_reverse s (by omega)).mpr ⟨e, ?_, h2⟩, by omega⟩
    rw [show s.length - 1 - (s.length - 1 - c) = c by omega]; exact h1

open Classical in
theorem context_zip (s : List Edit) :
    ((s.map Edit.text).reverse.zip ((List.range (s.map Edit.text).reverse.length).map fun i => decide (MaskAt ((s.map Edit.text).reverse) i))).reverse =
      s.zipIdx.map fun p => (p.1.text, decide (Shown s p.2)) := by
  apply List.ext_getElem
  · simp
  · intro k h1 h2
    have hk : k < s.length := by simpa using h2
    rw [List.getElem_reverse]
    simp only [List.getElem_zip, List.getElem_reverse, List.getElem_map, List.getElem_range, List.getElem_zipIdx, List.length_zip, List.length_reverse, List.length_map, List.length_range, Nat.min_self]
    have e : s.length - 1 - (s.length - 1 - k) = k := by omega
    simp only [e, Nat.zero_add, Prod.mk.injEq, true_and]
    rw [decide_eq_decide]
    exact maskAt_shown s hk

open Classical in
/-- **C96** (context). What is printed of a script, besides the lines with three dots, are the edits that are shown, in the order of the script. -/
theorem C96_context (s : List Edit) :
    (createContext ((s.map Edit.text).reverse)).filter (fun line => line ≠ contextDots) = (s.zipIdx.filter fun p => decide (Shown s p.2)).map fun p => p.1.text := by
  unfold createContext
  simp only
  rw [context_mask, context_zip]
  exact contextPrint_filter s.zipIdx (fun p => p.1.text) (fun p => decide (Shown s p.2)) (fun p => text_ne_dots p.1) false

theorem contextPrint_chain (l : List (Bytes × Bool)) : ∀ b, (∀ p ∈ l, p.1 ≠ contextDots) →
    List.IsChain (fun x y => ¬ (x = contextDots ∧ y = contextDots)) (contextPrint l b) ∧ (b = false → ∀ y ∈ (contextPrint l b).head?, y ≠ contextDots) := by
  induction l with
  | nil => intro b _; exact ⟨.nil, by simp [contextPrint]⟩
  | cons p l ih =>
    intro b h
    obtain ⟨line, m⟩ := p
    have hl : line ≠ contextDots := h (line, m) (by simp)
    have ih := fun b => ih b (fun p hp => h p (by simp [hp]))
    cases m with
    | true =>
      rw [contextPrint]
      refine ⟨?_, fun _ y hy => by simp at hy; rw [← hy]; exact hl⟩
      rw [List.isChain_cons]
      exact ⟨fun y _ => fun h => hl h.1, (ih true).1⟩
    | false =>
      rw [contextPrint]
      cases b with
      | true =>
        simp only [if_true]
        refine ⟨?_, by simp⟩
        rw [List.isChain_cons]
        exact ⟨fun y hy h => (ih false).2 rfl y hy h.2, (ih false).1⟩
      | false => simpa using ih false

theorem context_chain (s : List Edit) : List.IsChain (fun x y => ¬ (x = contextDots ∧ y = contextDots)) (createContext ((s.map Edit.text).reverse)) := by
  classical
  unfold createContext
  simp only
  rw [context_mask, context_zip]
  refine (contextPrint_chain _ false fun p hp => ?_).1
  obtain ⟨q, _, rfl⟩ := List.mem_map.mp hp
  exact text_ne_dots q.1

open Classical in
/-- **C96.** The explanation is made of a shortest script from the lines of the expected schema to those of the schema that was found: of the lines with signs that the script has, those that are shown, in their order; besides there
are lines with three dots, no two of them in a row. It takes at most as many iterations as there are lines. -/
theorem C96_explained (expected found : Bytes) (n : Nat) (hn : (toLines expected).length + (toLines found).length ≤ n) :
    ∃ (s : List Edit) (out : List Bytes), ShortestScript (toLines expected) (toLines found) s ∧ computeDiff expected found n = some (out.flatMap (· ++ [10])) ∧
      out.filter (fun line => line ≠ contextDots) = (s.zipIdx.filter fun p => decide (Shown s p.2)).map (fun p => p.1.text) ∧
      out.IsChain (fun x y => ¬ (x = contextDots ∧ y = contextDots)) := by
  obtain ⟨s, h1, h2⟩ := C96_script (toLines expected) (toLines found) n hn
  refine ⟨s, _, h1, ?_, C96_context s, context_chain s⟩
  unfold computeDiff
  rw [h2]; rfl

theorem change_shown {s : List Edit} {k : Nat} {e : Edit} (h : s[k]? = some e) (hc : e.isChange = true) : Shown s k :=
  ⟨k, e, h, hc, .inl ⟨Nat.le_refl _, by omega⟩⟩

/-- **C96** (all changes). All changes of the script are printed, in their order. -/
theorem C96_changes (s : List Edit) : ((s.filter Edit.isChange).map Edit.text).Sublist (createContext ((s.map Edit.text).reverse)) := by
  classical
  have h := C96_context s
  refine List.Sublist.trans ?_ (List.filter_sublist (p := fun line => decide (line ≠ contextDots)))
  rw [h]
  have h2 : (s.filter Edit.isChange).map Edit.text = (s.zipIdx.filter fun p => p.1.isChange).map fun p => p.1.text := by
    have : ∀ (l : List Edit) k, (l.filter Edit.isChange).map Edit.text = ((l.zipIdx k).filter fun p => p.1.isChange).map fun p => p.1.text := by
      intro l
      induction l with
      | nil => intro k; rfl
      | cons e l ih =>
        intro k
        rw [List.zipIdx_cons, List.filter_cons, List.filter_cons]
        cases e.isChange
        · simpa using ih (k + 1)
        · simpa using ih (k + 1)
    exact this s 0
  rw [h2]
  refine List.Sublist.map _ ?_
  have h3 : s.zipIdx.filter (fun p => p.1.isChange) = (s.zipIdx.filter fun p => decide (Shown s p.2)).filter fun p => p.1.isChange := by
    rw [List.filter_filter]
    refine List.filter_congr fun p hp => ?_
    cases hc : p.1.isChange with
    | false => rfl
    | true =>
      rw [Bool.true_and]
      symm
      rw [decide_eq_true_eq]
      exact change_shown (List.mem_zipIdx_iff_getElem?.mp hp) hc
  rw [h3]
  exact List.filter_sublist

theorem no_change {s : List Edit} (h : ∀ e ∈ s, e.isChange = false) : editBefore s = editAfter s := by
  induction s with
  | nil => rfl
  | cons e s ih =>
    have ih := ih fun e he => h e (by simp [he])
    cases e with
    | kept l =>
      show l :: editBefore s = l :: editAfter s
      rw [ih]
    | removed l => have := h (.removed l) (by simp); simp [Edit.isChange] at this
    | added l => have := h (.added l) (by simp); simp [Edit.isChange] at this

/-- **C96** (nothing to explain). Nothing is printed exactly if the schemas have the same lines. -/
theorem C96_empty {a b : List Bytes} {s : List Edit} (h : ShortestScript a b s) : createContext ((s.map Edit.text).reverse) = [] ↔ a = b := by
  constructor
  · intro he
    have := C96_changes s
    rw [he, List.sublist_nil, List.map_eq_nil_iff, List.filter_eq_nil_iff] at this
    rw [← h.before, ← h.after]
    exact no_change fun e hm => by simpa using this e hm
  · rintro rfl
    have hk : editBefore (a.map Edit.kept) = a ∧ editAfter (a.map Edit.kept) = a ∧ editCost (a.map Edit.kept) = 0 := by
      clear h
      induction a with
      | nil => exact ⟨rfl, rfl, rfl⟩
      | cons l a ih =>
        obtain ⟨h1, h2, h3⟩ := ih
        refine ⟨?_, ?_, ?_⟩
        · show l :: editBefore (a.map Edit.kept) = _; rw [h1]
        · show l :: editAfter (a.map Edit.kept) = _; rw [h2]
        · unfold editCost at h3 ⊢; rw [List.map_cons, List.countP_cons, h3]; rfl
    have h0 := h.shortest _ hk.1 hk.2.1
    rw [hk.2.2, Nat.le_zero] at h0
    unfold editCost at h0
    rw [List.countP_eq_zero] at h0
    classical
    unfold createContext
    simp only
    rw [context_mask, context_zip]
    have hp : ∀ l : List (Bytes × Bool), (∀ p ∈ l, p.2 = false) → contextPrint l false = [] := by
      intro l
      induction l with
      | nil => intro _; rfl
      | cons p l ih =>
        intro hl
        obtain ⟨x, m⟩ := p
        have : m = false := hl (x, m) (by simp)
        subst this
        rw [contextPrint]
        simpa using ih fun p hp => hl p (by simp [hp])
    refine hp _ fun p hm => ?_
    obtain ⟨q, _, rfl⟩ := List.mem_map.mp hm
    simp only [decide_eq_false_iff_not]
    rintro ⟨c, e, h1, h2, _⟩
    exact h0 e (List.mem_of_getElem? h1) h2

end Props
