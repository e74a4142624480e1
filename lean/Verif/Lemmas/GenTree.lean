import Verif.Spec.Tree
import Mathlib.Data.List.Nodup

/-! # Lemmas about syntax trees -/

namespace Spec
open Gen

theorem Good.name {t : Tree} (h : Good t) : '.' ∉ t.name := by cases h; assumption
theorem Good.nodup {t : Tree} (h : Good t) : (t.children.map Tree.name).Nodup := by cases h; assumption
theorem Good.children {t : Tree} (h : Good t) : ∀ c ∈ t.children, Good c := by cases h; assumption

end Spec

namespace Gen
open Spec

theorem Tree.eta (t : Tree) : Tree.mk t.name t.kind t.children = t := by cases t; rfl

theorem good_iff (t : Tree) : Good t ↔ '.' ∉ t.name ∧ (t.children.map Tree.name).Nodup ∧ ∀ c ∈ t.children, Good c := by
  constructor
  · intro h; exact ⟨h.name, h.nodup, h.children⟩
  · rintro ⟨a, b, c⟩; rw [← t.eta]; exact .mk a b c

/-! ## Splitting -/

theorem splitDot_ne_nil (t : Text) : splitDot t ≠ [] := by
  induction t with
  | nil => simp [splitDot]
  | cons c t ih =>
    simp only [splitDot]; split
    · simp
    · split <;> simp

theorem splitDot_nodot {w : Text} (h : '.' ∉ w) : splitDot w = [w] := by
  induction w with
  | nil => rfl
  | cons c t ih =>
    simp only [List.mem_cons, not_or] at h
    simp only [splitDot, if_neg (Ne.symm h.1), ih h.2]

theorem splitDot_append_dot {w : Text} (h : '.' ∉ w) (t : Text) : splitDot (w ++ '.' :: t) = w :: splitDot t := by
  induction w with
  | nil => simp [splitDot]
  | cons c w ih =>
    simp only [List.mem_cons, not_or] at h
    simp only [List.cons_append, splitDot, if_neg (Ne.symm h.1), ih h.2]

theorem splitDot_path {w : Text} {p : List Text} (hw : '.' ∉ w) (hp : ∀ n ∈ p, '.' ∉ n) :
    splitDot (w ++ p.flatMap fun n => '.' :: n) = w :: p := by
  induction p generalizing w with
  | nil => simp [splitDot_nodot hw]
  | cons n p ih =>
    simp only [List.flatMap_cons, List.cons_append]
    rw [splitDot_append_dot hw, ih (hp n (by simp)) (fun m hm => hp m (by simp [hm]))]

theorem splitDot_parts (t : Text) : ∀ w ∈ splitDot t, '.' ∉ w := by
  induction t with
  | nil => simp [splitDot]
  | cons c t ih =>
    simp only [splitDot]; split
    · intro w hw; simp only [List.mem_cons] at hw
      rcases hw with rfl | hw
      · simp
      · exact ih w hw
    · rename_i hc
      split
      · simp [Ne.symm hc]
      · rename_i v vs heq
        intro w hw; simp only [List.mem_cons] at hw
        rcases hw with rfl | hw
        · simp only [List.mem_cons, not_or]; exact ⟨Ne.symm hc, ih v (by simp [heq])⟩
        · exact ih w (by simp [heq, hw])

/-- Joining what was split. -/
theorem splitDot_join (t : Text) : ∀ w ws, splitDot t = w :: ws → w ++ ws.flatMap (fun n => '.' :: n) = t := by
  induction t with
  | nil => intro w ws h; simp [splitDot] at h; simp [h]
  | cons c t ih =>
    intro w ws h
    simp only [splitDot] at h
    split at h
    · rename_i hc
      injection h with h1 h2
      subst h1
      cases hs : splitDot t with
      | nil => exact absurd hs (splitDot_ne_nil t)
      | cons v vs =>
        rw [hs] at h2; subst h2
        simp [ih v vs hs, hc]
    · split at h
      · rename_i hs; exact absurd hs (splitDot_ne_nil t)
      · rename_i v vs hs
        injection h with h1 h2
        subst h1 h2
        simp [ih _ _ hs]

/-! ## Children -/

theorem child_some {t c : Tree} {k : Text} (h : t.child k = some c) : c ∈ t.children ∧ c.name = k := by
  unfold Tree.child at h
  exact ⟨List.mem_of_find?_eq_some h, by simpa using List.find?_some h⟩

theorem child_of_mem {t : Tree} (hg : (t.children.map Tree.name).Nodup) {c : Tree} (hc : c ∈ t.children) :
    t.child c.name = some c := by
  unfold Tree.child
  revert hg hc
  generalize t.children = cs
  induction cs with
  | nil => simp
  | cons d ds ih =>
    intro hg hc
    simp only [List.map_cons, List.nodup_cons] at hg
    rcases List.mem_cons.mp hc with rfl | hc
    · simp
    · rw [List.find?_cons_of_neg]
      · exact ih hg.2 hc
      · simp only [decide_eq_true_eq]
        intro h; exact hg.1 (h ▸ List.mem_map_of_mem hc)

theorem child_isSome {t : Tree} {k : Text} : (t.child k).isSome ↔ k ∈ t.children.map Tree.name := by
  unfold Tree.child; rw [List.find?_isSome]; simp

theorem child_none {t : Tree} {k : Text} : t.child k = none ↔ k ∉ t.children.map Tree.name := by
  rw [← child_isSome]; simp

/-! ## Positions -/

theorem treeAt_good {t : Tree} (h : Good t) {pos : List Nat} {n : Tree} (hn : treeAt t pos = some n) : Good n := by
  induction pos generalizing t with
  | nil => simp only [treeAt, Option.some.injEq] at hn; exact hn ▸ h
  | cons i is ih =>
    simp only [treeAt] at hn
    cases hc : t.children[i]? with
    | none => simp [hc] at hn
    | some c => rw [hc] at hn; exact ih (h.children c (List.mem_of_getElem? hc)) hn

theorem namesAt_nodot {t : Tree} (h : Good t) (pos : List Nat) : ∀ n ∈ namesAt t pos, '.' ∉ n := by
  induction pos generalizing t with
  | nil => simp [namesAt]
  | cons i is ih =>
    simp only [namesAt]
    cases hc : t.children[i]? with
    | none => simp
    | some c =>
      have := h.children c (List.mem_of_getElem? hc)
      intro n hn
      simp only [List.mem_cons] at hn
      rcases hn with rfl | hn
      · exact this.name
      · exact ih this n hn

theorem descend_namesAt {t : Tree} (h : Good t) {pos : List Nat} {n : Tree} (hn : treeAt t pos = some n) :
    t.descend (namesAt t pos) = some n := by
  induction pos generalizing t with
  | nil => simpa [namesAt, treeAt, Tree.descend] using hn
  | cons i is ih =>
    simp only [treeAt] at hn
    cases hc : t.children[i]? with
    | none => simp [hc] at hn
    | some c =>
      rw [hc] at hn
      have hm := List.mem_of_getElem? hc
      simp only [namesAt, hc, Tree.descend, child_of_mem h.nodup hm]
      exact ih (h.children c hm) hn

theorem descend_treeAt {t : Tree} {p : List Text} {n : Tree} (hn : t.descend p = some n) :
    ∃ pos, treeAt t pos = some n ∧ namesAt t pos = p := by
  induction p generalizing t with
  | nil => exact ⟨[], by simpa [Tree.descend, treeAt] using hn, rfl⟩
  | cons k ks ih =>
    simp only [Tree.descend] at hn
    cases hc : t.child k with
    | none => simp [hc] at hn
    | some c =>
      rw [hc] at hn
      obtain ⟨pos, h1, h2⟩ := ih hn
      obtain ⟨hm, hk⟩ := child_some hc
      obtain ⟨i, hi⟩ := List.mem_iff_getElem?.mp hm
      exact ⟨i :: pos, by simp [treeAt, hi, h1], by simp [namesAt, hi, h2, hk]⟩

theorem namesAt_inj {t : Tree} (h : Good t) {p q : List Nat} {m n : Tree} (hp : treeAt t p = some m)
    (hq : treeAt t q = some n) (he : namesAt t p = namesAt t q) : p = q := by
  induction p generalizing t q with
  | nil =>
    cases q with
    | nil => rfl
    | cons j js =>
      simp only [treeAt] at hq
      cases hc : t.children[j]? with
      | none => simp [hc] at hq
      | some c => simp [namesAt, hc] at he
  | cons i is ih =>
    simp only [treeAt] at hp
    cases hc : t.children[i]? with
    | none => simp [hc] at hp
    | some c =>
      rw [hc] at hp
      cases q with
      | nil => simp [namesAt, hc] at he
      | cons j js =>
        simp only [treeAt] at hq
        cases hd : t.children[j]? with
        | none => simp [hd] at hq
        | some d =>
          rw [hd] at hq
          simp only [namesAt, hc, hd, List.cons.injEq] at he
          have hij : i = j := by
            have h1 : (t.children.map Tree.name)[i]? = some c.name := by simp [hc]
            have h2 : (t.children.map Tree.name)[j]? = some c.name := by simp [hd, he.1]
            have hi : i < (t.children.map Tree.name).length := by
              rcases Nat.lt_or_ge i (t.children.map Tree.name).length with h | h
              · exact h
              · rw [List.getElem?_eq_none h] at h1; cases h1
            exact (List.getElem?_inj hi h.nodup).mp (h1.trans h2.symm)
          subst hij
          rw [hc] at hd; injection hd with hd; subst hd
          rw [ih (h.children c (List.mem_of_getElem? hc)) hp hq he.2]

/-! ## Growth keeps trees good -/

theorem good_root : Good Tree.root := .mk (by simp) (by simp) (by simp)

theorem good_create {n k t} (h : Tree.create n k = .ok t) : Good t := by
  unfold Tree.create at h
  split at h
  · cases h
  · split at h
    · cases h
    · cases h; exact .mk (by assumption) (by simp) (by simp)

theorem insert_ok {t u t' : Tree} (h : t.insert u = .ok t') :
    u.name ∉ t.children.map Tree.name ∧ t' = .mk t.name t.kind (t.children ++ [u]) := by
  cases t with
  | mk n k cs =>
    simp only [Tree.insert] at h
    split at h
    · cases h
    · rename_i hn; cases h; exact ⟨hn, rfl⟩

theorem good_insert {t u t' : Tree} (ht : Good t) (hu : Good u) (h : t.insert u = .ok t') : Good t' := by
  obtain ⟨hn, rfl⟩ := insert_ok h
  refine .mk ht.name ?_ ?_
  · rw [List.map_append]
    exact List.nodup_append.mpr ⟨ht.nodup, by simp, by
      intro a ha b hb; simp only [List.map_cons, List.map_nil, List.mem_singleton] at hb; subst hb
      intro h; exact hn (h ▸ ha)⟩
  · intro c hc
    rcases List.mem_append.mp hc with hc | hc
    · exact ht.children c hc
    · simp only [List.mem_singleton] at hc; exact hc ▸ hu

theorem good_erase {t t' : Tree} {k : Text} (ht : Good t) (h : t.erase k = .ok t') : Good t' := by
  cases t with
  | mk n kd cs =>
    simp only [Tree.erase] at h
    split at h
    · cases h
      exact .mk ht.name (List.Nodup.sublist (List.Sublist.map _ List.filter_sublist) ht.nodup)
        (fun c hc => ht.children c (List.mem_filter.mp hc).1)
    · cases h

theorem good_rename {t t' : Tree} {old new : Text} (ht : Good t) (hnew : '.' ∉ new) (h : t.renameChild old new = .ok t') :
    Good t' := by
  cases t with
  | mk n kd cs =>
    simp only [Tree.renameChild] at h
    split at h
    · cases h; exact ht
    · split at h
      · cases h
      · rename_i hne hfree
        cases h
        refine .mk ht.name ?_ ?_
        · have hnd : (cs.map Tree.name).Nodup := ht.nodup
          rw [List.map_map]
          have : (Tree.name ∘ fun c : Tree => if c.name = old then Tree.mk new c.kind c.children else c)
              = (fun m : Text => if m = old then new else m) ∘ Tree.name := by
            funext c; simp only [Function.comp]; split <;> simp_all [Tree.name]
          rw [this, ← List.map_map]
          refine List.Nodup.map_on ?_ hnd
          intro a ha b hb hab
          split at hab <;> split at hab
          · simp_all
          · exact absurd (hab ▸ hb) hfree
          · exact absurd (hab ▸ ha) hfree
          · exact hab
        · intro c hc
          obtain ⟨d, hd, rfl⟩ := List.mem_map.mp hc
          have := ht.children d hd
          split
          · exact .mk hnew this.nodup this.children
          · exact this

theorem setChild_name (t c : Tree) : (t.setChild c).name = t.name := by cases t; rfl

theorem good_setChild {t c : Tree} (ht : Good t) (hc : Good c) : Good (t.setChild c) := by
  cases t with
  | mk n k cs =>
    simp only [Tree.setChild]
    have hnames : (cs.map fun d => if d.name = c.name then c else d).map Tree.name = cs.map Tree.name := by
      rw [List.map_map]; apply List.map_congr_left
      intro d _; simp only [Function.comp]; split <;> simp_all
    refine .mk ht.name (by rw [hnames]; exact ht.nodup) ?_
    intro d hd
    obtain ⟨e, he, rfl⟩ := List.mem_map.mp hd
    split
    · exact hc
    · exact ht.children e he

theorem good_modifyAt {f : Tree → M Tree} (hf : ∀ n n', Good n → f n = .ok n' → Good n') :
    ∀ (p : List Text) (t t' : Tree), Good t → t.modifyAt f p = .ok t' → Good t' := by
  intro p
  induction p with
  | nil => intro t t' ht h; exact hf t t' ht h
  | cons k ks ih =>
    intro t t' ht h
    simp only [Tree.modifyAt] at h
    cases hc : t.child k with
    | none => rw [hc] at h; cases h
    | some c =>
      rw [hc] at h
      simp only [bind, Except.bind, pure, Except.pure] at h
      cases hm : c.modifyAt f ks with
      | error e => rw [hm] at h; cases h
      | ok c' =>
        rw [hm] at h; cases h
        exact good_setChild ht (ih c c' (ht.children c (child_some hc).1) hm)

theorem grown_good {t : Tree} (h : Grown t) : Good t := by
  induction h with
  | node h => exact good_create h
  | root => exact good_root
  | insert _ _ h iht ihu => exact good_modifyAt (fun n n' hn hn' => good_insert hn ihu hn') _ _ _ iht h
  | erase _ h ih => exact good_modifyAt (fun n n' hn hn' => good_erase hn hn') _ _ _ ih h
  | rename _ hnew h ih => exact good_modifyAt (fun n n' hn hn' => good_rename hn hnew hn') _ _ _ ih h

/-! ## Lookup -/

theorem find_eq {t n : Tree} {k : Text} {ks : List Text} (hs : splitDot path = k :: ks) :
    t.find path = .ok n ↔ t.name = k ∧ t.descend ks = some n := by
  unfold Tree.find
  rw [hs]
  simp only
  split
  · rename_i h; simp [throw, throwThe, MonadExceptOf.throw, h]
  · rename_i h
    simp only [ne_eq, not_not] at h
    cases hd : t.descend ks with
    | none => simp [throw, throwThe, MonadExceptOf.throw]
    | some m => simp [pure, Except.pure, h]

end Gen
