import Verif.Lemmas.GenPasses
import Verif.Props.Gen.Resolve

/-! # Trees with resolved references -/

namespace Gen
open Spec Props

structure Linked (t : Tree) : Prop where
  good : Good t
  named : WellNamed t
  name : t.name = []
  kind : t.kind = .root
  kindOk : ∀ q n, t.descend q = some n → KindOk n.kind
  refs : ∀ q r rk, t.descend q = some r → r.kind = .ref rk →
    ∃ p m, r.target = pathText p ∧ t.descend p = some m ∧ KindFits rk m.kind

theorem shaped_descend {t n : Tree} (h : Shaped t) {q : Path} (hn : t.descend q = some n) : Shaped n := by
  induction q generalizing t with
  | nil => simp only [Tree.descend, Option.some.injEq] at hn; exact hn ▸ h
  | cons k q ih =>
    simp only [Tree.descend] at hn
    cases hc : t.child k with
    | none => rw [hc] at hn; cases hn
    | some c => rw [hc] at hn; exact ih (h.children c (child_some hc).1) hn

theorem buildResolved_linked {blocks : List PBlock} (hb : ∀ b ∈ blocks, PlainNames b) {r : Tree} (h : buildResolved blocks = .ok r) :
    Linked r ∧ Shaped r := by
  unfold buildResolved at h
  obtain ⟨t0, h1, h⟩ := bind_ok h
  obtain ⟨t1, h2, h⟩ := bind_ok h
  have hm := (built_merged h1).1
  have hr := appendBuiltins_ready ⟨hm.good, (built_named hb h1).1, hm.name, hm.kind⟩ h2
  have hs1 := appendBuiltins_shaped hm.good (built_shaped h1) h2
  obtain ⟨hren, hg', hw'⟩ := resolve_renamed hr.good hr.named hr.name h
  have hs' := renamed_shaped hren hs1
  obtain ⟨_, _, hn'⟩ := C48_stays_good hr.good hr.named hr.name h
  have hk' : r.kind = .root := by
    have := hr.kind
    cases hren; exact this
  refine ⟨⟨hg', hw', hn', hk', fun q n hq => (shaped_descend hs' hq).kindOk, ?_⟩, hs'⟩
  intro q x rk hx hxk
  obtain ⟨pos, hp, hq⟩ := descend_treeAt hx
  obtain ⟨g1, g2⟩ := C48_only_references_change hr.good hr.named hr.name h pos
  cases ht : treeAt t1 pos with
  | none => rw [g1 ht] at hp; cases hp
  | some y =>
    obtain ⟨x', a1, a2, _⟩ := g2 y ht
    rw [hp] at a1; cases a1
    obtain ⟨r', p, m, b1, b2, b3, b4, b5, b6⟩ := C48_resolved hr.good hr.named hr.name h ht (a2.symm.trans hxk)
    rw [hp] at b1; cases b1
    have hpd : ∀ k ∈ p, '.' ∉ k := by
      obtain ⟨n, hn⟩ := means_node b3
      exact descend_nodot hr.good hn
    refine ⟨p, m, b4, ?_, b6⟩
    rw [b4] at b5
    exact (find_path hn' hpd).mp b5

theorem Linked.target {t : Tree} (h : Linked t) {q : Path} {r : Tree} {rk : RefKind} (hr : t.descend q = some r) (hk : r.kind = .ref rk) :
    ∃ m, r.target = pathText r.targetPath ∧ t.descend r.targetPath = some m ∧ t.find r.target = .ok m ∧ KindFits rk m.kind := by
  obtain ⟨p, m, h1, h2, h3⟩ := h.refs q r rk hr hk
  have hd := descend_nodot h.good h2
  rw [targetPath_of hd h1]
  exact ⟨m, h1, h2, by rw [h1]; exact (find_path h.name hd).mpr h2, h3⟩

/-! ## Constants in archives -/

/-- Paths of the constants to which no constant reference points. -/
def unreferenced (t : Tree) : List Path :=
  ((t.nodesLike Kind.isConstant).map (·.1)).filter fun c =>
    pathText c ∉ (t.nodesLike Kind.isConstantReference).map fun e => e.2.target

/-- The reference to the constant at a path. -/
def constantRef (p : Path) : Tree := .mk (referencify (pathText p)) (.ref .constantValue) []

theorem good_ref (n : Text) (k : Kind) : Good (.mk (referencify n) k []) := .mk (referencify_nodot n) (by simp) (by simp)

theorem foldlM_map {α β : Type} (g : α → β) (f : Tree → β → M Tree) (l : List α) (t : Tree) :
    l.foldlM (fun r a => f r (g a)) t = (l.map g).foldlM f t := by
  induction l generalizing t with
  | nil => rfl
  | cons a l ih =>
    simp only [List.map_cons, List.foldlM_cons]
    congr 1
    funext x; exact ih x

theorem appendConstantRefs_eq (t : Tree) : appendConstantRefs t = ((t.nodesLike fun k => k = .archive).map (·.1)).foldlM
    (fun r a => r.modifyAt (fun n => insertEach n (((unreferenced t).map constantRef).map Except.ok)) a) t := by
  unfold appendConstantRefs
  simp only
  rw [← foldlM_map (g := fun e : Path × Tree => e.1) (f := fun r a => r.modifyAt _ a)]
  congr 1
  funext r a
  congr 1
  funext n
  congr 1
  unfold unreferenced
  rw [List.filter_map, List.map_map, List.map_map, List.filter_map, List.map_map]
  apply List.map_congr_left
  intro e _
  simp only [Function.comp, mkRef_eq, constantRef]

theorem insertEach_ok_good {ds : List Tree} (hd : ∀ d ∈ ds, Good d) (n n' : Tree) (hn : Good n)
    (h : insertEach n (ds.map Except.ok) = .ok n') : Good n' := by
  induction ds generalizing n with
  | nil => simp only [List.map_nil, insertEach, pure, Except.pure, Except.ok.injEq] at h; exact h ▸ hn
  | cons d ds ih =>
    simp only [List.map_cons, insertEach, bind, Except.bind] at h
    cases hi : n.insert d with
    | error e => rw [hi] at h; cases h
    | ok m =>
      rw [hi] at h
      exact ih (fun x hx => hd x (by simp [hx])) m (good_insert hn (hd d (by simp)) hi) h

theorem insertEach_named' {ds : List Tree} (hd : ∀ d ∈ ds, WellNamed d) (n n' : Tree) (hn : Named n)
    (h : insertEach n (ds.map Except.ok) = .ok n') : Named n' := by
  refine insertEach_named hn ?_ h
  intro c hc d he
  obtain ⟨x, hx, rfl⟩ := List.mem_map.mp hc
  cases he; exact hd _ hx

theorem foldlM_named {f : Tree → M Tree} (hf : ∀ n n', Named n → f n = .ok n' → WellNamed n')
    (hk : ∀ n n', f n = .ok n' → n'.kind = n.kind ∧ n'.name = n.name) {l : List Path} (hl : ∀ a ∈ l, ∀ k ∈ a, '@' ∉ k) :
    ∀ {t t' : Tree}, Named t → l.foldlM (fun r a => r.modifyAt f a) t = .ok t' → Named t' ∧ t'.kind = t.kind := by
  induction l with
  | nil => intro t t' ht h; simp only [List.foldlM_nil, pure, Except.pure, Except.ok.injEq] at h; subst h; exact ⟨ht, rfl⟩
  | cons a l ih =>
    intro t t' ht h
    simp only [List.foldlM_cons] at h
    obtain ⟨t1, h1, h⟩ := bind_ok h
    have hk1 := (modifyAt_kind hk h1).1
    have hn1 := modifyAt_named hf (hl a (by simp)) ht h1
    obtain ⟨g1, g2⟩ := ih (fun x hx => hl x (by simp [hx])) ⟨hn1, by rw [hk1]; exact ht.2⟩ h
    exact ⟨g1, g2.trans hk1⟩

theorem descend_noat {t n : Tree} (hw : WellNamed t) {p : Path} (h : t.descend p = some n) (hn : ∀ r, n.kind ≠ .ref r) : ∀ k ∈ p, '@' ∉ k := by
  obtain ⟨pos, h1, h2⟩ := descend_treeAt h
  rw [← h2]
  exact namesAt_noat hw h1 hn

theorem appendConstantRefs_spec {t t' : Tree} (hl : Linked t) (h : appendConstantRefs t = .ok t') : Linked t' ∧
    Grows (fun _ kd ext => ext = if kd = .archive then (unreferenced t).map (fun c => (referencify (pathText c), .ref .constantValue)) else []) t t' ∧
    ∀ q n', t'.descend q = some n' → (∃ n, t.descend q = some n ∧ n'.kind = n.kind) ∨
      (∃ a n, t.descend a = some n ∧ n.kind = .archive ∧ ∃ c ∈ unreferenced t, q = a ++ [n'.name] ∧ n'.name = referencify (pathText c) ∧ n'.kind = .ref .constantValue) := by
  rw [appendConstantRefs_eq] at h
  have hd : ∀ d ∈ (unreferenced t).map constantRef, Good d ∧ d.children = [] := by
    intro d hd
    obtain ⟨c, _, rfl⟩ := List.mem_map.mp hd
    exact ⟨good_ref _ _, rfl⟩
  obtain ⟨g1, g2, g3, g4⟩ := foldlM_modifyAt insertEach_appends hd (nodesLike_nodup hl.good _) hl.good
    (fun n n' hn hf => insertEach_ok_good (fun d hdm => (hd d hdm).1) n n' hn hf) h
  have harch : ∀ {a : Path}, a ∈ (t.nodesLike fun k => k = .archive).map (·.1) ↔ ∃ n, t.descend a = some n ∧ n.kind = .archive := by
    intro a
    simp only [List.mem_map, Prod.exists, exists_and_right, exists_eq_right, mem_nodesLike hl.good, decide_eq_true_eq]
  have hnamed := foldlM_named (f := fun n => insertEach n (((unreferenced t).map constantRef).map Except.ok))
    (fun n n' hn hf => (insertEach_named' (by intro d hd; obtain ⟨c, _, rfl⟩ := List.mem_map.mp hd; exact .ref) n n' hn hf).1)
    (fun n n' hf => by rw [insertEach_appends n n' hf]; exact ⟨rfl, rfl⟩)
    (by intro a ha; obtain ⟨n, h1, h2⟩ := harch.mp ha; exact descend_noat hl.named h1 (by rw [h2]; simp))
    ⟨hl.named, by rw [hl.kind]; simp⟩ h
  have hgrow : Grows (fun _ kd ext => ext = if kd = .archive then (unreferenced t).map (fun c => (referencify (pathText c), Kind.ref .constantValue)) else []) t t' := by
    intro q n hq
    obtain ⟨n', ext, a1, a2, a3, a4, a5⟩ := g3 q n hq
    refine ⟨n', ext, a1, a2, a3, a4, ?_⟩
    subst a5
    by_cases hk : n.kind = .archive
    · rw [if_pos (harch.mpr ⟨n, hq, hk⟩), if_pos hk, List.map_map]; rfl
    · rw [if_neg hk, if_neg]
      intro hm
      obtain ⟨m, h1, h2⟩ := harch.mp hm
      rw [hq] at h1; cases h1; exact hk h2
  have hback : ∀ q n', t'.descend q = some n' → (∃ n, t.descend q = some n ∧ n'.kind = n.kind) ∨
      (∃ a n, t.descend a = some n ∧ n.kind = .archive ∧ ∃ c ∈ unreferenced t, q = a ++ [n'.name] ∧ n'.name = referencify (pathText c) ∧ n'.kind = .ref .constantValue) := by
    intro q n' hq
    rcases g4 q n' hq with g | ⟨a, ha, d, hdm, e1, e2, e3⟩
    · exact .inl g
    · right
      obtain ⟨n, h1, h2⟩ := harch.mp ha
      obtain ⟨c, hc, rfl⟩ := List.mem_map.mp hdm
      exact ⟨a, n, h1, h2, c, hc, by rw [e1, e2], e2, e3⟩
  have hsame : ∀ {p m}, t.descend p = some m → ∃ m', t'.descend p = some m' ∧ m'.name = m.name ∧ m'.kind = m.kind := by
    intro p m hm; obtain ⟨m', _, h1, h0, h2, _⟩ := hgrow p m hm; exact ⟨m', h1, h0, h2⟩
  refine ⟨⟨g1, hnamed.1.1, g2.trans hl.name, hnamed.2.trans hl.kind, ?_, ?_⟩, hgrow, hback⟩
  · intro q n' hq
    rcases hback q n' hq with ⟨n, h1, h2⟩ | ⟨_, _, _, _, _, _, _, _, hk⟩
    · rw [h2]; exact hl.kindOk q n h1
    · rw [hk]; trivial
  · intro q r rk hr hk
    rcases hback q r hr with ⟨n, h1, h2⟩ | ⟨a, n, _, _, c, hc, e1, e2, e3⟩
    · obtain ⟨p, m, b1, b2, b3⟩ := hl.refs q n rk h1 (h2.symm.trans hk)
      obtain ⟨m', c1, _, c2⟩ := hsame b2
      obtain ⟨n'', d1, d2, _⟩ := hsame h1
      rw [hr] at d1; cases d1
      exact ⟨p, m', by rw [← b1, Tree.target, Tree.target, d2], c1, by rw [c2]; exact b3⟩
    · rw [e3] at hk; cases hk
      simp only [unreferenced, List.mem_filter, List.mem_map, Prod.exists, exists_and_right, exists_eq_right] at hc
      obtain ⟨⟨m, hm⟩, _⟩ := hc
      rw [mem_nodesLike hl.good] at hm
      obtain ⟨m', c1, _, c2⟩ := hsame hm.1
      have hnoat : '@' ∉ pathText c := by
        have hcn := descend_noat hl.named hm.1 (by intro r hr; rw [hr] at hm; cases hm.2)
        simp only [pathText, List.mem_flatMap, List.mem_cons, not_exists, not_and, not_or]
        exact fun k hk => ⟨by decide, hcn k hk⟩
      refine ⟨c, m', by rw [Tree.target, e2, dereferencify_referencify hnoat], c1, ?_⟩
      rw [c2]
      cases hmk : m.kind with
      | constant ty v => exact ⟨_, _, rfl⟩
      | _ => rw [hmk] at hm; cases hm.2

end Gen
