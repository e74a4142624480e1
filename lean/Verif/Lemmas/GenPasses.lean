import Verif.Lemmas.GenShape

/-! # Passes that change attributes only -/

namespace Gen
open Spec

theorem iter_descend {t : Tree} (hg : Good t) {p : Path} {n : Tree} : (p, n) ∈ t.iter [] ↔ t.descend p = some n := by
  rw [iter_iff]
  constructor
  · rintro ⟨pos, h1, rfl⟩; exact descend_namesAt hg h1
  · intro h; obtain ⟨pos, h1, h2⟩ := descend_treeAt h; exact ⟨pos, h1, h2⟩

theorem mem_nodesLike {t : Tree} (hg : Good t) {P : Kind → Bool} {p : Path} {n : Tree} :
    (p, n) ∈ t.nodesLike P ↔ t.descend p = some n ∧ P n.kind = true := by
  simp only [Tree.nodesLike, List.mem_filter, iter_descend hg]

theorem descend_good {t n : Tree} (hg : Good t) {p : Path} (h : t.descend p = some n) : Good n := by
  obtain ⟨pos, h1, _⟩ := descend_treeAt h; exact treeAt_good hg h1

theorem descend_concat {t : Tree} {p q : Path} : t.descend (p ++ q) = (t.descend p).bind (·.descend q) := by
  induction p generalizing t with
  | nil => rfl
  | cons k p ih =>
    simp only [List.cons_append, Tree.descend]
    cases t.child k with
    | none => rfl
    | some c => exact ih

theorem descend_child {t n c : Tree} (hg : Good t) {p : Path} (h : t.descend p = some n) (hc : c ∈ n.children) :
    t.descend (p ++ [c.name]) = some c := by
  rw [descend_concat, h]
  simp only [Option.bind_some, Tree.descend]
  rw [child_of_mem (descend_good hg h).nodup hc]

theorem descend_parent {t n : Tree} {p : Path} {k : Text} (h : t.descend (p ++ [k]) = some n) :
    ∃ m, t.descend p = some m ∧ n ∈ m.children ∧ n.name = k := by
  rw [descend_concat] at h
  obtain ⟨m, hm, h⟩ := Option.bind_eq_some_iff.mp h
  simp only [Tree.descend] at h
  cases hc : m.child k with
  | none => rw [hc] at h; cases h
  | some c =>
    rw [hc] at h; cases h
    exact ⟨m, hm, child_some hc⟩

theorem descend_name {t n : Tree} {p : Path} {k : Text} (h : t.descend (p ++ [k]) = some n) : n.name = k := by
  obtain ⟨_, _, _, h⟩ := descend_parent h; exact h

/-! ## The same tree up to attributes -/

/-- The class of a node without the attributes that are computed. -/
def Kind.blank : Kind → Kind
  | .field _ r _ => .field .none r none
  | .structure _ => .structure none
  | .resource k o _ => .resource k o none
  | k => k

/-- Without the type of fields. -/
def Kind.untyped : Kind → Kind
  | .field _ r o => .field .none r o
  | k => k

/-- Without offsets and sizes. -/
def Kind.unsized : Kind → Kind
  | .field t r _ => .field t r none
  | .structure _ => .structure none
  | k => k

/-- Without maximal sizes. -/
def Kind.unlimited : Kind → Kind
  | .resource k o _ => .resource k o none
  | k => k

theorem blank_untyped (k : Kind) : k.untyped.blank = k.blank := by cases k <;> rfl
theorem blank_unsized (k : Kind) : k.unsized.blank = k.blank := by cases k <;> rfl
theorem blank_unlimited (k : Kind) : k.unlimited.blank = k.blank := by cases k <;> rfl

/-- Name, class and names of the children of the node at a path. -/
def skel (b : Kind → Kind) (t : Tree) (q : Path) : Option (Text × Kind × List Text) :=
  (t.descend q).map fun n => (n.name, b n.kind, n.children.map Tree.name)

/-- The same tree, but only `b` of the classes. -/
def SameBy (b : Kind → Kind) (t t' : Tree) : Prop := ∀ q, skel b t' q = skel b t q

abbrev Same := SameBy Kind.blank

theorem SameBy.refl {b : Kind → Kind} (t : Tree) : SameBy b t t := fun _ => rfl
theorem SameBy.trans {f : Kind → Kind} {a b c : Tree} (h : SameBy f a b) (h' : SameBy f b c) : SameBy f a c := fun q => (h' q).trans (h q)
theorem SameBy.symm {f : Kind → Kind} {a b : Tree} (h : SameBy f a b) : SameBy f b a := fun q => (h q).symm

theorem SameBy.mono {f g : Kind → Kind} (hfg : ∀ k, g (f k) = g k) {a b : Tree} (h : SameBy f a b) : SameBy g a b := by
  intro q
  have := congrArg (Option.map fun x : Text × Kind × List Text => (x.1, g x.2.1, x.2.2)) (h q)
  simpa only [skel, Option.map_map, Function.comp_def, hfg] using this

theorem SameBy.node {b : Kind → Kind} {t t' : Tree} (h : SameBy b t t') {q : Path} {n : Tree} (hn : t.descend q = some n) :
    ∃ n', t'.descend q = some n' ∧ n'.name = n.name ∧ b n'.kind = b n.kind ∧
      n'.children.map Tree.name = n.children.map Tree.name := by
  have := h q
  simp only [skel, hn, Option.map_some] at this
  obtain ⟨n', h1, h2⟩ := Option.map_eq_some_iff.mp this
  simp only [Prod.mk.injEq] at h2
  exact ⟨n', h1, h2⟩

theorem SameBy.none {b : Kind → Kind} {t t' : Tree} (h : SameBy b t t') {q : Path} : t'.descend q = none ↔ t.descend q = none := by
  have := congrArg Option.isSome (h q)
  simp only [skel, Option.isSome_map] at this
  cases h1 : t.descend q <;> cases h2 : t'.descend q <;> simp_all

/-- The class of the node at a path. -/
def kindAt (t : Tree) (q : Path) : Option Kind := (t.descend q).map Tree.kind

theorem kindAt_some {t : Tree} {q : Path} {k : Kind} : kindAt t q = some k ↔ ∃ n, t.descend q = some n ∧ n.kind = k := by
  simp [kindAt]

/-- Children correspond to each other. -/
theorem SameBy.child {b : Kind → Kind} {t t' : Tree} (h : SameBy b t t') {q : Path} {n n' c' : Tree}
    (hn : t.descend q = some n) (hn' : t'.descend q = some n') (hg' : Good t') (hc : c' ∈ n'.children) :
    ∃ c ∈ n.children, c.name = c'.name ∧ b c.kind = b c'.kind ∧ t.descend (q ++ [c'.name]) = some c ∧
      t'.descend (q ++ [c'.name]) = some c' := by
  have h1 := descend_child hg' hn' hc
  obtain ⟨c, g1, g2, g3, _⟩ := h.symm.node h1
  obtain ⟨m, m1, m2, _⟩ := descend_parent g1
  rw [hn] at m1; cases m1
  exact ⟨c, m2, g2, g3, g1, h1⟩

theorem setKind_spec {k : Kind} {p : Path} : ∀ {t : Tree}, Good t → Good (t.setKind k p) ∧ (t.setKind k p).name = t.name ∧
    ∀ q, (((t.setKind k p).descend q).map fun n => (n.name, n.kind, n.children.map Tree.name)) =
      ((t.descend q).map fun n => (n.name, if q = p then k else n.kind, n.children.map Tree.name)) := by
  induction p with
  | nil =>
    intro t hg
    cases t with
    | mk n k0 cs =>
      refine ⟨?_, rfl, ?_⟩
      · cases hg with
        | mk a b c => exact .mk a b c
      · intro q
        cases q with
        | nil => simp [Tree.setKind, Tree.descend, Tree.name, Tree.kind, Tree.children]
        | cons j q => simp [Tree.setKind, Tree.descend, Tree.child, Tree.children]
  | cons key ks ih =>
    intro t hg
    simp only [Tree.setKind]
    cases hc : t.child key with
    | none =>
      refine ⟨hg, rfl, ?_⟩
      intro q
      by_cases hq : q = key :: ks
      · subst hq; simp [Tree.descend, hc]
      · simp [hq]
    | some c =>
      obtain ⟨i1, i2, i3⟩ := ih (hg.children c (child_some hc).1)
      have hcn := (child_some hc).2
      refine ⟨good_setChild hg i1, setChild_name _ _, ?_⟩
      intro q
      cases q with
      | nil =>
        simp only [Tree.descend, Option.map_some, Option.some.injEq, Prod.mk.injEq, setChild_name, setChild_kind, true_and]
        refine ⟨by simp, ?_⟩
        cases t with
        | mk n k0 cs =>
          simp only [Tree.setChild, Tree.children, List.map_map]
          apply List.map_congr_left
          intro d hd
          simp only [Function.comp]
          split
          · rename_i he; rw [he]
          · rfl
      | cons j q =>
        simp only [Tree.descend]
        rw [child_setChild hc (i2.trans hcn)]
        by_cases hj : j = key
        · subst hj
          rw [hc]
          simp only [if_true]
          rw [i3 q]
          simp
        · rw [if_neg hj]
          have : ¬ (j :: q = key :: ks) := fun h => hj (by cases h; rfl)
          simp [this]

theorem setKind_same {b : Kind → Kind} {k k0 : Kind} {p : Path} {t : Tree} (hg : Good t) (h0 : kindAt t p = some k0) (hb : b k = b k0) :
    SameBy b t (t.setKind k p) := by
  intro q
  have := (setKind_spec (k := k) (p := p) hg).2.2 q
  have h2 := congrArg (Option.map fun x : Text × Kind × List Text => (x.1, b x.2.1, x.2.2)) this
  simp only [Option.map_map, Function.comp_def] at h2
  rw [skel, skel, h2]
  cases hq : t.descend q with
  | none => rfl
  | some n =>
    simp only [Option.map_some, Option.some.injEq, Prod.mk.injEq, true_and, and_true]
    split
    · rename_i he
      subst he
      rw [kindAt, hq] at h0
      simp only [Option.map_some, Option.some.injEq] at h0
      rw [hb, h0]
    · rfl

theorem setKind_kindAt {k : Kind} {p : Path} {t : Tree} (hg : Good t) (hp : (t.descend p).isSome) (q : Path) :
    kindAt (t.setKind k p) q = if q = p then some k else kindAt t q := by
  have := (setKind_spec (k := k) (p := p) hg).2.2 q
  have h2 := congrArg (Option.map fun x : Text × Kind × List Text => x.2.1) this
  simp only [Option.map_map, Function.comp_def] at h2
  rw [kindAt, kindAt, h2]
  split
  · rename_i he
    subst he
    obtain ⟨n, hn⟩ := Option.isSome_iff_exists.mp hp
    rw [hn]; rfl
  · rfl

/-! ## Lookups -/

theorem find_path {t : Tree} (hn : t.name = []) {q : Path} (hq : ∀ k ∈ q, '.' ∉ k) {n : Tree} :
    t.find (pathText q) = .ok n ↔ t.descend q = some n := by
  unfold Tree.find
  rw [splitDot_pathText hq]
  simp only [hn, ne_eq, not_true, if_false]
  cases t.descend q <;> simp [throw, throwThe, MonadExceptOf.throw, pure, Except.pure]

/-- The reference points to the node at this path. -/
theorem targetPath_of {r : Tree} {q : Path} (hq : ∀ k ∈ q, '.' ∉ k) (h : r.target = pathText q) : r.targetPath = q := by
  rw [Tree.targetPath, h, splitDot_pathText hq]; rfl

/-! ## Appending leaves to several nodes -/

theorem mkRef_eq (k : RefKind) (n : Text) : mkRef k n = .ok (.mk (referencify n) (.ref k) []) := by
  unfold mkRef Tree.create
  rw [if_neg (referencify_nodot n), if_neg (by simp [referencify])]
  rfl

theorem created_map_ok {ds es : List Tree} (h : Created (ds.map Except.ok) es) : es = ds := by
  induction ds generalizing es with
  | nil => cases h; rfl
  | cons d ds ih =>
    simp only [List.map_cons] at h
    generalize hx : (Except.ok d : M Tree) = x at h
    cases h with
    | cons h1 h2 =>
      rw [← hx] at h1; cases h1
      rw [ih h2]

theorem insertEach_appends {ds : List Tree} : Appends (fun n => insertEach n (ds.map Except.ok)) ds := by
  intro n n' h
  obtain ⟨es, h1, rfl⟩ := insertEach_ok h
  rw [created_map_ok h1]

theorem grows_modifyAt {f : Tree → M Tree} {ds : List Tree} (hf : Appends f ds) {p : Path} : ∀ {t t' : Tree}, Good t →
    t.modifyAt f p = .ok t' →
    Grows (fun q _ ext => ext = if q = p then ds.map fun c => (c.name, c.kind) else []) t t' := by
  induction p with
  | nil =>
    intro t t' hg h
    rw [hf t t' h]
    exact grows_append (by simp) (by simp)
  | cons k ks ih =>
    intro t t' hg h
    simp only [Tree.modifyAt] at h
    cases hc : t.child k with
    | none => rw [hc] at h; cases h
    | some c =>
      rw [hc] at h
      obtain ⟨c', h1, h⟩ := bind_ok h
      cases h
      refine grows_setChild hg.nodup hc (ih (hg.children c (child_some hc).1) h1) ?_ ?_ ?_
      · simp
      · intro q kd ext he; simpa using he
      · intro j q kd hj; simp [hj]

/-- Where the nodes of the changed tree come from. -/
theorem modifyAt_nodes {f : Tree → M Tree} {ds : List Tree} (hf : Appends f ds) {p : Path} : ∀ {t t' : Tree},
    t.modifyAt f p = .ok t' → ∀ {q : Path} {n' : Tree}, t'.descend q = some n' →
      (∃ n, t.descend q = some n ∧ n'.kind = n.kind) ∨ ∃ d ∈ ds, ∃ q', q = p ++ d.name :: q' ∧ d.descend q' = some n' := by
  induction p with
  | nil =>
    intro t t' h q n' hq
    rw [hf t t' h] at hq
    cases t with
    | mk tn tk tcs =>
    cases q with
    | nil => simp only [Tree.descend, Option.some.injEq] at hq; subst hq; exact .inl ⟨_, rfl, rfl⟩
    | cons j q =>
      simp only [Tree.descend, Tree.child, Tree.children, List.find?_append] at hq
      cases hc : tcs.find? fun c => decide (c.name = j) with
      | some c =>
        rw [hc] at hq
        exact .inl ⟨n', by simp only [Tree.descend, Tree.child, Tree.children, hc]; exact hq, rfl⟩
      | none =>
        rw [hc] at hq
        simp only [Option.none_or] at hq
        cases hd : ds.find? fun c => decide (c.name = j) with
        | none => rw [hd] at hq; cases hq
        | some d =>
          rw [hd] at hq
          have h1 := List.mem_of_find?_eq_some hd
          have h2 := List.find?_some hd
          simp only [decide_eq_true_eq] at h2
          exact .inr ⟨d, h1, q, by simp [h2], hq⟩
  | cons k ks ih =>
    intro t t' h q n' hq
    simp only [Tree.modifyAt] at h
    cases hc : t.child k with
    | none => rw [hc] at h; cases h
    | some c =>
      rw [hc] at h
      obtain ⟨c', h1, h⟩ := bind_ok h
      cases h
      have hsame := modifyAt_kind (f := f) (fun n n' hh => by rw [hf n n' hh]; exact ⟨rfl, rfl⟩) h1
      cases q with
      | nil =>
        simp only [Tree.descend, Option.some.injEq] at hq; subst hq
        exact .inl ⟨t, rfl, setChild_kind _ _⟩
      | cons j q =>
        simp only [Tree.descend] at hq
        rw [child_setChild hc (hsame.2.trans (child_some hc).2)] at hq
        by_cases hj : j = k
        · subst hj
          rw [if_pos rfl] at hq
          rcases ih h1 hq with ⟨n, g1, g2⟩ | ⟨d, g1, q', g2, g3⟩
          · exact .inl ⟨n, by simp only [Tree.descend, hc]; exact g1, g2⟩
          · exact .inr ⟨d, g1, q', by simp [g2], g3⟩
        · rw [if_neg hj] at hq
          exact .inl ⟨n', by simp only [Tree.descend]; exact hq, rfl⟩

/-- Appending to several nodes, one after the other. -/
theorem foldlM_modifyAt {f : Tree → M Tree} {ds : List Tree} (hf : Appends f ds) (hd : ∀ d ∈ ds, Good d ∧ d.children = [])
    {l : List Path} : ∀ {t t' : Tree}, l.Nodup → Good t → (∀ n n', Good n → f n = .ok n' → Good n') →
    l.foldlM (fun r a => r.modifyAt f a) t = .ok t' →
    Good t' ∧ t'.name = t.name ∧ Grows (fun q _ ext => ext = if q ∈ l then ds.map fun c => (c.name, c.kind) else []) t t' ∧
    ∀ q n', t'.descend q = some n' → (∃ n, t.descend q = some n ∧ n'.kind = n.kind) ∨ (∃ a ∈ l, ∃ d ∈ ds, q = a ++ [d.name] ∧ n'.name = d.name ∧ n'.kind = d.kind) := by
  induction l with
  | nil =>
    intro t t' _ hg _ h
    simp only [List.foldlM_nil, pure, Except.pure, Except.ok.injEq] at h
    subst h
    exact ⟨hg, rfl, grows_refl (by simp), fun q n' hq => .inl ⟨n', hq, rfl⟩⟩
  | cons a l ih =>
    intro t t' hnd hg hgood h
    simp only [List.foldlM_cons] at h
    obtain ⟨t1, h1, h⟩ := bind_ok h
    have hg1 : Good t1 := good_modifyAt hgood _ _ _ hg h1
    have hn1 := (modifyAt_kind (f := f) (fun n n' hh => by rw [hf n n' hh]; exact ⟨rfl, rfl⟩) h1).2
    obtain ⟨i1, i2, i3, i4⟩ := ih (List.nodup_cons.mp hnd).2 hg1 hgood h
    have hgr := grows_modifyAt hf hg h1
    refine ⟨i1, i2.trans hn1, ?_, ?_⟩
    · intro q n hq
      obtain ⟨n1, e1, a1, a2, a3, a4, a5⟩ := hgr q n hq
      obtain ⟨n2, e2, b1, b2, b3, b4, b5⟩ := i3 q n1 a1
      refine ⟨n2, e1 ++ e2, b1, b2.trans a2, b3.trans a3, by rw [b4, a4, List.append_assoc], ?_⟩
      subst a5; subst b5
      by_cases hqa : q = a
      · subst hqa
        simp [(List.nodup_cons.mp hnd).1]
      · simp [hqa]
    · intro q n' hq
      rcases i4 q n' hq with ⟨n, g1, g2⟩ | ⟨b, hb, d, hdm, g1, g2⟩
      · rcases modifyAt_nodes hf h1 g1 with ⟨m, m1, m2⟩ | ⟨d, hdm, q', m1, m2⟩
        · exact .inl ⟨m, m1, g2.trans m2⟩
        · right
          have hq' : q' = [] := by
            cases q' with
            | nil => rfl
            | cons j q' =>
              simp only [Tree.descend, Tree.child, (hd d hdm).2, List.find?_nil] at m2; cases m2
          subst hq'
          simp only [Tree.descend, Option.some.injEq] at m2
          subst m2
          obtain ⟨n2, e2, b1, b2, b3, b4, b5⟩ := i3 q d g1
          rw [hq] at b1; cases b1
          exact ⟨a, by simp, d, hdm, m1, b2, b3⟩
      · exact .inr ⟨b, by simp [hb], d, hdm, g1, g2⟩

/-! ## Every node is visited once -/

theorem iter_nodup (t : Tree) : Good t → ∀ pre, ((t.iter pre).map (·.1)).Nodup := by
  induction t using Tree.induct with
  | h n k cs ih =>
    intro hg pre
    have hl : ∀ (ds : List Tree), (∀ d ∈ ds, d ∈ cs) → (ds.map Tree.name).Nodup → ((iterList pre ds).map (·.1)).Nodup := by
      intro ds
      induction ds with
      | nil => simp [iterList]
      | cons d ds ihd =>
        intro hm hnd
        simp only [iterList, List.map_append]
        simp only [List.map_cons, List.nodup_cons] at hnd
        rw [List.nodup_append]
        refine ⟨ih d (hm d (by simp)) (hg.children d (hm d (by simp))) _, ihd (fun x hx => hm x (by simp [hx])) hnd.2, ?_⟩
        intro a ha b hb hab
        subst hab
        obtain ⟨⟨p, x⟩, hx, rfl⟩ := List.mem_map.mp ha
        obtain ⟨⟨p', y⟩, hy, hpp⟩ := List.mem_map.mp hb
        simp only at hpp
        subst hpp
        obtain ⟨pos, _, e1⟩ := mem_iter hx
        obtain ⟨i, c, pos', h1, _, e2⟩ := mem_iterList hy
        rw [e1] at e2
        simp only [List.append_assoc, List.singleton_append, List.append_cancel_left_eq, List.cons.injEq] at e2
        exact hnd.1 (List.mem_map.mpr ⟨c, List.mem_of_getElem? h1, e2.1.symm⟩)
    simp only [Tree.iter, List.map_cons, List.nodup_cons]
    refine ⟨?_, hl cs (fun _ h => h) hg.nodup⟩
    intro hmem
    obtain ⟨⟨p, x⟩, hx, hp⟩ := List.mem_map.mp hmem
    obtain ⟨i, c, pos, _, _, e⟩ := mem_iterList hx
    simp only at hp
    rw [hp] at e
    have := congrArg List.length e
    simp at this

theorem nodesLike_nodup {t : Tree} (hg : Good t) (P : Kind → Bool) : ((t.nodesLike P).map (·.1)).Nodup :=
  (iter_nodup t hg []).sublist (List.Sublist.map _ List.filter_sublist)

end Gen
