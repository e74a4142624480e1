import Verif.Lemmas.GenAgainMerge

/-! # What is like an accepted schema is accepted (for C106) -/

namespace Gen
open Spec Props

theorem fits_notRef {rk : RefKind} {k : Kind} (h : KindFits rk k) : (∀ r, k ≠ .ref r) ∧ k ≠ .explicitReference ∧ k ≠ .root ∧ k ≠ .namespace := by
  cases rk <;> simp only [KindFits] at h <;> obtain h := h <;>
    first
    | (subst h; exact ⟨fun _ => by simp, by simp, by simp, by simp⟩)
    | (obtain ⟨_, rfl⟩ := h; exact ⟨fun _ => by simp, by simp, by simp, by simp⟩)
    | (obtain ⟨_, _, rfl⟩ := h; exact ⟨fun _ => by simp, by simp, by simp, by simp⟩)
    | (obtain ⟨_, _, _, rfl⟩ := h; exact ⟨fun _ => by simp, by simp, by simp, by simp⟩)

theorem gist_notRef {k k' : Kind} (h : k.gist = k'.gist) (hk : ∀ r, k ≠ .ref r) : ∀ r, k' ≠ .ref r := by
  rintro r rfl
  obtain ⟨rk', e, _⟩ := gist_ref h
  exact hk _ e

theorem gist_explicit {k k' : Kind} (h : k.gist = k'.gist) : k = .explicitReference ↔ k' = .explicitReference := by
  constructor
  · rintro rfl; exact gist_plain h.symm rfl
  · rintro rfl; exact gist_plain h rfl

/-! ## Counterparts -/

/-- The tree of a stored schema, before names are resolved. -/
structure AgainRoot (t : Tree) (q : Path) (root : Tree) : Prop where
  good : Good root
  named : WellNamed root
  name : root.name = []
  kind : root.kind = .root
  shaped : Shaped root
  like : Like root t
  defs : ∀ p m, Reachable (depChildren t) q p → t.descend p = some m → ¬ InBuiltin p → Spec.Kind.isDefinition m.kind = true →
    ∃ d, root.descend p = some d ∧ d.kind.gist = m.kind.gist ∧ Full d m
  reach : ∀ p n c rk, root.descend p = some n → c ∈ n.children → c.kind = .ref rk → rk ≠ .builtinStructure →
    ∃ a, Reachable (depChildren t) q a ∧ (a <+: p.dropLast ∨ a = p ∧ n.kind ≠ .explicitReference)
  index : ∀ p n c, root.descend p = some n → c ∈ n.children → c.kind = .ref .builtinStructure →
    ∃ m, root.descend c.targetPath = some m ∧ (∀ rk, m.kind ≠ .ref rk) ∧ m.kind ≠ .explicitReference
  types : ∀ p r m, root.descend p = some r → r.kind.isResource = true → t.descend p = some m → ∀ x ∈ m.children, x.kind = .ref .structure → x ∈ r.children

theorem named_leaf {root : Tree} (hw : WellNamed root) {p : Path} {n : Tree} {rk : RefKind} (hn : root.descend p = some n) (hk : n.kind = .ref rk) : n.children = [] := by
  have := wellNamed_descend hw hn
  cases this with
  | ref => rfl
  | node _ h _ => exact absurd hk (h _)

theorem like_counterpart {t root : Tree} (hc : Compiled t) (hf : Flat t) (hw : WellNamed root) (hlk : Like root t) {p : Path} : ∀ {n : Tree}, root.descend p = some n → (∀ rk, n.kind ≠ .ref rk) →
    ∃ p' m, t.descend p' = some m ∧ Like n m ∧ (n.kind ≠ .explicitReference → p' = p) ∧ p'.dropLast = p.dropLast := by
  induction p using List.reverseRecOn with
  | nil =>
    intro n hn _
    simp only [Tree.descend, Option.some.injEq] at hn
    subst hn
    exact ⟨[], t, rfl, hlk, fun _ => rfl, rfl⟩
  | append_singleton p k ih =>
    intro n hn hk
    obtain ⟨x, x1, x2, x3⟩ := descend_parent hn
    have hx : ∀ rk, x.kind ≠ .ref rk := by
      intro rk hxk
      rw [named_leaf hw x1 hxk] at x2; cases x2
    obtain ⟨p', m, m1, m2, m3, m4⟩ := ih x1 hx
    obtain ⟨d, d1, d2, d3⟩ := m2.child x2
    have hxe : x.kind ≠ .explicitReference := by
      intro he
      obtain ⟨a, b, c, e1, e2, e3, e4⟩ := hc.explicitChildren hf m1 ((gist_explicit m2.kind).mp he)
      rw [e1] at d1
      simp only [List.mem_cons, List.not_mem_nil, or_false] at d1
      have := d3.kind
      rcases d1 with rfl | rfl | rfl
      · rw [e2] at this; obtain ⟨_, e, _⟩ := gist_ref this; exact hk _ e
      · rw [e3] at this; obtain ⟨_, e, _⟩ := gist_ref this; exact hk _ e
      · rw [e4] at this; obtain ⟨_, e, _⟩ := gist_ref this; exact hk _ e
    have := m3 hxe
    subst this
    refine ⟨p' ++ [d.name], d, hc.child m1 d1, d3, fun hne => ?_, by simp⟩
    rw [← x3, d2.resolve_left hne]

section
variable {t root : Tree} (hc : Compiled t) (hf : Flat t) {q : Path} (hr : AgainRoot t q root)
include hc hf hr

theorem AgainRoot.leaf {p : Path} {n : Tree} {rk : RefKind} (hn : root.descend p = some n) (hk : n.kind = .ref rk) : n.children = [] := named_leaf hr.named hn hk

theorem AgainRoot.counterpart {p : Path} {n : Tree} (hn : root.descend p = some n) (hk : ∀ rk, n.kind ≠ .ref rk) :
    ∃ p' m, t.descend p' = some m ∧ Like n m ∧ (n.kind ≠ .explicitReference → p' = p) ∧ p'.dropLast = p.dropLast :=
  like_counterpart hc hf hr.named hr.like hn hk

/-- References. -/
theorem AgainRoot.refCounterpart {p : Path} {n c : Tree} {rk : RefKind} (hn : root.descend p = some n) (hcm : c ∈ n.children) (hk : c.kind = .ref rk) :
    ∃ p' m d rk', t.descend p' = some m ∧ Like n m ∧ (n.kind ≠ .explicitReference → p' = p) ∧ p'.dropLast = p.dropLast ∧ d ∈ m.children ∧ d.name = c.name ∧
      d.kind = .ref rk' ∧ Kind.gist (.ref rk') = Kind.gist (.ref rk) := by
  have hx : ∀ rk, n.kind ≠ .ref rk := by
    intro rk hxk
    rw [hr.leaf hc hf hn hxk] at hcm; cases hcm
  obtain ⟨p', m, m1, m2, m3, m4⟩ := hr.counterpart hc hf hn hx
  obtain ⟨d, d1, d2, d3⟩ := m2.child hcm
  have := d3.kind
  rw [hk] at this
  obtain ⟨rk', e1, e2⟩ := gist_ref this.symm
  refine ⟨p', m, d, rk', m1, m2, m3, m4, d1, (d2.resolve_left (by rw [hk]; simp)).symm, e1, e2⟩

theorem AgainRoot.plain {p : Path} {n : Tree} (hn : root.descend p = some n) (hk : ∀ rk, n.kind ≠ .ref rk) (he : n.kind ≠ .explicitReference) :
    ∃ m, t.descend p = some m ∧ Like n m := by
  obtain ⟨p', m, m1, m2, m3, m4⟩ := hr.counterpart hc hf hn hk
  rw [m3 he] at m1
  exact ⟨m, m1, m2⟩

end

theorem target_of_name {a b : Tree} (h : a.name = b.name) : a.target = b.target ∧ a.targetPath = b.targetPath := by
  unfold Tree.targetPath Tree.target
  rw [h]; exact ⟨rfl, rfl⟩

theorem similar_type {rk rk' : RefKind} (h : Kind.gist (.ref rk) = Kind.gist (.ref rk')) : rk.isType = rk'.isType := by
  cases rk <;> cases rk' <;> simp_all [Kind.gist, RefKind.isType]

/-- Everything below what is reachable is reachable. -/
theorem reachable_below {t : Tree} (hl : Lk t) {a q : Path} (ha : Reachable (depChildren t) q a) {s : Path} :
    ∀ {n : Tree}, t.descend (a ++ s) = some n → (∀ rk, n.kind ≠ .ref rk) → Reachable (depChildren t) q (a ++ s) := by
  induction s using List.reverseRecOn with
  | nil => intro n _ _; rwa [List.append_nil]
  | append_singleton s k ih =>
    intro n hn hk
    rw [← List.append_assoc] at hn ⊢
    obtain ⟨x, x1, x2, x3⟩ := descend_parent hn
    have hx : ∀ rk, x.kind ≠ .ref rk := by
      intro rk hxk
      rw [hl.leaf _ _ _ x1 hxk] at x2; cases x2
    refine reach_step (ih x1 hx) ?_
    unfold depChildren
    rw [x1]
    simp only [List.mem_append, List.mem_map]
    refine .inl ⟨n, List.mem_filter.mpr ⟨x2, ?_⟩, by rw [x3]⟩
    cases hnk : n.kind <;> first | rfl | (exact absurd hnk (hk _))

theorem type_definition {rk : RefKind} {k : Kind} (h : KindFits rk k) (ht : rk.isType = true) : Spec.Kind.isDefinition k = true := by
  cases rk <;> simp only [KindFits] at h <;> first | (cases ht; done) | skip
  all_goals
    first
    | (subst h; rfl)
    | (obtain ⟨_, rfl⟩ := h; rfl)
    | (obtain ⟨_, _, rfl⟩ := h; rfl)

theorem fieldRef_owner {k : Kind} {ks : List Kind} (h : ChildrenOk k ks) (hm : .ref .field ∈ ks) : k = .explicitReference := by
  cases k with
  | explicitReference => rfl
  | field ty rg o =>
    exfalso
    cases ty with
    | basic b => have := h _ hm; cases this
    | _ =>
      obtain ⟨cs, w, rfl, h2⟩ := h
      simp only [List.mem_append, List.mem_singleton, reduceCtorEq, Kind.ref.injEq, or_false] at hm
      have := h2 _ hm; cases this
  | resource rk o m =>
    exfalso
    cases rk <;> simp only [ChildrenOk] at h <;> first
      | (obtain ⟨n, rfl⟩ := h; simp at hm; done)
      | (obtain ⟨n, m, b, rfl⟩ := h; simp at hm; done)
  | root => exfalso; simp only [ChildrenOk] at h; subst h; cases hm
  | constant a b => exfalso; simp only [ChildrenOk] at h; subst h; cases hm
  | enumValue a b => exfalso; simp only [ChildrenOk] at h; subst h; cases hm
  | ref a => exfalso; simp only [ChildrenOk] at h; subst h; cases hm
  | «namespace» => exfalso; have := h _ hm; cases this
  | enumeration b => exfalso; have := h _ hm; cases this
  | «structure» sz => exfalso; have := h _ hm; cases this
  | archive => exfalso; have := h _ hm; cases this

theorem member_plain {root n c : Tree} {p : Path} (hs : Shaped root) (hn : root.descend p = some n) (hk : (∃ sz, n.kind = .structure sz) ∨ n.kind = .archive)
    (hc : c ∈ n.children) : (∀ rk, c.kind ≠ .ref rk) ∧ c.kind ≠ .explicitReference := by
  have h := (shaped_descend hs hn).kinds
  by_cases hns : c.kind = .namespace
  · rw [hns]; exact ⟨fun _ => by simp, by simp⟩
  have hm := childKinds_mem hc hns
  rcases hk with ⟨sz, hk⟩ | hk <;> rw [hk] at h <;> have := h _ hm <;> cases hck : c.kind <;> rw [hck] at this <;>
    first | (cases this; done) | exact ⟨fun _ => by simp, by simp⟩

theorem AgainRoot.closed {s : Text} {t root : Tree} (h : Compile s (.ok t)) (hf : Flat t) (hb : NoBuiltin t) {q : Path} (hr : AgainRoot t q root)
    (hres : ResourcesWithin t q) {p : Path} {n c : Tree} {rk : RefKind} (hn : root.descend p = some n) (hcm : c ∈ n.children) (hk : c.kind = .ref rk) :
    ∃ m, root.descend c.targetPath = some m ∧ (∀ rk, m.kind ≠ .ref rk) ∧ m.kind ≠ .explicitReference := by
  have hc := compile_compiled h
  by_cases hbi : rk = .builtinStructure
  · subst hbi; exact hr.index p n c hn hcm hk
  obtain ⟨p', m, d, rk', m1, m2, m3, m4, d1, d2, d3, d4⟩ := hr.refCounterpart hc hf hn hcm hk
  have hbi' : rk' ≠ .builtinStructure := by
    rintro rfl
    apply hbi
    cases rk <;> simp_all [Kind.gist]
  have hmr : ∀ rk, m.kind ≠ .ref rk := by
    intro r hmk
    rw [hc.lk.leaf _ _ _ m1 hmk] at d1; cases d1
  have hreach : Reachable (depChildren t) q p' := by
    obtain ⟨a, a1, a2⟩ := hr.reach p n c rk hn hcm hk hbi
    rcases a2 with a2 | ⟨rfl, a3⟩
    · rw [← m4] at a2
      obtain ⟨u, hu⟩ := a2.trans (List.dropLast_prefix p')
      rw [← hu] at m1 ⊢
      exact reachable_below hc.lk a1 m1 hmr
    · rw [m3 a3]; exact a1
  have hdd := hc.child m1 d1
  obtain ⟨e1, e2⟩ := target_of_name d2
  obtain ⟨x, x1, x2, _, x4⟩ := hc.lk.target hdd d3
  have hno := hb _ _ _ hdd d3 hbi'
  rw [← e2]
  have hstep : ∀ r ∈ m.children, ∀ rr : RefKind, r.kind = .ref rr → rr.isType = true → Reachable (depChildren t) q r.targetPath := by
    intro r hrm rr hrk hty
    refine reach_step hreach ?_
    unfold depChildren
    rw [m1]
    simp only [List.mem_append, List.mem_map]
    exact .inr ⟨r, List.mem_filter.mpr ⟨hrm, by rw [hrk]; exact hty⟩, rfl⟩
  have hnin : ∀ {u : Path}, "_builtin".toList ∉ u → ¬ InBuiltin u := fun hu hi => hu (List.mem_of_mem_dropLast hi)
  by_cases hty : rk'.isType = true
  · obtain ⟨y, y1, y2, _⟩ := hr.defs _ x (hstep d d1 rk' d3 hty) x2 (hnin hno) (type_definition x4 hty)
    obtain ⟨g1, g2, _⟩ := fits_notRef (gist_fits y2 x4)
    exact ⟨y, y1, g1, g2⟩
  · have hcases : rk' = .field ∨ (Kind.ref rk').isResourceReference = true := by
      cases rk' <;> simp_all [RefKind.isType, Kind.isResourceReference]
    rcases hcases with rfl | hrr
    · -- the field of a structure
      have hne : rk = .field := by cases rk <;> simp_all [Kind.gist]
      subst hne
      have hne : n.kind = .explicitReference := fieldRef_owner (shaped_descend hr.shaped hn).kinds (by
        have := childKinds_mem hcm (by rw [hk]; simp)
        rwa [hk] at this)
      have hme := (gist_explicit m2.kind).mp hne
      obtain ⟨u, v, w, f1, _, f3, f4⟩ := hc.explicitChildren hf m1 hme
      have hwm : w ∈ m.children := by rw [f1]; simp
      obtain ⟨st, sz, fc, ty, rg, o, g1, g2, g3, g4, g5⟩ := C105_field_of_structure h hf m1 hme hwm f4 d1 d3
      have hnow := hb _ _ _ (hc.child m1 hwm) f4 (by simp)
      obtain ⟨y, y1, y2, y3⟩ := hr.defs _ st (hstep w hwm _ f4 rfl) g1 (hnin hnow) (by rw [g2]; rfl)
      obtain ⟨z, z1, z2, _⟩ := y3 fc g3 (.inl (by rw [g4]; rfl))
      rw [g2] at y2
      refine ⟨z, ?_, member_plain hr.shaped y1 (.inl (gist_structure y2)) z1⟩
      rw [g5, ← z2]
      exact descend_child hr.good y1 z1
    · -- a resource
      have hrx : x.kind.isResource = true := by
        cases rk' <;> first | (cases hrr; done) | skip
        · obtain ⟨_, _, _, e⟩ := x4; rw [e]; rfl
        · obtain ⟨_, _, e⟩ := x4; rw [e]; rfl
      have hra := hres p' m d hreach m1 d1 (by rw [d3]; exact hrr)
      have hne : d.targetPath ≠ [] := by
        intro e
        rw [e] at x2
        simp only [Tree.descend, Option.some.injEq] at x2
        subst x2
        exact (fits_notRef x4).2.2.1 hc.rootKind
      obtain ⟨a, k, hak⟩ : ∃ a k, d.targetPath = a ++ [k] := ⟨_, _, (List.dropLast_append_getLast hne).symm⟩
      rw [hak] at x2 hra hno ⊢
      rw [List.dropLast_concat] at hra
      obtain ⟨A, A1, A2, _, A3⟩ := hc.parents a k x x2
      obtain ⟨A', B1, B2, B3⟩ := descend_parent x2
      rw [A1] at B1; cases B1
      have hA := A3 hrx
      obtain ⟨y, y1, y2, y3⟩ := hr.defs a A hra A1 (hnin fun hm => hno (List.mem_append_left _ hm)) (by rw [hA]; rfl)
      obtain ⟨z, z1, z2, _⟩ := y3 x A2 (.inr hrx)
      rw [hA] at y2
      refine ⟨z, ?_, member_plain hr.shaped y1 (.inr (gist_plain y2 rfl)) z1⟩
      rw [← B3, ← z2]
      exact descend_child hr.good y1 z1

/-! ## Names -/

theorem refs_same {root : Tree} (hg : Good root) (hw : WellNamed root) {p : Path} {n a b : Tree} {ra rb : RefKind} (hn : root.descend p = some n) (ha : a ∈ n.children)
    (hb : b ∈ n.children) (hak : a.kind = .ref ra) (hbk : b.kind = .ref rb) (ht : a.target = b.target) : a = b := by
  have wa := wellNamed_descend hw (descend_child hg hn ha)
  have wb := wellNamed_descend hw (descend_child hg hn hb)
  have ga := descend_good hg (descend_child hg hn ha)
  have gb := descend_good hg (descend_child hg hn hb)
  have hname : a.name = b.name := by
    cases wa with
    | node _ h _ => exact absurd hak (h _)
    | @ref ba _ =>
      cases wb with
      | node _ h _ => exact absurd hbk (h _)
      | @ref bb _ =>
        simp only [Tree.target, Tree.name] at ht ⊢
        have da : '.' ∉ ba := fun hm => ga.name (List.mem_cons_of_mem _ hm)
        have db : '.' ∉ bb := fun hm => gb.name (List.mem_cons_of_mem _ hm)
        rw [← referencify_dereferencify da, ← referencify_dereferencify db, ht]
  have h1 := descend_child hg hn ha
  have h2 := descend_child hg hn hb
  rw [hname, h2] at h1
  cases h1; rfl

section
variable {s : Text} {t root : Tree} (h : Compile s (.ok t)) (hf : Flat t) (hb : NoBuiltin t) {q : Path} (hr : AgainRoot t q root) (hres : ResourcesWithin t q)
include h hf hb hr hres

/-- Where a reference leads. -/
theorem AgainRoot.leads {p : Path} {n c : Tree} {rk : RefKind} (hn : root.descend p = some n) (hcm : c ∈ n.children) (hk : c.kind = .ref rk) :
    ∃ m x, c.target = pathText c.targetPath ∧ c.targetPath ≠ [] ∧ root.descend c.targetPath = some m ∧ t.descend c.targetPath = some x ∧ Like m x ∧
      root.find c.target = .ok m ∧ t.find c.target = .ok x ∧ KindFits rk m.kind ∧ m.kind ≠ .explicitReference := by
  have hc := compile_compiled h
  obtain ⟨m, m1, m2, m3⟩ := hr.closed h hf hb hres hn hcm hk
  obtain ⟨x, x1, x2⟩ := hr.plain hc hf m1 m2 m3
  obtain ⟨p', m', d, rk', g1, _, _, _, d1, d2, d3, d4⟩ := hr.refCounterpart hc hf hn hcm hk
  obtain ⟨e1, e2⟩ := target_of_name d2
  obtain ⟨y, y1, y2, y3, y4⟩ := hc.lk.target (hc.child g1 d1) d3
  rw [e2] at y1 y2
  rw [e1] at y1 y3
  rw [x1] at y2; cases y2
  refine ⟨m, x, y1, ?_, m1, x1, x2, ?_, y3, gist_fits x2.kind (fits_similar d4 y4), m3⟩
  · intro e
    rw [e] at x1
    simp only [Tree.descend, Option.some.injEq] at x1
    subst x1
    exact (fits_notRef y4).2.2.1 hc.rootKind
  · rw [y1]
    exact (find_path hr.name (descend_nodot hr.good m1)).mpr m1

theorem AgainRoot.namesOk : NamesOk root := by
  constructor
  · intro p n ref rk hn href hk
    obtain ⟨m, x, l1, l2, l3, _, _, _, _, l7, _⟩ := hr.leads h hf hb hres hn href hk
    refine ⟨ref.targetPath, m, ?_, l3, l7⟩
    have := Means.absolute (root := root) (p := p) ⟨m, l3⟩ l2
    rwa [← l1] at this
  · intro p n a b ra rb u hn ha hb' hak hbk hma hmb
    obtain ⟨m, x, l1, l2, l3, _⟩ := hr.leads h hf hb hres hn ha hak
    obtain ⟨m', x', l1', l2', l3', _⟩ := hr.leads h hf hb hres hn hb' hbk
    have ea : a.targetPath = u := by
      refine means_unique hr.good ?_ hma
      have := Means.absolute (root := root) (p := p) ⟨m, l3⟩ l2
      rwa [← l1] at this
    have eb : b.targetPath = u := by
      refine means_unique hr.good ?_ hmb
      have := Means.absolute (root := root) (p := p) ⟨m', l3'⟩ l2'
      rwa [← l1'] at this
    exact refs_same hr.good hr.named hn ha hb' hak hbk (by rw [l1, l1', ea, eb])

/-- All references have full names. -/
theorem AgainRoot.qualified {p : Path} {n : Tree} {rk : RefKind} (hn : root.descend p = some n) (hk : n.kind = .ref rk) : isQualified n.name = true := by
  cases p using List.reverseRecOn with
  | nil => simp only [Tree.descend, Option.some.injEq] at hn; subst hn; rw [hr.kind] at hk; cases hk
  | append_singleton p k =>
    obtain ⟨x, x1, x2, x3⟩ := descend_parent hn
    obtain ⟨_, _, l1, l2, _⟩ := hr.leads h hf hb hres x1 x2 hk
    have wa := wellNamed_descend hr.named hn
    have ga := descend_good hr.good hn
    cases wa with
    | node _ h _ => exact absurd hk (h _)
    | @ref ba _ =>
      have da : '.' ∉ ba := fun hm => ga.name (List.mem_cons_of_mem _ hm)
      have := referencify_dereferencify da
      generalize hT : (Tree.mk ('@' :: ba) (Kind.ref _) []).targetPath = T at l1 l2
      simp only [Tree.target, Tree.name] at l1
      rw [l1] at this
      obtain ⟨a, T, rfl⟩ := List.exists_cons_of_ne_nil l2
      simp only [Tree.name]
      rw [← this]
      simp [pathText, referencify, isQualified]

end

/-- Nothing is renamed if all references have full names. -/
theorem resolveTree_qualified {root : Tree} (c : Tree) : ∀ {p : Path} {sib : List Text} {c' : Tree}, Good c →
    (∀ q n rk, c.descend q = some n → n.kind = .ref rk → isQualified n.name = true) → resolveTree root p sib c = .ok c' → c' = c := by
  induction c using Tree.induct with
  | h n k cs ih =>
    intro p sib c' hg hq h
    obtain ⟨n', cs', rfl, hl, hname⟩ := resolveTree_ok h
    obtain ⟨cs'', he, hlen, hel⟩ := resolveList_ok hl
    simp only [List.nil_append] at he
    subst he
    have e1 : n' = n := by
      cases k with
      | ref rk =>
        have hqn := hq [] _ rk rfl rfl
        simp only [Tree.name] at hqn
        simp only [NewName] at hname
        unfold resolveRef at hname
        obtain ⟨a, h1, h2⟩ := bind_ok hname
        have : a = n := by
          unfold resolveName at h1
          simp only [hqn, if_true] at h1
          split at h1
          · simp only [pure, Except.pure, Except.ok.injEq] at h1; exact h1.symm
          · cases h1
        subst this
        simp only [ne_eq, not_true_eq_false, false_and, if_false] at h2
        obtain ⟨b, _, h3⟩ := bind_ok h2
        split at h3
        · simp only [pure, Except.pure, Except.ok.injEq] at h3; exact h3.symm
        · cases h3
      | _ => simpa [NewName] using hname
    have e2 : cs' = cs := by
      refine List.ext_getElem? fun i => ?_
      by_cases hi : i < cs.length
      · have hi' : i < cs'.length := hlen ▸ hi
        rw [List.getElem?_eq_getElem hi, List.getElem?_eq_getElem hi']
        congr 1
        have hm : cs[i] ∈ cs := List.getElem_mem hi
        refine ih _ hm (hg.children _ hm) (fun u x rk hu hx => ?_) (hel i _ _ (List.getElem?_eq_getElem hi) (List.getElem?_eq_getElem hi'))
        refine hq (cs[i].name :: u) x rk ?_ hx
        simp only [Tree.descend, child_of_mem hg.nodup hm]
        exact hu
      · rw [List.getElem?_eq_none (by omega), List.getElem?_eq_none (by omega)]
    rw [e1, e2]

theorem resolve_qualified {root r : Tree} (hg : Good root) (hk : ∀ rk, root.kind ≠ .ref rk)
    (hq : ∀ q n rk, root.descend q = some n → n.kind = .ref rk → isQualified n.name = true) (h : resolveReferences root = .ok r) : r = root := by
  obtain ⟨cs', rfl, hl⟩ := resolve_tree h hk
  obtain ⟨cs'', he, hlen, hel⟩ := resolveList_ok hl
  simp only [List.nil_append] at he
  subst he
  have e2 : cs' = root.children := by
    refine List.ext_getElem? fun i => ?_
    by_cases hi : i < root.children.length
    · have hi' : i < cs'.length := hlen ▸ hi
      rw [List.getElem?_eq_getElem hi, List.getElem?_eq_getElem hi']
      congr 1
      have hm : root.children[i] ∈ root.children := List.getElem_mem hi
      refine resolveTree_qualified _ (hg.children _ hm) (fun u x rk hu hx => ?_) (hel i _ _ (List.getElem?_eq_getElem hi) (List.getElem?_eq_getElem hi'))
      refine hq (root.children[i].name :: u) x rk ?_ hx
      simp only [Tree.descend, child_of_mem hg.nodup hm]
      exact hu
    · rw [List.getElem?_eq_none (by omega), List.getElem?_eq_none (by omega)]
  rw [e2]
  cases root; rfl

/-! ## Well-formedness -/

theorem compiled_ranges {blocks : List PBlock} (hb : ∀ b ∈ blocks, PlainNames b) {t : Tree} (h : BuildAst blocks (.ok t)) : RangesOk t ∧ RangeUseOk t := by
  obtain ⟨s, _⟩ := buildAst_stages h
  obtain ⟨hl, hsh⟩ := buildResolved_linked hb s.h1
  have hlc := s.linkedC hb
  have x := ext_constants hl s.h2
  obtain ⟨z1, z2, _⟩ := s.sizedSpec hb
  obtain ⟨m1, m2, _⟩ := s.maxSpec hb
  have x2 : Ext s.resolved t := ext_raw x (s.lkT hb) (((sameBy_typed hlc.lk s.h4).trans (sameBy_of (fun _ _ => raw_unsized) z2)).trans
    (sameBy_of (fun _ _ => raw_unlimited) m2))
  have hw := (C103_accepted_iff hb s.h1).mp ⟨t, h⟩
  exact ⟨x2.ranges.mp hw.ranges, x2.rangeUse.mp hw.rangeUse⟩

theorem structure_notRef {n : Tree} {root : Tree} {p : Path} {t : Tree} {q : Path} (hc : Compiled t) (hf : Flat t) (hr : AgainRoot t q root)
    (hn : root.descend p = some n) {c : Tree} (hcm : c ∈ n.children) : ∀ rk, n.kind ≠ .ref rk := by
  intro rk hxk
  rw [hr.leaf hc hf hn hxk] at hcm; cases hcm

section
variable {s : Text} {t root : Tree} (h : Compile s (.ok t)) (hf : Flat t) (hb : NoBuiltin t) {q : Path} (hr : AgainRoot t q root) (hres : ResourcesWithin t q)
include h hf hr

theorem AgainRoot.explicitKids {p : Path} {n c : Tree} (hn : root.descend p = some n) (hk : n.kind = .explicitReference) (hcm : c ∈ n.children) :
    ∃ rk, c.kind = .ref rk := by
  have hc := compile_compiled h
  obtain ⟨p', m, m1, m2, _⟩ := hr.counterpart hc hf hn (by rw [hk]; simp)
  obtain ⟨d, d1, _, d3⟩ := m2.child hcm
  obtain ⟨a, b, c, e1, e2, e3, e4⟩ := hc.explicitChildren hf m1 ((gist_explicit m2.kind).mp hk)
  rw [e1] at d1
  simp only [List.mem_cons, List.not_mem_nil, or_false] at d1
  have := d3.kind
  rcases d1 with rfl | rfl | rfl
  · rw [e2] at this; obtain ⟨_, e, _⟩ := gist_ref this; exact ⟨_, e⟩
  · rw [e3] at this; obtain ⟨_, e, _⟩ := gist_ref this; exact ⟨_, e⟩
  · rw [e4] at this; obtain ⟨_, e, _⟩ := gist_ref this; exact ⟨_, e⟩

theorem AgainRoot.rangesOk (hw : RangesOk t) : RangesOk root := by
  have hc := compile_compiled h
  intro p x f ty name o hx hfm hfk hne
  have hxe : x.kind ≠ .explicitReference := by
    intro he
    obtain ⟨rk, e⟩ := hr.explicitKids h hf hx he hfm
    rw [hfk] at e; cases e
  obtain ⟨m, m1, m2⟩ := hr.plain hc hf hx (structure_notRef hc hf hr hx hfm) hxe
  obtain ⟨d, d1, d2, d3⟩ := m2.child hfm
  have hdk := d3.kind
  rw [hfk] at hdk
  obtain ⟨ty', o', e1, _⟩ := gist_field hdk.symm
  obtain ⟨a1, a2⟩ := hw p m d ty' name o' m1 d1 e1 hne
  constructor
  · intro g hg gt gr go hgk
    obtain ⟨g', g1, g2, g3⟩ := m2.child hg
    have hgk' := g3.kind
    rw [hgk] at hgk'
    obtain ⟨ty2, o2, e2, _⟩ := gist_field hgk'.symm
    rw [g2.resolve_left (by rw [hgk]; simp)]
    exact a1 g' g1 _ _ _ e2
  · intro c hcm hck
    obtain ⟨c', c1, _, c3⟩ := d3.child hcm
    have := c3.kind
    rw [hck] at this
    exact a2 c' c1 (gist_ref_eq this.symm (by simp))

include hb hres

theorem AgainRoot.rangeUseOk (hw : RangeUseOk t) : RangeUseOk root := by
  have hc := compile_compiled h
  intro p r ref st k o m hrn hrk href hrefk hfind ⟨f, f1, ty, name, o2, f2, f3⟩
  obtain ⟨r', r1, r2⟩ := hr.plain hc hf hrn (by rw [hrk]; simp) (by rw [hrk]; simp)
  obtain ⟨d, d1, d2, d3⟩ := r2.child href
  obtain ⟨y, x, _, _, _, l1, l2, l3, l4, _⟩ := hr.leads h hf hb hres hrn href hrefk
  rw [hfind] at l3; cases l3
  have hk := r2.kind
  rw [hrk] at hk
  obtain ⟨o', m', e⟩ := gist_resource hk.symm
  have hdk := d3.kind
  rw [hrefk] at hdk
  obtain ⟨e1, _⟩ := target_of_name (d2.resolve_left (by rw [hrefk]; simp))
  refine hw p r' d x k o' m' r1 e d1 (gist_ref_eq hdk.symm (by simp)) (by rw [← e1]; exact l4) ?_
  obtain ⟨f', g1, _, g3⟩ := l2.child f1
  have := g3.kind
  rw [f2] at this
  obtain ⟨ty', o3, e3, _⟩ := gist_field this.symm
  exact ⟨f', g1, ty', name, o3, e3, f3⟩

theorem AgainRoot.widthsOk (hone : ∀ q f ty rg o, t.descend q = some f → f.kind = .field ty rg o → ∀ a ∈ f.children, ∀ b ∈ f.children, a.kind.isEnumerationReference = true →
        b.kind.isEnumerationReference = true → a = b) : EnumWidthsOk root := by
  have hc := compile_compiled h
  intro p f ty rg o ref w e b hfn hfk href hrefk hfind hek _
  obtain ⟨m, m1, m2⟩ := hr.plain hc hf hfn (by rw [hfk]; simp) (by rw [hfk]; simp)
  obtain ⟨en, bt, rg', o', k1, k2⟩ := m2.widths ref href w hrefk
  obtain ⟨d, d1, d2, d3⟩ := m2.child href
  have hdk := d3.kind
  rw [hrefk] at hdk
  obtain ⟨rk', k3, k4⟩ := gist_ref hdk.symm
  have hde : d.kind.isEnumerationReference = true := by
    rw [k3]; cases rk' <;> simp_all [Kind.gist, Kind.isEnumerationReference]
  rcases hc.typed p m _ _ _ m1 k1 with ⟨b', hb'⟩ | ⟨ref', r1, w', m', b', r2, r3, r4, r5⟩
  · cases hb'
  · have := hone p m _ _ _ m1 k1 d d1 ref' r1 hde (by rw [r2]; rfl)
    subst this
    obtain ⟨y, x, _, _, _, l1, l2, l3, _⟩ := hr.leads h hf hb hres hfn href hrefk
    rw [hfind] at l3; cases l3
    obtain ⟨_, e2⟩ := target_of_name (d2.resolve_left (by rw [hrefk]; simp))
    rw [e2, r3] at l1; cases l1
    have := l2.kind
    rw [hek, r4] at this
    simp only [Kind.gist, Kind.enumeration.injEq] at this
    simp only [FieldType.enum.injEq] at r5
    rw [k2, r5.2, this]

theorem AgainRoot.constantsOk : FieldConstantsOk root := by
  have hc := compile_compiled h
  intro p f ty rg o hfn hfk
  obtain ⟨m, m1, m2⟩ := hr.plain hc hf hfn (by rw [hfk]; simp) (by rw [hfk]; simp)
  have hmk := m2.kind
  rw [hfk] at hmk
  obtain ⟨ty', o', k1, k2⟩ := gist_field hmk.symm
  obtain ⟨a1, a2⟩ := hc.constants p m ty' rg o' m1 k1
  have hcp : ∀ ref ∈ f.children, ref.kind = .ref .constantValue ∨ ref.kind = .ref .invalidValue → ∃ d ∈ m.children, ref.name = d.name ∧ d.kind = ref.kind := by
    intro ref href hrefk
    obtain ⟨d, d1, d2, d3⟩ := m2.child href
    have := d3.kind
    refine ⟨d, d1, d2.resolve_left (by rcases hrefk with e | e <;> rw [e] <;> simp), ?_⟩
    rcases hrefk with e | e <;> rw [e] at this ⊢ <;> exact gist_ref_eq this.symm (by simp)
  constructor
  · intro ref href hrefk
    obtain ⟨d, d1, d2, d3⟩ := hcp ref href hrefk
    obtain ⟨n, b, ct, v, n1, n2, n3, n4, n5⟩ := a1 d d1 (by rw [d3]; exact hrefk)
    obtain ⟨rk, hrk⟩ : ∃ rk, ref.kind = .ref rk := by rcases hrefk with e | e <;> exact ⟨_, e⟩
    obtain ⟨y, x, _, _, _, _, l2, l3, l4, _⟩ := hr.leads h hf hb hres hfn href hrk
    rw [(target_of_name d2).1, n1] at l4; cases l4
    have := l2.kind
    rw [n2] at this
    exact ⟨y, b, ct, v, l3, gist_plain this rfl, (k2 b).mp n3, n4, n5⟩
  · intro a ha b hb' hak hbk
    obtain ⟨d, d1, d2, d3⟩ := hcp a ha (.inr hak)
    obtain ⟨d', d1', d2', d3'⟩ := hcp b hb' (.inr hbk)
    have := a2 d d1 d' d1' (by rw [d3, hak]) (by rw [d3', hbk])
    subst this
    exact refs_same hr.good hr.named hfn ha hb' hak hbk (target_of_name (d2.trans d2'.symm)).1

omit hb hres in
theorem AgainRoot.explicitOk (hw : ExplicitReferencesOk t) : ExplicitReferencesOk root := by
  have hc := compile_compiled h
  intro p r e ref hrn hem hek href hrefk
  have hre : r.kind ≠ .explicitReference := by
    intro he
    obtain ⟨rk, e⟩ := hr.explicitKids h hf hrn he hem
    rw [hek] at e; cases e
  obtain ⟨m, m1, m2⟩ := hr.plain hc hf hrn (structure_notRef hc hf hr hrn hem) hre
  obtain ⟨d, d1, d2, d3⟩ := m2.child hem
  obtain ⟨x, x1, x2, x3⟩ := d3.child href
  have hdk := (gist_explicit d3.kind).mp hek
  have hxk := x3.kind
  rw [hrefk] at hxk
  obtain ⟨y, y1, y2, y3⟩ := hw p m d x m1 d1 hdk x1 (gist_ref_eq hxk.symm (by simp))
  have hres : r.kind.isResource = true := by
    have hm := childKinds_mem hem (by rw [hek]; simp)
    rw [hek] at hm
    have hch := (shaped_descend hr.shaped hrn).kinds
    cases hk : r.kind with
    | resource a b c => rfl
    | field ty rg o =>
      exfalso
      rw [hk] at hch
      cases ty with
      | basic b => have := hch _ hm; cases this
      | _ =>
        obtain ⟨cs, w, e, h2⟩ := hch
        rw [e] at hm
        simp only [List.mem_append, List.mem_singleton, reduceCtorEq, or_false] at hm
        have := h2 _ hm; cases this
    | explicitReference => exact absurd hk hre
    | root => exfalso; rw [hk] at hch; simp only [ChildrenOk] at hch; rw [hch] at hm; cases hm
    | constant a b => exfalso; rw [hk] at hch; simp only [ChildrenOk] at hch; rw [hch] at hm; cases hm
    | enumValue a b => exfalso; rw [hk] at hch; simp only [ChildrenOk] at hch; rw [hch] at hm; cases hm
    | ref a => exfalso; rw [hk] at hch; simp only [ChildrenOk] at hch; rw [hch] at hm; cases hm
    | «namespace» => exfalso; rw [hk] at hch; have := hch _ hm; cases this
    | enumeration b => exfalso; rw [hk] at hch; have := hch _ hm; cases this
    | «structure» sz => exfalso; rw [hk] at hch; have := hch _ hm; cases this
    | archive => exfalso; rw [hk] at hch; have := hch _ hm; cases this
  refine ⟨y, hr.types p r m hrn hres m1 y y1 y2, y2, ?_⟩
  rw [y3]
  exact (target_of_name (x2.resolve_left (by rw [hrefk]; simp))).1.symm

/-- One step. -/
theorem AgainRoot.step {p u v : Path} (huv : DependsOn root u v) (hout : ∃ w, DependsOn root v w) {u' : Path} {n m : Tree} (hn : root.descend u = some n)
    (hm : t.descend u' = some m) (hl : Like n m) (hp : n.kind ≠ .explicitReference → u' = u) (hnr : ∀ rk, n.kind ≠ .ref rk) :
    ∃ v' n2 m2, v' ∈ depChildren t u' ∧ root.descend v = some n2 ∧ t.descend v' = some m2 ∧ Like n2 m2 ∧ (n2.kind ≠ .explicitReference → v' = v) ∧
      (∀ rk, n2.kind ≠ .ref rk) ∧ (n2.kind = .explicitReference → n.kind ≠ .explicitReference) := by
  have hc := compile_compiled h
  obtain ⟨n0, h0, hcase⟩ := huv
  rw [hn] at h0; cases h0
  rcases hcase with ⟨c, c1, c2, rfl⟩ | ⟨ref, r1, ⟨rk, r2, r3⟩, rfl⟩ | ⟨_, ⟨c, ty, w, c1, c2⟩, _⟩
  · have hne : n.kind ≠ .explicitReference := by
      intro he
      obtain ⟨rk, e⟩ := hr.explicitKids h hf hn he c1
      exact c2 _ e
    obtain ⟨d, d1, d2, d3⟩ := hl.child c1
    rw [hp hne] at hm ⊢
    refine ⟨u ++ [d.name], c, d, ?_, descend_child hr.good hn c1, hc.child hm d1, d3, fun he => by rw [d2.resolve_left he], c2, fun _ => hne⟩
    unfold depChildren
    rw [hm]
    simp only [List.mem_append, List.mem_map]
    refine .inl ⟨d, List.mem_filter.mpr ⟨d1, ?_⟩, rfl⟩
    have := gist_notRef d3.kind c2
    cases hdk : d.kind <;> first | rfl | exact absurd hdk (this _)
  · obtain ⟨y, x, _, _, l0, l1, l2, _, _, l5, l6⟩ := hr.leads h hf hb hres hn r1 r2
    obtain ⟨d, d1, d2, d3⟩ := hl.child r1
    have hdk := d3.kind
    rw [r2] at hdk
    obtain ⟨rk', e1, e2⟩ := gist_ref hdk.symm
    refine ⟨ref.targetPath, y, x, ?_, l0, l1, l2, fun _ => rfl, (fits_notRef l5).1, fun e => absurd e l6⟩
    unfold depChildren
    rw [hm]
    simp only [List.mem_append, List.mem_map]
    refine .inr ⟨d, List.mem_filter.mpr ⟨d1, ?_⟩, ?_⟩
    · rw [e1]
      show rk'.isType = true
      rw [similar_type e2]; exact r3
    · exact (target_of_name (d2.resolve_left (by rw [r2]; simp))).2.symm
  · exfalso
    obtain ⟨w', c', hc', hcase⟩ := hout
    rw [c1] at hc'; cases hc'
    have hch := (shaped_descend hr.shaped c1).kinds
    rw [c2] at hch
    have hch : childKinds c.children = [] := hch
    have hall : ∀ x ∈ c.children, x.kind = .namespace := by
      intro x hx
      by_contra hne
      have := childKinds_mem hx hne
      rw [hch] at this; cases this
    obtain ⟨x, x1, x2⟩ := hr.plain hc hf c1 (by rw [c2]; simp) (by rw [c2]; simp)
    have hxk := x2.kind
    rw [c2] at hxk
    have hxk : x.kind = .constant ty w := gist_plain hxk.symm rfl
    have hno : ∀ z ∈ c.children, False := by
      intro z hz
      obtain ⟨d, d1, _, d3⟩ := x2.child hz
      have hdk := d3.kind
      rw [hall z hz] at hdk
      have hdk : d.kind = .namespace := gist_plain hdk.symm rfl
      rcases hf _ _ d (hc.child x1 d1) hdk with e | ⟨y, y1, y2⟩
      · rw [e] at x1
        simp only [Tree.descend, Option.some.injEq] at x1
        subst x1
        rw [hc.rootKind] at hxk; cases hxk
      · rw [x1] at y1; cases y1
        rw [hxk] at y2; cases y2
    rcases hcase with ⟨z, z1, _⟩ | ⟨z, z1, _⟩ | ⟨e, _⟩
    · exact hno z z1
    · exact hno z z1
    · rw [c2] at e; cases e

theorem AgainRoot.walk {u v : Path} (huv : Relation.TransGen (DependsOn root) u v) (hout : ∃ w, DependsOn root v w) {n : Tree} (hn : root.descend u = some n)
    (he : n.kind ≠ .explicitReference) (hnr : ∀ rk, n.kind ≠ .ref rk) :
    ∃ k v' n2 m2, Walk (depChildren t) (k + 1) u v' ∧ root.descend v = some n2 ∧ t.descend v' = some m2 ∧ Like n2 m2 ∧ (n2.kind ≠ .explicitReference → v' = v) ∧
      (∀ rk, n2.kind ≠ .ref rk) := by
  have hc := compile_compiled h
  obtain ⟨m, m1, m2⟩ := hr.plain hc hf hn hnr he
  induction huv with
  | single hs =>
    obtain ⟨v', n2, m2', a1, a2, a3, a4, a5, a6, _⟩ := hr.step h hf hb hres (p := u) hs hout hn m1 m2 (fun _ => rfl) hnr
    exact ⟨0, v', n2, m2', .step (.refl _) a1, a2, a3, a4, a5, a6⟩
  | tail _ hs ih =>
    obtain ⟨k, w', n3, m3, b1, b2, b3, b4, b5, b6⟩ := ih ⟨_, hs⟩
    obtain ⟨v', n2, m2', a1, a2, a3, a4, a5, a6, _⟩ := hr.step h hf hb hres (p := u) hs hout b2 b3 b4 b5 b6
    exact ⟨k + 1, v', n2, m2', .step b1 a1, a2, a3, a4, a5, a6⟩

theorem AgainRoot.acyclic (hw : ∀ p n, t.descend p = some n → (∀ rk, n.kind ≠ .ref rk) → ¬ OnCycle (depChildren t) p) : Acyclic root := by
  have hc := compile_compiled h
  -- a cycle through something else than an explicit reference
  have key : ∀ p n, root.descend p = some n → (∀ rk, n.kind ≠ .ref rk) → n.kind ≠ .explicitReference → ¬ Relation.TransGen (DependsOn root) p p := by
    intro p n hn hnr he hcyc
    obtain ⟨w, hw1, _⟩ := Relation.TransGen.head'_iff.mp hcyc
    obtain ⟨k, v', n2, m2, a1, a2, a3, _, a5, _⟩ := hr.walk h hf hb hres hcyc ⟨w, hw1⟩ hn he hnr
    rw [hn] at a2; cases a2
    rw [a5 he] at a1
    obtain ⟨m, m1, m2⟩ := hr.plain hc hf hn hnr he
    exact hw p m m1 (gist_notRef m2.kind hnr) ⟨k, a1⟩
  intro p hcyc
  obtain ⟨w, hw1, hw2⟩ := Relation.TransGen.head'_iff.mp hcyc
  obtain ⟨n, hn, _⟩ := id hw1
  have hnr : ∀ rk, n.kind ≠ .ref rk := by
    intro rk hk
    obtain ⟨n', hn', hcase⟩ := hw1
    rw [hn] at hn'; cases hn'
    have := hr.leaf hc hf hn hk
    rw [this] at hcase
    rcases hcase with ⟨_, e, _⟩ | ⟨_, e, _⟩ | ⟨e, _⟩
    · cases e
    · cases e
    · rw [hk] at e; cases e
  by_cases he : n.kind = .explicitReference
  · -- the next node
    have hcyc2 : Relation.TransGen (DependsOn root) w w := Relation.TransGen.tail'_iff.mpr ⟨p, hw2, hw1⟩
    obtain ⟨w2, hw3, _⟩ := Relation.TransGen.head'_iff.mp hcyc2
    obtain ⟨p', m, m1, m2, m3, _⟩ := hr.counterpart hc hf hn hnr
    obtain ⟨v', n2, _, _, a2, _, _, _, a6, a7⟩ := hr.step h hf hb hres (p := p) hw1 ⟨w2, hw3⟩ hn m1 m2 m3 hnr
    exact key w n2 a2 a6 (fun e => a7 e he) hcyc2
  · exact key p n hn hnr he hcyc

end

/-- What is like an accepted schema is accepted. -/
theorem AgainRoot.accepted {s : Text} {t root : Tree} (h : Compile s (.ok t)) (hf : Flat t) (hb : NoBuiltin t) {q : Path} (hr : AgainRoot t q root)
    (hres : ResourcesWithin t q) {blocks : List PBlock} (hpl : ∀ b ∈ blocks, PlainNames b) {t0 : Tree} (ht : buildNodeTree blocks = .ok t0)
    (ha : appendBuiltins t0 = .ok root) : ∃ a, BuildAst blocks (.ok a) := by
  obtain ⟨bl, hs, hl, hba⟩ := compile_blocks h
  have hplain := fun (b : PBlock) (hb : b ∈ bl) => lexical_plain (hl b hb)
  obtain ⟨st, _⟩ := buildAst_stages hba
  refine (C103_accepted_iff_names hpl ht ha).mpr ⟨hr.namesOk h hf hb hres, fun r hrr => ?_⟩
  have := resolve_qualified hr.good (by rw [hr.kind]; simp) (fun p n rk hn hk => hr.qualified h hf hb hres hn hk) hrr
  subst this
  obtain ⟨w1, w2⟩ := compiled_ranges hplain hba
  refine ⟨hr.rangesOk h hf w1, hr.rangeUseOk h hf hb hres w2, hr.widthsOk h hf hb hres ?_, hr.acyclic h hf hb hres (fun p n hn hk => C64_acyclic hplain hba hn hk),
    hr.constantsOk h hf hb hres, hr.explicitOk h hf (C65_explicit_references hplain hba)⟩
  intro q f ty rg o hq hk a ha b hb h1 h2
  have hlen := one_enumeration st hl hq hk
  have ha' : a ∈ f.childrenLike Kind.isEnumerationReference := List.mem_filter.mpr ⟨ha, h1⟩
  have hb' : b ∈ f.childrenLike Kind.isEnumerationReference := List.mem_filter.mpr ⟨hb, h2⟩
  match hx : f.childrenLike Kind.isEnumerationReference, hlen, ha', hb' with
  | [], _, ha', _ => cases ha'
  | [x], _, ha', hb' => simp only [List.mem_singleton] at ha' hb'; rw [ha', hb']

end Gen
