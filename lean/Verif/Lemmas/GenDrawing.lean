import Verif.Spec.Drawing
import Verif.Props.Gen.Bound
import Verif.Props.Gen.Python
import Verif.Props.Gen.ExplicitField

/-! # What the parts of a drawing are -/

namespace Gen
open Spec Props

theorem mapM_rel {α β : Type} {f : α → M β} {R : α → β → Prop} : ∀ {l : List α}, (∀ x ∈ l, ∃ y, f x = .ok y ∧ R x y) →
    ∃ ys, l.mapM f = .ok ys ∧ List.Forall₂ R l ys
  | [], _ => ⟨[], rfl, .nil⟩
  | x :: l, h => by
    obtain ⟨y, h1, h2⟩ := h x (by simp)
    obtain ⟨ys, h3, h4⟩ := mapM_rel (f := f) (R := R) (l := l) fun z hz => h z (List.mem_cons_of_mem _ hz)
    exact ⟨y :: ys, by rw [List.mapM_cons, h1, h3]; rfl, .cons h2 h4⟩

/-! ## Texts -/

theorem pathWith_id {p : Path} (h : ∀ k ∈ p, '.' ∉ k) : pathWith p = idText p := by
  unfold pathWith pathText idText
  induction p with
  | nil => rfl
  | cons k p ih =>
    simp only [List.flatMap_cons, List.map_append, List.map_cons, if_true]
    rw [ih fun x hx => h x (by simp [hx])]
    congr 2
    conv_rhs => rw [← List.map_id k]
    apply List.map_congr_left
    intro c hc
    rw [if_neg]
    · rfl
    · rintro rfl; exact h k (by simp) hc

theorem idText_append (p q : Path) : idText (p ++ q) = idText p ++ idText q := by simp [idText]

theorem isGroup_iff {g : Tree} : g.kind.isBound = true ↔ IsGroup g := by
  unfold IsGroup
  cases hgk : g.kind with
  | resource k o m => cases k <;> simp [Kind.isBound]
  | _ => simp [Kind.isBound]

theorem isGroup_iff' {g : Tree} : g.kind.isBoundResource = true ↔ IsGroup g := by
  unfold IsGroup
  cases hgk : g.kind with
  | resource k o m => cases k <;> simp [Kind.isBoundResource]
  | _ => simp [Kind.isBoundResource]

theorem basic_label (p : Path) (b : BasicName) : dotTypeLabel p b.text = b.text := by
  have h1 : fieldTypeText b.text = b.text := by cases b <;> decide
  have h2 : ∀ q : Path, withoutPrefix (pathText q) b.text = b.text := by
    intro q
    cases q with
    | nil => unfold withoutPrefix; simp [pathText]
    | cons k q =>
      unfold withoutPrefix
      rw [if_neg]
      simp only [pathText, List.flatMap_cons]
      cases b <;> simp [BasicName.text, List.isPrefixOf]
  unfold dotTypeLabel
  rw [h1, h2]
  cases b <;> decide

section
variable {t : Tree} (hc : Compiled t)
include hc

theorem Compiled.pathWith {p : Path} {n : Tree} (hn : t.descend p = some n) : Gen.pathWith p = idText p := pathWith_id (descend_nodot hc.lk.good hn)

/-! ## Groups -/

theorem Compiled.archiveOf {p : Path} {r : Tree} (hr : t.descend p = some r) (hk : r.kind.isResource = true) :
    ∃ a ar, p = a ++ [r.name] ∧ t.descend a = some ar ∧ ar.kind = .archive ∧ r ∈ ar.children := by
  rcases List.eq_nil_or_concat p with rfl | ⟨a, k, rfl⟩
  · simp only [Tree.descend, Option.some.injEq] at hr
    subst hr
    rw [hc.rootKind] at hk; cases hk
  · rw [List.concat_eq_append] at hr ⊢
    obtain ⟨ar, h1, h2, _, h3⟩ := hc.parents a k r hr
    have := descend_last hr
    exact ⟨a, ar, by rw [this], h1, h3 hk, h2⟩

theorem Compiled.bound {p : Path} {r : Tree} (hr : t.descend p = some r) (hk : r.kind.isResource = true) :
    (∃ b, isBoundImplicitly t p = .ok b ∧ (b = true ↔ ∃ g, GroupOf t p g)) ∧
    ∃ l, bindingResourcesOrSelf t p = .ok l ∧ ∀ q, q ∈ l ↔ ShownAt t p q := by
  obtain ⟨a, ar, rfl, ha, hak, hm⟩ := hc.archiveOf hr hk
  have hl := hc.lk
  have hgroups : groupsAround t (a ++ [r.name]) = .ok (ar.childrenLike Kind.isBound) := by
    unfold groupsAround
    simp only [hr, List.dropLast_concat, ha, hak]
    rw [if_neg (by simp [hk])]
    rfl
  have hgo : ∀ q, GroupOf t (a ++ [r.name]) q ↔ ∃ g ∈ ar.childrenLike Kind.isBound, Lists g (a ++ [r.name]) ∧ q = a ++ [g.name] := by
    intro q
    constructor
    · rintro ⟨a', k, ar', g, ref, e1, e2, e3, e4, e5, e6, e7, e8⟩
      obtain ⟨rfl, -⟩ := List.append_inj' e1 rfl
      rw [ha] at e3; cases e3
      exact ⟨g, List.mem_filter.mpr ⟨e4, isGroup_iff.mpr e5⟩, ⟨ref, e6, e7, e8⟩, e2⟩
    · rintro ⟨g, hg, ⟨ref, e6, e7, e8⟩, e2⟩
      obtain ⟨e4, e5⟩ := List.mem_filter.mp hg
      exact ⟨a, r.name, ar, g, ref, rfl, e2, ha, e4, isGroup_iff.mp e5, e6, e7, e8⟩
  obtain ⟨⟨b, i1, i2⟩, l, i3, i4, i5⟩ := loops_ok hl hr (ar.childrenLike Kind.isBound)
    (fun g hg => ⟨_, descend_child hl.good ha (List.mem_filter.mp hg).1⟩)
  have hb : isBoundImplicitly t (a ++ [r.name]) = .ok b := by
    unfold isBoundImplicitly
    rw [hgroups]
    exact i1
  have hbi : b = true ↔ ∃ g, GroupOf t (a ++ [r.name]) g := by
    rw [i2]
    constructor
    · rintro ⟨g, h1, h2⟩
      exact ⟨_, (hgo _).mpr ⟨g, h1, h2, rfl⟩⟩
    · rintro ⟨q, hq⟩
      obtain ⟨g, h1, h2, _⟩ := (hgo q).mp hq
      exact ⟨g, h1, h2⟩
  refine ⟨⟨b, hb, hbi⟩, ?_⟩
  unfold bindingResourcesOrSelf bindingResources
  rw [hb, hgroups]
  simp only [bind, Except.bind, i3, pure, Except.pure, List.dropLast_concat]
  cases b with
  | true =>
    refine ⟨_, by simp; rfl, ?_⟩
    intro q
    unfold ShownAt
    rw [or_iff_left]
    · rw [hgo, List.mem_map]
      constructor
      · rintro ⟨g, h1, rfl⟩
        obtain ⟨h1, h2⟩ := (i5 g).mp h1
        exact ⟨g, h1, h2, rfl⟩
      · rintro ⟨g, h1, h2, rfl⟩
        exact ⟨g, (i5 g).mpr ⟨h1, h2⟩, rfl⟩
    · rintro ⟨_, h⟩
      obtain ⟨g, hg⟩ := hbi.mp rfl
      exact h g hg
  | false =>
    refine ⟨[a ++ [r.name]], by simp, ?_⟩
    intro q
    have hn : ∀ g, ¬ GroupOf t (a ++ [r.name]) g := by
      intro g hg
      have := hbi.mpr ⟨g, hg⟩
      cases this
    unfold ShownAt
    simp only [List.mem_singleton]
    constructor
    · rintro rfl; exact .inr ⟨rfl, hn⟩
    · rintro (h | ⟨h, _⟩)
      · exact absurd h (hn q)
      · exact h

/-- Where a resource is shown there is a resource of the same archive: itself, or a group. -/
theorem Compiled.shown {p q : Path} {r : Tree} (hr : t.descend p = some r) (hk : r.kind.isResource = true) (h : ShownAt t p q) :
    ∃ g, t.descend q = some g ∧ g.kind.isResource = true ∧ ((IsGroup g ∧ ∃ ref ∈ g.children, ref.kind.isResourceReference = true ∧ ref.target = pathText p) ∨ q = p ∧ ∀ g, ¬ GroupOf t p g) := by
  rcases h with ⟨a, k, ar, g, ref, rfl, rfl, e3, e4, e5, e6, e7, e8⟩ | ⟨rfl, h⟩
  · refine ⟨g, descend_child hc.lk.good e3 e4, ?_, .inl ⟨e5, ref, e6, resRef_of e7, e8⟩⟩
    obtain ⟨o, m, h⟩ := e5
    rw [h]; rfl
  · exact ⟨r, hr, hk, .inr ⟨rfl, h⟩⟩

/-! ## Types -/

theorem Compiled.types {r : Tree} {p : Path} (hr : t.descend p = some r) : ∀ ref ∈ referencedStructures r, ∃ n sz,
    t.find ref.target = .ok n ∧ t.descend ref.targetPath = some n ∧ n.kind = .structure sz := by
  intro ref h
  have key : ref ∈ r.children ∧ (ref.kind = .ref .builtinStructure ∨ ref.kind = .ref .structure) := by
    simp only [referencedStructures, Tree.childrenLike, List.mem_append, List.mem_filter, decide_eq_true_eq] at h
    rcases h with ⟨a, b⟩ | ⟨a, b⟩
    · exact ⟨a, .inl b⟩
    · exact ⟨a, .inr b⟩
  obtain ⟨h1, h2⟩ := key
  have hd := descend_child hc.lk.good hr h1
  rcases h2 with h2 | h2
  · obtain ⟨n, _, e2, e3, sz, e4⟩ := hc.lk.target hd h2
    exact ⟨n, sz, e3, e2, e4⟩
  · obtain ⟨n, _, e2, e3, sz, e4⟩ := hc.lk.target hd h2
    exact ⟨n, sz, e3, e2, e4⟩

omit hc in
theorem typesOf_eq (r : Tree) : typesOf r = (referencedStructures r).map Tree.targetPath := rfl

/-- The children of a group that are references to resources. -/
theorem Compiled.group_refs {g : Tree} {q : Path} (hq : t.descend q = some g) (hg : IsGroup g) :
    (g.childrenLike Kind.isResourceReference) = g.children.filter fun c => c.kind = .ref .resource := by
  obtain ⟨o, m, hk⟩ := hg
  have := hc.resource q g _ o m hq hk
  obtain ⟨n, hn⟩ := this
  unfold Tree.childrenLike
  apply List.filter_congr
  intro c hcm
  by_cases h : c.kind = .namespace
  · rw [h]; simp [Kind.isResourceReference]
  · have : c.kind ∈ childKinds g.children := by
      simp only [childKinds, List.mem_filter, List.mem_map]
      exact ⟨⟨c, hcm, rfl⟩, by simp [h]⟩
    rw [hn] at this
    rw [List.eq_of_mem_replicate this]
    simp [Kind.isResourceReference]

theorem Compiled.structures (hg : GroupsOfResources t) {depth : Nat} (hd : 2 ≤ depth) {q : Path} {g : Tree} (hq : t.descend q = some g) :
    ∃ refs, structuresOf t depth g = .ok refs ∧ TypesShown t g (refs.map Tree.targetPath) ∧
      (∀ ref ∈ refs, ∃ n sz, t.find ref.target = .ok n ∧ t.descend ref.targetPath = some n ∧ n.kind = .structure sz) ∧
      (¬ IsGroup g → refs = referencedStructures g) ∧
      ∀ ref ∈ g.children, IsGroup g → ref.kind.isResourceReference = true → ∀ m, t.descend ref.targetPath = some m → ∀ x ∈ referencedStructures m, x ∈ refs := by
  obtain ⟨d, rfl⟩ : ∃ d, depth = d + 2 := ⟨depth - 2, by omega⟩
  unfold structuresOf
  by_cases hgr : IsGroup g
  · rw [if_pos (isGroup_iff'.mpr hgr)]
    have htarget : ∀ ref ∈ g.childrenLike Kind.isResourceReference, ∃ m, t.find ref.target = .ok m ∧ t.descend ref.targetPath = some m ∧ ¬ IsGroup m := by
      intro ref href
      obtain ⟨h1, h2⟩ := List.mem_filter.mp href
      have : ∃ rk, ref.kind = .ref rk := by rcases resRef_cases h2 with h | h <;> exact ⟨_, h⟩
      obtain ⟨rk, hrk⟩ := this
      obtain ⟨m, _, e2, e3, _⟩ := hc.lk.target (descend_child hc.lk.good hq h1) hrk
      exact ⟨m, e3, e2, hg q g ref m hq hgr h1 e2⟩
    obtain ⟨parts, h1, h2⟩ := mapM_rel (f := fun ref : Tree => do structuresOf t (d + 1) (← t.find ref.target))
      (R := fun ref part => ∃ m, t.descend ref.targetPath = some m ∧ part = referencedStructures m) fun ref href => by
        obtain ⟨m, e1, e2, e3⟩ := htarget ref href
        refine ⟨referencedStructures m, ?_, m, e2, rfl⟩
        rw [e1]
        simp only [bind, Except.bind]
        unfold structuresOf
        rw [if_neg (fun h => e3 (isGroup_iff'.mp h))]
        rfl
    have h1' : (g.childrenLike Kind.isResourceReference).mapM (fun ref : Tree => do structuresOf t (d + 1) (← t.find ref.target)) = .ok parts := h1
    refine ⟨parts.flatten, by rw [h1']; rfl, ?_, ?_, fun h => absurd hgr h, ?_⟩
    · rw [hc.group_refs hq hgr] at h2
      have : ∃ ms, List.Forall₂ (fun ref m => t.descend ref.targetPath = some m) (g.children.filter fun c => c.kind = .ref .resource) ms ∧
          parts.flatten.map Tree.targetPath = ms.flatMap typesOf := by
        clear h1 h1' htarget
        generalize (g.children.filter fun c => c.kind = .ref .resource) = l at h2
        induction h2 with
        | nil => exact ⟨[], .nil, rfl⟩
        | cons h _ ih =>
          obtain ⟨ms, i1, i2⟩ := ih
          obtain ⟨m, e1, rfl⟩ := h
          exact ⟨m :: ms, .cons e1 i1, by rw [List.flatten_cons, List.map_append, i2, List.flatMap_cons, typesOf_eq]⟩
      obtain ⟨ms, i1, i2⟩ := this
      rw [i2]
      exact .group hgr i1
    · intro ref href
      obtain ⟨part, hp, hr⟩ := List.mem_flatten.mp href
      obtain ⟨x, hx, m, e1, rfl⟩ := forall₂_mem_right h2 hp
      exact hc.types e1 ref hr
    · intro ref href _ hk m hm x hx
      obtain ⟨part, hp, m', e1, rfl⟩ := forall₂_left h2 (List.mem_filter.mpr ⟨href, hk⟩)
      rw [hm] at e1; cases e1
      exact List.mem_flatten.mpr ⟨_, hp, hx⟩
  · rw [if_neg fun h => hgr (isGroup_iff'.mp h)]
    refine ⟨_, rfl, ?_, hc.types hq, fun _ => rfl, fun _ _ h => absurd h hgr⟩
    rw [← typesOf_eq]
    exact .single hgr

/-! ## Tables -/

theorem Compiled.typeLabel {s q : Path} {n er m : Tree} {sz : Option Nat} {w : Option Nat} {b : BasicType} {k : Text} (hn : t.descend s = some n)
    (hnk : n.kind = .structure sz) (her : t.descend q = some er) (hek : er.kind = .ref (.enumeration w)) (hm : t.descend er.targetPath = some m)
    (hmk : m.kind = .enumeration b) : TypeLabel s er.targetPath (dotTypeLabel (s ++ [k]) er.name) := by
  have hname := hc.enumName her hek
  obtain ⟨m', ht, _, _, _⟩ := hc.lk.target her hek
  have hlab : dotTypeLabel (s ++ [k]) er.name = withoutPrefix ['.'] (withoutPrefix (pathText s.dropLast) (pathText er.targetPath)) := by
    unfold dotTypeLabel
    rw [List.dropLast_concat, hname, ht]
  have hdot : ∀ p : Path, p ≠ [] → '.' :: withoutPrefix ['.'] (pathText p) = pathText p := by
    intro p hp
    cases p with
    | nil => exact absurd rfl hp
    | cons a p => simp [withoutPrefix, pathText, List.isPrefixOf]
  rw [hlab]
  constructor
  · intro rest hr
    have hne : rest ≠ [] := by
      rintro rfl
      rw [List.append_nil] at hr
      rcases List.eq_nil_or_concat s with rfl | ⟨a, x, rfl⟩
      · simp only [Tree.descend, Option.some.injEq] at hn
        subst hn
        rw [hc.rootKind] at hnk; cases hnk
      · rw [List.concat_eq_append] at hn hr
        obtain ⟨ns, h1, _, h3, _⟩ := hc.parents a x n hn
        rw [List.dropLast_concat] at hr
        rw [hr, h1] at hm
        cases hm
        have := h3 (by rw [hnk]; rfl)
        rw [hmk] at this
        cases this
    have : withoutPrefix (pathText s.dropLast) (pathText er.targetPath) = pathText rest := by
      have e : pathText er.targetPath = pathText s.dropLast ++ pathText rest := by
        rw [hr]; simp [pathText]
      unfold withoutPrefix
      rw [if_pos (by rw [List.isPrefixOf_iff_prefix, e]; exact List.prefix_append _ _), e]
      simp
    rw [this, hdot _ hne]
  · intro h
    have : withoutPrefix (pathText s.dropLast) (pathText er.targetPath) = pathText er.targetPath := by
      unfold withoutPrefix
      rw [if_neg (by rw [List.isPrefixOf_iff_prefix]; exact h)]
    rw [this, hdot]
    intro h0
    rw [h0] at hm
    simp only [Tree.descend, Option.some.injEq] at hm
    subst hm
    rw [hc.rootKind] at hmk; cases hmk

theorem Compiled.table {p : Path} {r ref n : Tree} {sz : Option Nat} (hp : t.descend p = some r) (h1 : t.find ref.target = .ok n)
    (h2 : t.descend ref.targetPath = some n) (h3 : n.kind = .structure sz) :
    ∃ x, dotTable t p ref = .ok x ∧ TableOf t p ref.targetPath x := by
  unfold dotTable
  obtain ⟨rows, e1, e2⟩ := mapM_rel (f := dotRow p ref.targetPath) (R := RowOf t p ref.targetPath) (l := n.fields) fun f hf => by
    obtain ⟨hfm, hfk⟩ := List.mem_filter.mp hf
    have hfd := descend_child hc.lk.good h2 hfm
    obtain ⟨ty, rg, o, hk⟩ : ∃ ty rg o, f.kind = .field ty rg o := by
      cases hk : f.kind <;> rw [hk] at hfk <;> simp_all [Kind.isField]
    have hport : "port_".toList ++ (Gen.pathWith p ++ Gen.pathWith (ref.targetPath ++ [f.name])) = "port_".toList ++ idText p ++ idText ref.targetPath ++ '_' :: f.name := by
      rw [hc.pathWith hp, hc.pathWith hfd, idText_append]
      simp [idText]
    unfold dotRow
    rw [hk]
    rcases hc.typed _ f ty rg o hfd hk with ⟨b, rfl⟩ | ⟨er, e1, w, m, b, e2, e3, e4, rfl⟩
    · refine ⟨_, rfl, hport, rfl, _, rg, o, hk, .inl ⟨b, rfl, basic_label _ _, rfl⟩⟩
    · exact ⟨_, rfl, hport, rfl, _, rg, o, hk, .inr ⟨_, b, er, m, rfl, e1, e3, e4, hc.typeLabel h2 h3 (descend_child hc.lk.good hfd e1) e2 e3 e4, rfl⟩⟩
  have e1' : n.fields.mapM (dotRow p ref.targetPath) = .ok rows := e1
  rw [h1]
  simp only [bind, Except.bind, e1', pure, Except.pure]
  exact ⟨_, rfl, n, sz, rows, h2, h3, by rw [hc.pathWith hp, hc.pathWith h2], e2⟩

end

end Gen
