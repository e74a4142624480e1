import Verif.Model.Gen.Bound
import Verif.Props.Gen.Ast

/-!
# C61: implicitly bound resources
-/

namespace Props
open Gen Spec

/-- A bound group lists the resource at `p`. -/
def Lists (group : Tree) (p : Path) : Prop :=
  ∃ ref ∈ group.children, (ref.kind = .ref .resource ∨ ref.kind = .ref .vector) ∧ ref.target = pathText p

theorem listsNode_ok {t : Tree} (hl : Lk t) {q p : Path} {g n : Tree} (hg : t.descend q = some g) (hp : t.descend p = some n) :
    ∃ b, listsNode t p g = .ok b ∧ (b = true ↔ Lists g p) := by
  have hmap : ∀ l : List Tree, (∀ c ∈ l, c ∈ g.children ∧ c.kind.isResourceReference = true) →
      l.mapM (nodeOf t) = .ok (l.map Tree.targetPath) := by
    intro l
    induction l with
    | nil => intro _; rfl
    | cons c l ih =>
      intro h
      obtain ⟨h1, h2⟩ := h c (by simp)
      have : ∃ rk, c.kind = .ref rk := by rcases resRef_cases h2 with h | h <;> exact ⟨_, h⟩
      obtain ⟨rk, hrk⟩ := this
      obtain ⟨m, _, _, h3, _⟩ := hl.target (descend_child hl.good hg h1) hrk
      rw [List.mapM_cons, ih fun x hx => h x (by simp [hx])]
      simp only [nodeOf, h3, bind, Except.bind, pure, Except.pure, List.map_cons]
  unfold listsNode
  rw [hmap (g.childrenLike Kind.isResourceReference) fun c hc => List.mem_filter.mp hc]
  refine ⟨_, rfl, ?_⟩
  simp only [List.any_map, List.any_eq_true, Tree.childrenLike, List.mem_filter, Function.comp, decide_eq_true_eq, Lists]
  constructor
  · rintro ⟨c, ⟨h1, h2⟩, h3⟩
    have hc := resRef_cases h2
    have : ∃ rk, c.kind = .ref rk := by rcases hc with h | h <;> exact ⟨_, h⟩
    obtain ⟨rk, hrk⟩ := this
    obtain ⟨m, h4, _⟩ := hl.target (descend_child hl.good hg h1) hrk
    exact ⟨c, h1, hc, by rw [h4, h3]⟩
  · rintro ⟨c, h1, h2, h3⟩
    exact ⟨c, ⟨h1, resRef_of h2⟩, targetPath_of (descend_nodot hl.good hp) h3⟩

theorem loops_ok {t : Tree} (hl : Lk t) {p : Path} {n : Tree} (hp : t.descend p = some n) : ∀ (gs : List Tree),
    (∀ g ∈ gs, ∃ q, t.descend q = some g) →
    (∃ b, anyLists t p gs = .ok b ∧ (b = true ↔ ∃ g ∈ gs, Lists g p)) ∧
    ∃ l, allLists t p gs = .ok l ∧ List.Sublist l gs ∧ ∀ g, g ∈ l ↔ g ∈ gs ∧ Lists g p := by
  intro gs
  induction gs with
  | nil => intro _; exact ⟨⟨false, rfl, by simp⟩, [], rfl, .slnil, by simp⟩
  | cons g gs ih =>
    intro h
    obtain ⟨q, hq⟩ := h g (by simp)
    obtain ⟨b, h1, h2⟩ := listsNode_ok hl hq hp
    obtain ⟨⟨b', i1, i2⟩, l, i3, i4, i5⟩ := ih fun x hx => h x (by simp [hx])
    constructor
    · unfold anyLists
      rw [h1]
      simp only [bind, Except.bind]
      cases b with
      | true => exact ⟨true, rfl, by simp only [true_iff]; exact ⟨g, by simp, h2.mp rfl⟩⟩
      | false =>
        refine ⟨b', by simpa using i1, ?_⟩
        rw [i2]
        have hng : ¬ Lists g p := fun hh => by cases h2.mpr hh
        constructor
        · rintro ⟨x, hx, hx2⟩; exact ⟨x, by simp [hx], hx2⟩
        · rintro ⟨x, hx, hx2⟩
          rcases List.mem_cons.mp hx with rfl | hx
          · exact absurd hx2 hng
          · exact ⟨x, hx, hx2⟩
    · unfold allLists
      rw [h1, i3]
      simp only [bind, Except.bind, pure, Except.pure]
      cases b with
      | true =>
        refine ⟨g :: l, by simp, i4.cons_cons g, ?_⟩
        intro x
        simp only [List.mem_cons, i5]
        constructor
        · rintro (rfl | ⟨a, b⟩)
          · exact ⟨.inl rfl, h2.mp rfl⟩
          · exact ⟨.inr a, b⟩
        · rintro ⟨rfl | a, b⟩
          · exact .inl rfl
          · exact .inr ⟨a, b⟩
      | false =>
        refine ⟨l, by simp, i4.cons g, ?_⟩
        intro x
        simp only [List.mem_cons, i5]
        have hng : ¬ Lists g p := fun hh => by cases h2.mpr hh
        constructor
        · rintro ⟨a, b⟩; exact ⟨.inr a, b⟩
        · rintro ⟨rfl | a, b⟩
          · exact absurd b hng
          · exact ⟨a, b⟩

/-- Resources of an accepted schema lie in archives. -/
theorem resource_parent {blocks : List PBlock} (hb : ∀ b ∈ blocks, PlainNames b) {t : Tree} (h : BuildAst blocks (.ok t)) {p : Path}
    {n : Tree} {k : ResKind} {o : Bool} {m : Option Nat} (hn : t.descend p = some n) (hk : n.kind = .resource k o m) :
    ∃ a ar, t.descend a = some ar ∧ ar.kind = .archive ∧ n ∈ ar.children ∧ p = a ++ [n.name] := by
  obtain ⟨s, _⟩ := buildAst_stages h
  obtain ⟨hl, hsh⟩ := s.linked hb
  obtain ⟨hlc, hgrow, hback⟩ := appendConstantRefs_spec hl s.h2
  have hsame := s.sameCT hb
  rcases List.eq_nil_or_concat p with rfl | ⟨a, key, rfl⟩
  · simp only [Tree.descend, Option.some.injEq] at hn
    subst hn
    rw [final_root s hb] at hk; cases hk
  · rw [List.concat_eq_append] at hn ⊢
    obtain ⟨ar, ha, hm, rfl⟩ := descend_parent hn
    refine ⟨a, ar, ha, ?_, hm, rfl⟩
    obtain ⟨n1, c1, _, c3, _⟩ := hsame.symm.node hn
    have hn1 : ∃ m1, n1.kind = .resource k o m1 := by
      rw [hk] at c3
      cases hc : n1.kind <;> rw [hc] at c3 <;> simp_all [Kind.blank]
    obtain ⟨m1, hn1⟩ := hn1
    rcases hback _ n1 c1 with ⟨n0, d1, d2⟩ | ⟨_, _, _, _, _, _, _, _, h3⟩
    · obtain ⟨ar0, e1, e2, e3⟩ := descend_parent d1
      obtain ⟨ar1, ext, f1, _, f3, _⟩ := hgrow a ar0 e1
      obtain ⟨ar2, g1, _, g3, _⟩ := hsame.node f1
      rw [ha] at g1; cases g1
      have hkinds := (shaped_descend hsh e1).kinds
      have hmem : n0.kind ∈ childKinds ar0.children := by
        simp only [childKinds, List.mem_filter, List.mem_map]
        exact ⟨⟨n0, e2, rfl⟩, by rw [← d2, hn1]; simp⟩
      rw [← d2, hn1] at hmem
      have har0 : ar0.kind = .archive := by
        generalize childKinds ar0.children = ks at hkinds hmem
        cases hfk : ar0.kind with
        | archive => rfl
        | resource k' o' m' =>
          exfalso
          rw [hfk] at hkinds
          cases k' <;> simp only [ChildrenOk] at hkinds
          · obtain ⟨n, rfl⟩ := hkinds; simp at hmem
          · obtain ⟨n, m, b, rfl⟩ := hkinds; simp at hmem
          · obtain ⟨n, rfl⟩ := hkinds; simp at hmem
          · obtain ⟨n, rfl⟩ := hkinds; simp at hmem
          · obtain ⟨n, rfl⟩ := hkinds; simp at hmem
          · obtain ⟨n, rfl⟩ := hkinds; simp at hmem
        | field ty rg o' =>
          exfalso
          rw [hfk] at hkinds
          cases ty <;> simp only [ChildrenOk] at hkinds
          · have := hkinds _ hmem; cases this
          · obtain ⟨cs, w, rfl, hcs⟩ := hkinds
            simp only [List.mem_append, List.mem_singleton, reduceCtorEq, or_false] at hmem
            have := hcs _ hmem; cases this
          · obtain ⟨cs, w, rfl, hcs⟩ := hkinds
            simp only [List.mem_append, List.mem_singleton, reduceCtorEq, or_false] at hmem
            have := hcs _ hmem; cases this
        | root => rw [hfk] at hkinds; simp only [ChildrenOk] at hkinds; rw [hkinds] at hmem; cases hmem
        | constant _ _ => rw [hfk] at hkinds; simp only [ChildrenOk] at hkinds; rw [hkinds] at hmem; cases hmem
        | enumValue _ _ => rw [hfk] at hkinds; simp only [ChildrenOk] at hkinds; rw [hkinds] at hmem; cases hmem
        | ref _ => rw [hfk] at hkinds; simp only [ChildrenOk] at hkinds; rw [hkinds] at hmem; cases hmem
        | explicitReference => rw [hfk] at hkinds; simp only [ChildrenOk] at hkinds; rw [hkinds] at hmem; simp at hmem
        | «namespace» => rw [hfk] at hkinds; have := hkinds _ hmem; cases this
        | enumeration _ => rw [hfk] at hkinds; have := hkinds _ hmem; cases this
        | «structure» _ => rw [hfk] at hkinds; have := hkinds _ hmem; cases this
      rw [f3, har0] at g3
      cases hc : ar.kind <;> rw [hc] at g3 <;> simp_all [Kind.blank]
    · rw [hn1] at h3; cases h3

/-- C61. For every resource of an accepted schema, `binding_resources_or_self` returns the bound groups of its archive that list
it, in the order of declaration, or the resource itself if there is none; it never raises. -/
theorem C61_binding_resources {blocks : List PBlock} (hb : ∀ b ∈ blocks, PlainNames b) {t : Tree} (h : BuildAst blocks (.ok t))
    {p : Path} {n : Tree} {k : ResKind} {o : Bool} {m : Option Nat} (hn : t.descend p = some n) (hk : n.kind = .resource k o m) :
    ∃ a ar groups, t.descend a = some ar ∧ ar.kind = .archive ∧ n ∈ ar.children ∧ p = a ++ [n.name] ∧
      List.Sublist groups ar.children ∧
      (∀ g, g ∈ groups ↔ g ∈ ar.children ∧ (∃ o m, g.kind = .resource .bound o m) ∧ Lists g p) ∧
      bindingResourcesOrSelf t p = .ok (if groups = [] then [p] else groups.map fun g => a ++ [g.name]) := by
  obtain ⟨a, ar, h1, h2, h3, rfl⟩ := resource_parent hb h hn hk
  obtain ⟨s, _⟩ := buildAst_stages h
  have hl := s.lkT hb
  have hgroups : groupsAround t (a ++ [n.name]) = .ok (ar.childrenLike Kind.isBound) := by
    unfold groupsAround
    simp only [hn, List.dropLast_concat, h1, h2]
    rw [if_neg (by simp [hk, Kind.isResource])]
    rfl
  obtain ⟨⟨b, i1, i2⟩, l, i3, i4, i5⟩ := loops_ok hl hn (ar.childrenLike Kind.isBound)
    (fun g hg => ⟨_, descend_child hl.good h1 (List.mem_filter.mp hg).1⟩)
  have hbound : ∀ g : Tree, g.kind.isBound = true ↔ ∃ o m, g.kind = .resource .bound o m := by
    intro g
    cases hgk : g.kind with
    | resource k o m => cases k <;> simp [Kind.isBound]
    | _ => simp [Kind.isBound]
  refine ⟨a, ar, l, h1, h2, h3, rfl, i4.trans List.filter_sublist, ?_, ?_⟩
  · intro g
    rw [i5, Tree.childrenLike, List.mem_filter, hbound, and_assoc]
  · unfold bindingResourcesOrSelf isBoundImplicitly bindingResources
    rw [hgroups]
    simp only [bind, Except.bind, i1, i3, pure, Except.pure, List.dropLast_concat]
    cases b with
    | true =>
      obtain ⟨g, g1, g2⟩ := i2.mp rfl
      have hne : l ≠ [] := by intro he; have := (i5 g).mpr ⟨g1, g2⟩; rw [he] at this; cases this
      simp [hne]
    | false =>
      have hnil : l = [] := by
        rw [List.eq_nil_iff_forall_not_mem]
        intro g hg
        have := i2.mpr ⟨g, (i5 g).mp hg⟩
        cases this
      simp [hnil]

/-- In the sample, `v` and `t` are bound by the group `b`; `w` is not bound. -/
example : (["v", "t", "w"].map fun r => (bindingResourcesOrSelf astSampleTree ["n".toList, "m".toList, "R".toList, r.toList]).toOption.map
    (·.map (·.map String.ofList))) = [some [["n", "m", "R", "b"]], some [["n", "m", "R", "b"]], some [["n", "m", "R", "w"]]] := by
  decide +kernel

end Props
