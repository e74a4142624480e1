import Verif.Lemmas.GenDrawing

/-!
# C108: what a drawing shows
-/

namespace Props
open Gen Spec

theorem Occurs.mono {l l' : List Dot} {x : Dot} (h : Occurs l x) (hs : ∀ y ∈ l, y ∈ l') : Occurs l' x := by
  cases h with
  | here h => exact .here (hs _ h)
  | inside h1 h2 => exact .inside (hs _ h1) h2

theorem occurs_append {l l' : List Dot} {x : Dot} : Occurs (l ++ l') x ↔ Occurs l x ∨ Occurs l' x := by
  constructor
  · intro h
    cases h with
    | here h => rcases List.mem_append.mp h with h | h; exacts [.inl (.here h), .inr (.here h)]
    | inside h1 h2 => rcases List.mem_append.mp h1 with h | h; exacts [.inl (.inside h h2), .inr (.inside h h2)]
  · rintro (h | h)
    · exact Occurs.mono h (by simp +contextual)
    · exact Occurs.mono h (by simp +contextual)

theorem Occurs.deeper {l : List Dot} {i : Text} {lab : List Text} {inner : List Dot} (h : Occurs l (.cluster i lab inner)) {x : Dot} (hx : Occurs inner x) : Occurs l x := by
  generalize he : Dot.cluster i lab inner = y at h
  induction h with
  | here h => subst he; exact .inside h hx
  | inside h1 _ ih => exact .inside h1 (ih he)

theorem Occurs.trans_inside' {l : List Dot} {i : Text} {lab : List Text} {inner : List Dot} (h : Occurs l (.cluster i lab inner)) {x : Dot} (hx : x ∈ inner) : Occurs l x :=
  Occurs.deeper h (.here hx)

theorem Occurs.trans_inside {l : List Dot} {i i' : Text} {lab lab' : List Text} {inner inner' : List Dot} (h : Occurs l (.cluster i lab inner))
    (h' : Dot.cluster i' lab' inner' ∈ inner) {x : Dot} (hx : x ∈ inner') : Occurs l x :=
  Occurs.deeper h (.inside h' (.here hx))

theorem drawNodes_mem {root : Tree} {depth : Nat} {p : Path} : ∀ {cs : List Tree} {l : List Dot}, drawNodes root depth p cs = .ok l →
    ∀ c ∈ cs, ∃ lc, drawNode root depth (p ++ [c.name]) c = .ok lc ∧ ∀ x ∈ lc, x ∈ l
  | [], _, _, _, h => by cases h
  | c :: cs, l, h, x, hx => by
    unfold drawNodes at h
    cases h1 : drawNode root depth (p ++ [c.name]) c with
    | error e => rw [h1] at h; cases h
    | ok l1 =>
      cases h2 : drawNodes root depth p cs with
      | error e => rw [h1, h2] at h; cases h
      | ok l2 =>
        rw [h1, h2] at h
        simp only [bind, Except.bind, pure, Except.pure, Except.ok.injEq] at h
        subst h
        rcases List.mem_cons.mp hx with rfl | hx
        · exact ⟨l1, h1, by simp +contextual⟩
        · obtain ⟨lc, e1, e2⟩ := drawNodes_mem h2 x hx
          exact ⟨lc, e1, fun y hy => List.mem_append_right _ (e2 y hy)⟩

section
variable {t : Tree} (hc : Compiled t) (hg : GroupsOfResources t) {depth : Nat} (hd : 2 ≤ depth)
include hc hg hd

/-- The nodes drawn for a resource. -/
theorem resource_nodes {p : Path} {r : Tree} (hr : t.descend p = some r) : ∃ refs tables types,
    structuresOf t depth r = .ok refs ∧ refs.mapM (dotTable t p) = .ok tables ∧ TypesShown t r types ∧ types = refs.map Tree.targetPath ∧
    List.Forall₂ (fun ref x => dotTable t p ref = .ok x ∧ TableOf t p ref.targetPath x) refs tables := by
  obtain ⟨refs, h1, h2, h3, _⟩ := hc.structures hg hd hr
  obtain ⟨tables, e1, e2⟩ := mapM_rel (f := dotTable t p) (R := fun ref x => dotTable t p ref = .ok x ∧ TableOf t p ref.targetPath x) (l := refs) fun ref href => by
    obtain ⟨n, sz, a1, a2, a3⟩ := h3 ref href
    obtain ⟨x, b1, b2⟩ := hc.table hr a1 a2 a3
    exact ⟨x, b1, b1, b2⟩
  exact ⟨refs, tables, _, h1, e1, h2, rfl, e2⟩

/-- What drawing a node gives, if its children can be drawn. -/
theorem draw_step {p : Path} {n : Tree} (hn : t.descend p = some n) {inner : List Dot} (hi : drawNodes t depth p n.children = .ok inner) :
    ∃ l, drawNode t depth p n = .ok l ∧
      (((n.kind = .namespace ∨ n.kind = .archive) ∧ l = [.cluster (clusterId p) [n.name] inner]) ∨
       (n.kind.isResource = true ∧ (∀ g, ¬ GroupOf t p g) ∧ ∃ refs nodes types, structuresOf t depth n = .ok refs ∧ TypesShown t n types ∧
          types = refs.map Tree.targetPath ∧ l = [.cluster (clusterId p) (resourceLabel n) (nodes ++ inner)] ∧
          (refs = [] → nodes = [.invisible (idText p)]) ∧
          (refs ≠ [] → List.Forall₂ (fun ref x => TableOf t p ref.targetPath x) refs nodes)) ∨
       ((n.kind ≠ .namespace ∧ n.kind ≠ .archive ∧ (n.kind.isResource = true → ∃ g, GroupOf t p g)) ∧ l = inner)) := by
  have hid : Gen.pathWith p = idText p := hc.pathWith hn
  have hcid : "cluster_".toList ++ Gen.pathWith p = clusterId p := congrArg ("cluster_".toList ++ ·) hid
  obtain ⟨nm, k, cs⟩ := n
  simp only [Tree.children] at hi
  cases k with
  | «namespace» =>
    refine ⟨[.cluster (clusterId p) [nm] inner], ?_, .inl ⟨.inl (by simp only [Tree.kind]), by simp only [Tree.name]⟩⟩
    unfold drawNode
    rw [hi, hcid]
    rfl
  | archive =>
    refine ⟨[.cluster (clusterId p) [nm] inner], ?_, .inl ⟨.inr (by simp only [Tree.kind]), by simp only [Tree.name]⟩⟩
    unfold drawNode
    rw [hi, hcid]
    rfl
  | resource rk o m =>
    obtain ⟨⟨b, h1, h2⟩, _⟩ := hc.bound hn rfl
    unfold drawNode
    simp only [h1, bind, Except.bind]
    cases b with
    | true => exact ⟨_, hi, .inr (.inr ⟨⟨by simp [Tree.kind], by simp [Tree.kind], fun _ => h2.mp rfl⟩, rfl⟩)⟩
    | false =>
      obtain ⟨refs, tables, types, a1, a2, a3, a4, a5⟩ := resource_nodes hc hg hd hn
      simp only [Bool.false_eq_true, if_false, a1, a2, hi, pure, Except.pure]
      refine ⟨_, rfl, .inr (.inl ⟨rfl, ?_, refs, if refs = [] then [.invisible (Gen.pathWith p)] else tables, types, rfl, a3, a4, ?_, ?_, ?_⟩)⟩
      · intro g hgo
        have := h2.mpr ⟨g, hgo⟩
        cases this
      · rw [hid]
        have hlab : dotLabel nm rk o = resourceLabel (.mk nm (.resource rk o m) cs) := by cases rk <;> rfl
        rw [hlab]
        rfl
      · intro he
        rw [if_pos he, hid]
      · intro he
        rw [if_neg he]
        exact a5.imp fun _ _ h => h.2
  | root => exact ⟨_, by unfold drawNode; exact hi, .inr (.inr ⟨by simp [Tree.kind, Kind.isResource], rfl⟩)⟩
  | constant _ _ => exact ⟨_, by unfold drawNode; exact hi, .inr (.inr ⟨by simp [Tree.kind, Kind.isResource], rfl⟩)⟩
  | enumeration _ => exact ⟨_, by unfold drawNode; exact hi, .inr (.inr ⟨by simp [Tree.kind, Kind.isResource], rfl⟩)⟩
  | enumValue _ _ => exact ⟨_, by unfold drawNode; exact hi, .inr (.inr ⟨by simp [Tree.kind, Kind.isResource], rfl⟩)⟩
  | «structure» _ => exact ⟨_, by unfold drawNode; exact hi, .inr (.inr ⟨by simp [Tree.kind, Kind.isResource], rfl⟩)⟩
  | field _ _ _ => exact ⟨_, by unfold drawNode; exact hi, .inr (.inr ⟨by simp [Tree.kind, Kind.isResource], rfl⟩)⟩
  | explicitReference => exact ⟨_, by unfold drawNode; exact hi, .inr (.inr ⟨by simp [Tree.kind, Kind.isResource], rfl⟩)⟩
  | ref _ => exact ⟨_, by unfold drawNode; exact hi, .inr (.inr ⟨by simp [Tree.kind, Kind.isResource], rfl⟩)⟩

mutual
/-- Every node can be drawn; its subgraphs are those of nodes of the tree. -/
theorem draw_total : ∀ (n : Tree) {p : Path}, t.descend p = some n → ∃ l, drawNode t depth p n = .ok l ∧
    ∀ i lab inner, Occurs l (.cluster i lab inner) → ∃ p n, t.descend p = some n ∧ i = clusterId p ∧
      (((n.kind = .namespace ∨ n.kind = .archive) ∧ lab = [n.name]) ∨
        (∃ k o m, n.kind = .resource k o m) ∧ (∀ g, ¬ GroupOf t p g) ∧ lab = resourceLabel n)
  | .mk nm k cs, p, hn => by
    obtain ⟨inner, h1, h2⟩ := draws_total cs (p := p) fun c hcm => descend_child hc.lk.good hn hcm
    obtain ⟨l, e1, e2⟩ := draw_step hc hg hd hn (inner := inner) h1
    refine ⟨l, e1, ?_⟩
    intro i lab inn ho
    rcases e2 with ⟨hk, rfl⟩ | ⟨hk, hgo, refs, nodes, types, _, _, _, rfl, f1, f2⟩ | ⟨_, rfl⟩
    · cases ho with
      | here h =>
        simp only [List.mem_singleton, Dot.cluster.injEq] at h
        obtain ⟨rfl, rfl, rfl⟩ := h
        exact ⟨p, _, hn, rfl, .inl ⟨hk, rfl⟩⟩
      | inside h h' =>
        simp only [List.mem_singleton, Dot.cluster.injEq] at h
        obtain ⟨rfl, rfl, rfl⟩ := h
        exact h2 _ _ _ h'
    · have hno : ∀ x ∈ nodes, ∀ i lab inner, x ≠ Dot.cluster i lab inner := by
        intro x hx i lab inner he
        by_cases hr : refs = []
        · rw [f1 hr] at hx
          simp only [List.mem_singleton] at hx
          rw [he] at hx; cases hx
        · obtain ⟨_, _, n, sz, rows, _, _, hx', _⟩ := forall₂_mem_right (f2 hr) hx
          rw [he] at hx'; cases hx'
      have hin : ∀ y, Occurs (nodes ++ inner) y → (∃ i lab inner, y = .cluster i lab inner) → Occurs inner y := by
        rintro y hy ⟨i, lab, inn, rfl⟩
        rcases occurs_append.mp hy with hy | hy
        · cases hy with
          | here h => exact absurd rfl (hno _ h _ _ _)
          | inside h _ => exact absurd rfl (hno _ h _ _ _)
        · exact hy
      cases ho with
      | here h =>
        simp only [List.mem_singleton, Dot.cluster.injEq] at h
        obtain ⟨rfl, rfl, rfl⟩ := h
        refine ⟨p, _, hn, rfl, .inr ⟨?_, hgo, rfl⟩⟩
        cases k with
        | resource k o m => exact ⟨k, o, m, rfl⟩
        | _ => cases hk
      | inside h h' =>
        simp only [List.mem_singleton, Dot.cluster.injEq] at h
        obtain ⟨rfl, rfl, rfl⟩ := h
        exact h2 _ _ _ (hin _ h' ⟨_, _, _, rfl⟩)
    · exact h2 _ _ _ ho
theorem draws_total : ∀ (cs : List Tree) {p : Path}, (∀ c ∈ cs, t.descend (p ++ [c.name]) = some c) → ∃ l, drawNodes t depth p cs = .ok l ∧
    ∀ i lab inner, Occurs l (.cluster i lab inner) → ∃ p n, t.descend p = some n ∧ i = clusterId p ∧
      (((n.kind = .namespace ∨ n.kind = .archive) ∧ lab = [n.name]) ∨
        (∃ k o m, n.kind = .resource k o m) ∧ (∀ g, ¬ GroupOf t p g) ∧ lab = resourceLabel n)
  | [], p, _ => by
    refine ⟨[], by unfold drawNodes; rfl, ?_⟩
    intro i lab inner h
    cases h with
    | here h => cases h
    | inside h _ => cases h
  | c :: cs, p, h => by
    obtain ⟨l1, a1, a2⟩ := draw_total c (h c (by simp))
    obtain ⟨l2, b1, b2⟩ := draws_total cs fun x hx => h x (by simp [hx])
    refine ⟨l1 ++ l2, by unfold drawNodes; rw [a1, b1]; rfl, ?_⟩
    intro i lab inner ho
    rcases occurs_append.mp ho with ho | ho
    · exact a2 _ _ _ ho
    · exact b2 _ _ _ ho
end

/-- What is drawn for a node is part of the drawing. -/
theorem drawn_at {graph : List Dot} (h0 : drawNode t depth [] t = .ok graph) {p : Path} : ∀ {n : Tree}, t.descend p = some n →
    ∃ l, drawNode t depth p n = .ok l ∧ ∀ x, Occurs l x → Occurs graph x := by
  induction p using List.reverseRecOn with
  | nil =>
    intro n hn
    simp only [Tree.descend, Option.some.injEq] at hn
    subst hn
    exact ⟨graph, h0, fun _ h => h⟩
  | append_singleton p k ih =>
    intro n hn
    obtain ⟨m, hm, hmem, rfl⟩ := descend_parent hn
    obtain ⟨l, h1, h2⟩ := ih hm
    obtain ⟨inner, h3, _⟩ := draws_total hc hg hd m.children (p := p) fun c hcm => descend_child hc.lk.good hm hcm
    obtain ⟨lc, h4, h5⟩ := drawNodes_mem h3 n hmem
    refine ⟨lc, h4, fun x hx => h2 x ?_⟩
    have hx' : Occurs inner x := Occurs.mono hx h5
    obtain ⟨l', e1, e2⟩ := draw_step hc hg hd hm (inner := inner) h3
    rw [h1] at e1; cases e1
    rcases e2 with ⟨_, rfl⟩ | ⟨_, _, refs, nodes, types, _, _, _, rfl, _⟩ | ⟨_, rfl⟩
    · exact .inside (List.mem_singleton.mpr rfl) hx'
    · exact .inside (List.mem_singleton.mpr rfl) (occurs_append.mpr (.inr hx'))
    · exact hx'

/-- A resource in no group is drawn in its archive. -/
theorem drawn_resource {graph : List Dot} (h0 : drawNode t depth [] t = .ok graph) {p : Path} {r : Tree} (hr : t.descend p = some r)
    (hk : r.kind.isResource = true) (hno : ∀ g, ¬ GroupOf t p g) : ∃ a ar outer refs nodes types rest, p = a ++ [r.name] ∧ t.descend a = some ar ∧ r ∈ ar.children ∧
    Occurs graph (.cluster (clusterId a) [ar.name] outer) ∧ Dot.cluster (clusterId p) (resourceLabel r) (nodes ++ rest) ∈ outer ∧
    structuresOf t depth r = .ok refs ∧ TypesShown t r types ∧ types = refs.map Tree.targetPath ∧ (refs = [] → nodes = [.invisible (idText p)]) ∧
    (refs ≠ [] → List.Forall₂ (fun ref x => TableOf t p ref.targetPath x) refs nodes) := by
  obtain ⟨a, ar, rfl, ha, hak, hm⟩ := hc.archiveOf hr hk
  obtain ⟨l, h1, h2⟩ := drawn_at hc hg hd h0 ha
  obtain ⟨inner, h3, _⟩ := draws_total hc hg hd ar.children (p := a) fun c hcm => descend_child hc.lk.good ha hcm
  obtain ⟨l', e1, e2⟩ := draw_step hc hg hd ha (inner := inner) h3
  rw [h1] at e1; cases e1
  have hl : l = [.cluster (clusterId a) [ar.name] inner] := by
    rcases e2 with ⟨_, h⟩ | ⟨h, _⟩ | ⟨⟨_, h, _⟩, _⟩
    · exact h
    · rw [hak] at h; cases h
    · exact absurd hak h
  obtain ⟨lc, h4, h5⟩ := drawNodes_mem h3 r hm
  obtain ⟨rest, h6, _⟩ := draws_total hc hg hd r.children (p := a ++ [r.name]) fun c hcm => descend_child hc.lk.good hr hcm
  obtain ⟨lc', f1, f2⟩ := draw_step hc hg hd hr (inner := rest) h6
  rw [h4] at f1; cases f1
  rcases f2 with ⟨h, _⟩ | ⟨_, _, refs, nodes, types, g1, g2, g3, rfl, g4, g5⟩ | ⟨⟨_, _, h⟩, _⟩
  · rcases h with h | h <;> rw [h] at hk <;> cases hk
  · refine ⟨a, ar, inner, refs, nodes, types, rest, rfl, ha, hm, ?_, ?_, g1, g2, g3, g4, g5⟩
    · apply h2; rw [hl]; exact .here (List.mem_singleton.mpr rfl)
    · exact h5 _ (List.mem_singleton.mpr rfl)
  · obtain ⟨g, hgo⟩ := h hk
    exact absurd hgo (hno g)

omit hd in
/-- Where something is shown is not in a group. -/
theorem shown_not_grouped {p q : Path} {r : Tree} (hr : t.descend p = some r) (hk : r.kind.isResource = true) (h : ShownAt t p q) : ∀ g, ¬ GroupOf t q g := by
  obtain ⟨g, e1, e2, e3⟩ := hc.shown hr hk h
  rcases e3 with ⟨e3, _⟩ | ⟨rfl, e3⟩
  · rintro g' ⟨a, k, ar, g2, ref, rfl, rfl, f3, f4, f5, f6, f7, f8⟩
    have hg2 := descend_child hc.lk.good f3 f4
    have : ref.targetPath = a ++ [k] := targetPath_of (descend_nodot hc.lk.good e1) f8
    exact hg _ g2 ref g hg2 f5 f6 (by rw [this]; exact e1) e3
  · exact e3

omit hc hg hd in
theorem targets_unique {refs ms ms' : List Tree} (h : List.Forall₂ (fun ref m => t.descend ref.targetPath = some m) refs ms)
    (h' : List.Forall₂ (fun ref m => t.descend ref.targetPath = some m) refs ms') : ms = ms' := by
  induction h generalizing ms' with
  | nil => cases h'; rfl
  | cons a _ ih =>
    cases h' with
    | cons b h' =>
      rw [a] at b; cases b
      rw [ih h']

omit hc hg hd in
theorem types_unique {g : Tree} {l l' : List Path} (h : TypesShown t g l) (h' : TypesShown t g l') : l = l' := by
  cases h with
  | single h1 =>
    cases h' with
    | single _ => rfl
    | group h2 _ => exact absurd h2 h1
  | group h1 h2 =>
    cases h' with
    | single h3 => exact absurd h1 h3
    | group _ h4 =>
      congr 1
      exact targets_unique h2 h4

theorem edge_ok {s f o q : Path} {ns nf ro r : Tree} (hs : t.descend s = some ns) (hf : t.descend f = some nf) (ho : t.descend o = some ro) (hq : t.descend q = some r) :
    ∃ y, dotEdge t depth s f o q = .ok y ∧ ∀ e, EdgeOf t s f o q e ↔ e = y := by
  obtain ⟨refs, h1, h2, h3, _⟩ := hc.structures hg hd hq
  have hfind : t.find (pathText q) = .ok r := (find_path hc.lk.name (descend_nodot hc.lk.good hq)).mpr hq
  have hy : dotEdge t depth s f o q = .ok ⟨idText o ++ idText s, "port_".toList ++ idText o ++ idText f, idText q ++ idText ((refs.map Tree.targetPath).headD []), clusterId q⟩ := by
    unfold dotEdge
    rw [hfind, hc.pathWith hs, hc.pathWith hf, hc.pathWith ho, hc.pathWith hq]
    simp only [bind, Except.bind, h1]
    cases refs with
    | nil =>
      simp only [pure, Except.pure, List.map_nil, List.headD_nil, List.append_assoc]
      congr 2
      simp [idText]
    | cons ref refs =>
      obtain ⟨n, sz, a1, a2, _⟩ := h3 ref (by simp)
      simp only [refPath, a1, bind, Except.bind, pure, Except.pure, List.map_cons, List.headD_cons, hc.pathWith a2, List.append_assoc]
      rfl
  refine ⟨_, hy, ?_⟩
  intro e
  constructor
  · rintro ⟨e1, e2, e3, g, types, e4, e5, e6⟩
    rw [hq] at e4; cases e4
    rw [types_unique e5 h2] at e6
    obtain ⟨a, b, c, d⟩ := e
    simp only at e1 e2 e3 e6
    rw [e1, e2, e3, e6]
  · rintro rfl
    exact ⟨rfl, rfl, rfl, r, _, hq, h2, rfl⟩

omit hc hg hd in
theorem mapM_flat {α β : Type} {f : α → M (List β)} {P : α → β → Prop} : ∀ {l : List α}, (∀ x ∈ l, ∃ y, f x = .ok y ∧ ∀ z, z ∈ y ↔ P x z) →
    ∃ ys, l.mapM f = .ok ys ∧ ∀ z, z ∈ ys.flatten ↔ ∃ x ∈ l, P x z
  | [], _ => ⟨[], rfl, by simp⟩
  | x :: l, h => by
    obtain ⟨y, h1, h2⟩ := h x (by simp)
    obtain ⟨ys, h3, h4⟩ := mapM_flat (f := f) (P := P) (l := l) fun z hz => h z (List.mem_cons_of_mem _ hz)
    refine ⟨y :: ys, by rw [List.mapM_cons, h1, h3]; rfl, ?_⟩
    intro z
    rw [List.flatten_cons, List.mem_append, h2, h4]
    simp

omit hg hd in
/-- An explicit reference has one structure, one field and one resource. -/
theorem explicit_parts {p : Path} {e : Tree} (he : t.descend p = some e) (hk : e.kind = .explicitReference) :
    ∃ s f d ns nf nd, (∀ x ∈ e.children, x.kind = .ref .structure ↔ x = s) ∧ (∀ x ∈ e.children, x.kind = .ref .field ↔ x = f) ∧
      (∀ x ∈ e.children, (x.kind = .ref .resource ∨ x.kind = .ref .vector) ↔ x = d) ∧ s ∈ e.children ∧ f ∈ e.children ∧ d ∈ e.children ∧
      e.onlyChild (fun k => k = .ref .structure) = .ok s ∧ e.onlyChild (fun k => k = .ref .field) = .ok f ∧ e.onlyChild Kind.isResourceReference = .ok d ∧
      refPath t s = .ok s.targetPath ∧ refPath t f = .ok f.targetPath ∧ refPath t d = .ok d.targetPath ∧
      t.descend s.targetPath = some ns ∧ t.descend f.targetPath = some nf ∧ t.descend d.targetPath = some nd ∧ nd.kind.isResource = true := by
  have hch := hc.explicit p e he hk
  have honly : ∀ (P : Kind → Bool) (k : Kind), P .namespace = false → [Kind.ref .resource, .ref .field, .ref .structure].filter P = [k] →
      ∃ c ∈ e.children, c.kind = k ∧ e.onlyChild P = .ok c := by
    intro P k hns hf
    have h1 : (e.childrenLike P).map Tree.kind = [k] := by
      rw [← hf, ← hch]
      unfold Tree.childrenLike childKinds
      rw [List.filter_filter, List.filter_map, List.filter_congr]
      intro c _
      simp only [Function.comp_apply]
      by_cases hc : c.kind = .namespace
      · rw [hc]; simp [hns]
      · simp [hc]
    unfold Tree.onlyChild
    match hm : e.childrenLike P, h1 with
    | [c], h1 =>
      simp only [List.map_cons, List.map_nil, List.cons.injEq, and_true] at h1
      have : c ∈ e.childrenLike P := by rw [hm]; simp
      exact ⟨c, (List.mem_filter.mp this).1, h1, rfl⟩
  obtain ⟨s, s1, s2, s3⟩ := honly (fun k => k = .ref .structure) (.ref .structure) (by simp) (by decide)
  obtain ⟨f, f1, f2, f3⟩ := honly (fun k => k = .ref .field) (.ref .field) (by simp) (by decide)
  obtain ⟨d, d1, d2, d3⟩ := honly Kind.isResourceReference (.ref .resource) rfl (by decide)
  have htarget : ∀ {c : Tree} {rk}, c ∈ e.children → c.kind = .ref rk → refPath t c = .ok c.targetPath ∧ ∃ m, t.descend c.targetPath = some m ∧ KindFits rk m.kind := by
    intro c rk h1 h2
    obtain ⟨m, _, e2, e3, e4⟩ := hc.lk.target (descend_child hc.lk.good he h1) h2
    exact ⟨by unfold refPath; rw [e3]; rfl, m, e2, e4⟩
  obtain ⟨sp, ns, sd, _⟩ := htarget s1 s2
  obtain ⟨fp, nf, fd, _⟩ := htarget f1 f2
  obtain ⟨dp, nd, dd, df⟩ := htarget d1 d2
  refine ⟨s, f, d, ns, nf, nd, ?_, ?_, ?_, s1, f1, d1, s3, f3, d3, sp, fp, dp, sd, fd, dd, ?_⟩
  · intro x hx
    refine ⟨fun h => (onlyChild_mem s3).2.2 x hx (by simp [h]), ?_⟩
    rintro rfl; exact s2
  · intro x hx
    refine ⟨fun h => (onlyChild_mem f3).2.2 x hx (by simp [h]), ?_⟩
    rintro rfl; exact f2
  · intro x hx
    refine ⟨fun h => (onlyChild_mem d3).2.2 x hx (resRef_of h), ?_⟩
    rintro rfl; exact .inl d2
  · obtain ⟨rk, o, m, h⟩ := df
    rw [h]; rfl

/-- The edges of an explicit reference. -/
theorem reference_edges {p : Path} {r x : Tree} (hr : t.descend p = some r) (hk : r.kind.isResource = true) (hx : x ∈ r.children) (hxk : x.kind = .explicitReference) :
    ∃ l, dotReference t depth p x = .ok l ∧ ∀ e, e ∈ l ↔ ∃ s f d o q,
      ((∃ y ∈ x.children, y.kind = .ref .structure ∧ y.targetPath = s) ∧ (∃ y ∈ x.children, y.kind = .ref .field ∧ y.targetPath = f) ∧
        ∃ y ∈ x.children, (y.kind = .ref .resource ∨ y.kind = .ref .vector) ∧ y.targetPath = d) ∧
      ShownAt t p o ∧ ShownAt t d q ∧ EdgeOf t s f o q e := by
  obtain ⟨s, f, d, ns, nf, nd, s0, f0, d0, s1, f1, d1, s2, f2, d2, s3, f3, d3, s4, f4, d4, d5⟩ := explicit_parts hc (descend_child hc.lk.good hr hx) hxk
  obtain ⟨_, lo, o1, o2⟩ := hc.bound hr hk
  obtain ⟨_, lq, q1, q2⟩ := hc.bound d4 d5
  obtain ⟨ys, y1, y2⟩ := mapM_flat (f := fun o => lq.mapM (dotEdge t depth s.targetPath f.targetPath o))
    (P := fun o e => ∃ q ∈ lq, EdgeOf t s.targetPath f.targetPath o q e) (l := lo) fun o ho => by
      obtain ⟨ro, hro, _⟩ := hc.shown hr hk ((o2 o).mp ho)
      obtain ⟨l, l1, l2⟩ := mapM_rel (f := dotEdge t depth s.targetPath f.targetPath o) (R := fun q y => ∀ e, EdgeOf t s.targetPath f.targetPath o q e ↔ e = y) (l := lq) fun q hq => by
        obtain ⟨rq, hrq, _⟩ := hc.shown d4 d5 ((q2 q).mp hq)
        exact edge_ok hc hg hd s4 f4 hro hrq
      refine ⟨l, l1, ?_⟩
      intro z
      constructor
      · intro hz
        obtain ⟨q, hq, h⟩ := forall₂_mem_right l2 hz
        exact ⟨q, hq, (h z).mpr rfl⟩
      · rintro ⟨q, hq, h⟩
        obtain ⟨y, hy, hh⟩ := forall₂_left l2 hq
        rw [(hh z).mp h]; exact hy
  refine ⟨ys.flatten, ?_, ?_⟩
  · unfold dotReference
    rw [s2, f2, d2]
    simp only [bind, Except.bind, s3, f3, d3, o1, q1, y1, pure, Except.pure]
  · intro e
    rw [y2]
    constructor
    · rintro ⟨o, ho, q, hq, h⟩
      exact ⟨_, _, _, o, q, ⟨⟨s, s1, (s0 s s1).mpr rfl, rfl⟩, ⟨f, f1, (f0 f f1).mpr rfl, rfl⟩, d, d1, (d0 d d1).mpr rfl, rfl⟩, (o2 o).mp ho, (q2 q).mp hq, h⟩
    · rintro ⟨s', f', d', o, q, ⟨⟨ys, a1, a2, a3⟩, ⟨yf, b1, b2, b3⟩, yd, c1, c2, c3⟩, ho, hq, h⟩
      have e1 := (s0 ys a1).mp a2
      have e2 := (f0 yf b1).mp b2
      have e3 := (d0 yd c1).mp c2
      subst e1 e2 e3
      subst a3 b3 c3
      exact ⟨o, (o2 o).mpr ho, q, (q2 q).mpr hq, h⟩

/-- The edges of an archive. -/
theorem archive_edges {a : Path} {ar : Tree} (ha : t.descend a = some ar) : ∃ l, dotArchive t depth a = .ok l ∧ ∀ e, e ∈ l ↔ ∃ r ∈ ar.children, r.kind.isResource = true ∧
    ∃ x ∈ r.children, x.kind = .explicitReference ∧ ∃ s f d o q,
      ((∃ y ∈ x.children, y.kind = .ref .structure ∧ y.targetPath = s) ∧ (∃ y ∈ x.children, y.kind = .ref .field ∧ y.targetPath = f) ∧
        ∃ y ∈ x.children, (y.kind = .ref .resource ∨ y.kind = .ref .vector) ∧ y.targetPath = d) ∧
      ShownAt t (a ++ [r.name]) o ∧ ShownAt t d q ∧ EdgeOf t s f o q e := by
  unfold dotArchive
  rw [ha]
  simp only
  obtain ⟨ys, y1, y2⟩ := mapM_flat (f := fun r : Tree => do
      let edges ← (r.childrenLike fun k => k = .explicitReference).mapM (dotReference t depth (a ++ [r.name]))
      pure edges.flatten) (l := ar.childrenLike Kind.isResource) (P := fun r e =>
        ∃ x ∈ r.children, x.kind = .explicitReference ∧ ∃ s f d o q,
      ((∃ y ∈ x.children, y.kind = .ref .structure ∧ y.targetPath = s) ∧ (∃ y ∈ x.children, y.kind = .ref .field ∧ y.targetPath = f) ∧
        ∃ y ∈ x.children, (y.kind = .ref .resource ∨ y.kind = .ref .vector) ∧ y.targetPath = d) ∧
      ShownAt t (a ++ [r.name]) o ∧ ShownAt t d q ∧ EdgeOf t s f o q e) fun r hr => by
    obtain ⟨hrm, hrk⟩ := List.mem_filter.mp hr
    have hrd := descend_child hc.lk.good ha hrm
    obtain ⟨zs, z1, z2⟩ := mapM_flat (f := dotReference t depth (a ++ [r.name])) (l := r.childrenLike fun k => k = .explicitReference) (P := fun x e => ∃ s f d o q,
      ((∃ y ∈ x.children, y.kind = .ref .structure ∧ y.targetPath = s) ∧ (∃ y ∈ x.children, y.kind = .ref .field ∧ y.targetPath = f) ∧
        ∃ y ∈ x.children, (y.kind = .ref .resource ∨ y.kind = .ref .vector) ∧ y.targetPath = d) ∧
      ShownAt t (a ++ [r.name]) o ∧ ShownAt t d q ∧ EdgeOf t s f o q e) fun x hx => by
        obtain ⟨hxm, hxk⟩ := List.mem_filter.mp hx
        exact reference_edges hc hg hd hrd hrk hxm (by simpa using hxk)
    refine ⟨zs.flatten, by simp only [z1, bind, Except.bind, pure, Except.pure], ?_⟩
    intro e
    rw [z2]
    constructor
    · rintro ⟨x, hx, h⟩
      obtain ⟨hxm, hxk⟩ := List.mem_filter.mp hx
      exact ⟨x, hxm, by simpa using hxk, h⟩
    · rintro ⟨x, hxm, hxk, h⟩
      exact ⟨x, List.mem_filter.mpr ⟨hxm, by simpa using hxk⟩, h⟩
  refine ⟨ys.flatten, by rw [y1]; rfl, ?_⟩
  intro e
  rw [y2]
  constructor
  · rintro ⟨r, hr, h⟩
    obtain ⟨hrm, hrk⟩ := List.mem_filter.mp hr
    exact ⟨r, hrm, hrk, h⟩
  · rintro ⟨r, hrm, hrk, h⟩
    exact ⟨r, List.mem_filter.mpr ⟨hrm, hrk⟩, h⟩

end

/-- C108. The dot generator draws every accepted schema whose groups do not list groups (and in which no namespace lies in the path
of a definition): the drawing shows the schema, its edges are those of the explicit references, and they connect what is drawn. -/
theorem C108_drawing {source : Text} {t : Tree} (h : Compile source (.ok t)) (hf : Flat t) (hg : GroupsOfResources t) {depth : Nat} (hd : 2 ≤ depth) :
    ∃ d, Draws t depth (.ok d) ∧ DrawingOf t d := by
  have hc := compile_compiled h
  obtain ⟨graph, hgraph, honly⟩ := draw_total hc hg hd t (p := []) rfl
  obtain ⟨N, events, hrun, _, hall, _⟩ := order_exists h
  obtain ⟨ys, y1, y2⟩ := mapM_flat (f := dotArchive t depth) (l := dotArchives t (dependencyOrder events)) (P := fun a e => ∃ ar, t.descend a = some ar ∧ ∃ r ∈ ar.children, r.kind.isResource = true ∧
    ∃ x ∈ r.children, x.kind = .explicitReference ∧ ∃ s f d o q,
      ((∃ y ∈ x.children, y.kind = .ref .structure ∧ y.targetPath = s) ∧ (∃ y ∈ x.children, y.kind = .ref .field ∧ y.targetPath = f) ∧
        ∃ y ∈ x.children, (y.kind = .ref .resource ∨ y.kind = .ref .vector) ∧ y.targetPath = d) ∧
      ShownAt t (a ++ [r.name]) o ∧ ShownAt t d q ∧ EdgeOf t s f o q e) fun a ha => by
    obtain ⟨_, hk⟩ := List.mem_filter.mp ha
    cases hn : t.descend a with
    | none => rw [hn] at hk; cases hk
    | some ar =>
      obtain ⟨l, l1, l2⟩ := archive_edges hc hg hd hn
      refine ⟨l, l1, fun z => (l2 z).trans ?_⟩
      constructor
      · intro hz; exact ⟨ar, rfl, hz⟩
      · rintro ⟨ar', e, hz⟩; cases e; exact hz
  have hedges : ∀ e, e ∈ ys.flatten ↔ ∃ p s f x o q, ExplicitAt t p s f x ∧ ShownAt t p o ∧ ShownAt t x q ∧ EdgeOf t s f o q e := by
    intro e
    rw [y2]
    constructor
    · rintro ⟨a, _, ar, ha, r, hr, hrk, x, hx, hxk, s, f, d, o, q, hparts, h1, h2, h3⟩
      obtain ⟨k, ob, m, hk⟩ : ∃ k ob m, r.kind = .resource k ob m := by
        cases hk : r.kind with
        | resource k o m => exact ⟨k, o, m, rfl⟩
        | _ => rw [hk] at hrk; cases hrk
      exact ⟨a ++ [r.name], s, f, d, o, q, ⟨r, k, ob, m, x, descend_child hc.lk.good ha hr, hk, hx, hxk, hparts⟩, h1, h2, h3⟩
    · rintro ⟨p, s, f, d, o, q, ⟨r, k, ob, m, x, hr, hk, hx, hxk, hparts⟩, h1, h2, h3⟩
      have hrk : r.kind.isResource = true := by rw [hk]; rfl
      obtain ⟨a, ar, rfl, ha, hak, hm⟩ := hc.archiveOf hr hrk
      refine ⟨a, List.mem_filter.mpr ⟨hall a ar ha (by rw [hak]; simp), by rw [ha]; simp [hak]⟩, ar, ha, r, hm, hrk, x, hx, hxk, s, f, d, o, q, hparts, h1, h2, h3⟩
  refine ⟨⟨graph, ys.flatten⟩, ⟨N, ?_⟩, ?_, ?_, honly, hedges, ?_, ?_⟩
  · unfold drawingN
    rw [hrun]
    simp only [hgraph, y1, bind, Except.bind, pure, Except.pure]
  · intro p n hn hk
    obtain ⟨inner, h3, _⟩ := draws_total hc hg hd n.children (p := p) fun c hcm => descend_child hc.lk.good hn hcm
    obtain ⟨l, e1, e2⟩ := draw_step hc hg hd hn (inner := inner) h3
    obtain ⟨l', e3, e4⟩ := drawn_at hc hg hd hgraph hn
    rw [e1] at e3; cases e3
    rcases e2 with ⟨_, rfl⟩ | ⟨h, _⟩ | ⟨⟨h1, h2, _⟩, _⟩
    · exact ⟨inner, e4 _ (.here (List.mem_singleton.mpr rfl))⟩
    · rcases hk with hk | hk <;> rw [hk] at h <;> cases h
    · rcases hk with hk | hk
      · exact absurd hk h1
      · exact absurd hk h2
  · intro a ar r k o m ha hr hk hno
    obtain ⟨a', ar', outer, refs, nodes, types, rest, e1, e2, _, e3, e4, _, e5, e6, e7, e8⟩ :=
      drawn_resource hc hg hd hgraph (descend_child hc.lk.good ha hr) (by rw [hk]; rfl) hno
    obtain ⟨rfl, -⟩ := List.append_inj' e1 rfl
    rw [ha] at e2; cases e2
    refine ⟨outer, types, nodes, rest, e3, e4, e5, ?_, ?_⟩
    · intro ht
      apply e7
      rw [e6] at ht
      simpa using ht
    · intro ht
      rw [e6, List.forall₂_map_left_iff]
      apply e8
      rintro rfl
      exact ht e6
  · intro e he
    obtain ⟨p, s, f, x, o, q, ⟨r, k, ob, m, er, hr, hk, her, herk, ⟨y, hy, hyk, rfl⟩, ⟨z, hz, hzk, rfl⟩, _⟩, ho, hq, hedge⟩ := (hedges e).mp he
    have hrk : r.kind.isResource = true := by rw [hk]; rfl
    -- the structure is a type of the resource
    obtain ⟨blocks, _, hlex, hba⟩ := compile_blocks h
    have hplain : ∀ b ∈ blocks, PlainNames b := fun b hb => lexical_plain (hlex b hb)
    obtain ⟨ty, hty, htyk, htyt⟩ := C65_explicit_references hplain hba p r er y hr her herk hy hyk
    have hpath : ty.targetPath = y.targetPath := by unfold Tree.targetPath; rw [htyt]
    have htyin : ty ∈ referencedStructures r := by
      unfold referencedStructures Tree.childrenLike
      exact List.mem_append_right _ (List.mem_filter.mpr ⟨hty, by simp [htyk]⟩)
    -- the field is a field of the structure
    obtain ⟨n, sz, c, tyc, rg, off, n1, n2, n3, n4, n5⟩ := C105_field_of_structure h hf (descend_child hc.lk.good hr her) herk hy hyk hz hzk
    obtain ⟨g, hg1, hg2, hg3⟩ := hc.shown hr hrk ho
    obtain ⟨a', ar', outer, refs, nodes, types, rest, e1, e2, _, e3, e4, e5, e6, e7, e8, e9⟩ :=
      drawn_resource hc hg hd hgraph hg1 hg2 (shown_not_grouped hc hg hr hrk ho)
    have hin : ty ∈ refs := by
      obtain ⟨refs', a1, _, _, a2, a3⟩ := hc.structures hg hd hg1
      rw [e5] at a1; cases a1
      rcases hg3 with ⟨b1, ref, b2, b3, b4⟩ | ⟨rfl, _⟩
      · have : ref.targetPath = p := targetPath_of (descend_nodot hc.lk.good hr) b4
        exact a3 ref b2 b1 b3 r (by rw [this]; exact hr) ty htyin
      · rw [hr] at hg1; cases hg1
        rw [a2 ?_]
        · exact htyin
        · rintro ⟨ob', m', hb⟩
          obtain ⟨n', hn'⟩ := hc.resource _ _ _ _ _ hr hb
          have : er.kind ∈ childKinds r.children := by
            simp only [childKinds, List.mem_filter, List.mem_map]
            exact ⟨⟨er, her, rfl⟩, by simp [herk]⟩
          rw [hn', herk] at this
          simpa using List.eq_of_mem_replicate this
    obtain ⟨tab, t1, n', sz', rows, t2, t3, rfl, t4⟩ := forall₂_left (e9 (fun hh => by rw [hh] at hin; cases hin)) hin
    rw [hpath, n1] at t2; cases t2
    obtain ⟨row, r1, r2⟩ := forall₂_left t4 (List.mem_filter.mpr ⟨n3, by rw [n4]; rfl⟩)
    refine ⟨n.name, rows, ?_, row, r1, ?_⟩
    · rw [hedge.table, ← hpath]
      exact Occurs.trans_inside e3 e4 (List.mem_append_left _ t1)
    · rw [r2.port, hedge.port, n5, hpath, idText_append]
      simp [idText]
  · intro e he
    obtain ⟨p, s, f, x, o, q, ⟨r, k, ob, m, er, hr, hk, her, herk, _, _, ⟨z, hz, hzk, rfl⟩⟩, ho, hq, hedge⟩ := (hedges e).mp he
    obtain ⟨rk', hzr⟩ : ∃ rk, z.kind = .ref rk := by rcases hzk with h | h <;> exact ⟨_, h⟩
    obtain ⟨md, _, hmd, _, hfit⟩ := hc.lk.target (descend_child hc.lk.good (descend_child hc.lk.good hr her) hz) hzr
    have hmk : md.kind.isResource = true := by
      rcases hzk with hh | hh <;> rw [hh] at hzr <;> cases hzr
      · obtain ⟨_, _, _, hh⟩ := hfit; rw [hh]; rfl
      · obtain ⟨_, _, hh⟩ := hfit; rw [hh]; rfl
    obtain ⟨g, hg1, hg2, _⟩ := hc.shown hmd hmk hq
    obtain ⟨a', ar', outer, refs, nodes, types, rest, e1, e2, _, e3, e4, e5, e6, e7, e8, e9⟩ :=
      drawn_resource hc hg hd hgraph hg1 hg2 (shown_not_grouped hc hg hmd hmk hq)
    obtain ⟨g', types', b1, b2, b3⟩ := hedge.node
    rw [hg1] at b1; cases b1
    have := types_unique b2 e6
    subst this
    refine ⟨resourceLabel g, nodes ++ rest, ?_, ?_⟩
    · rw [hedge.head]
      exact Occurs.trans_inside' e3 e4
    · cases refs with
      | nil =>
        refine ⟨.invisible (idText q), by rw [e8 rfl]; simp, .inl ?_⟩
        rw [b3, e7]
        simp [idText]
      | cons ref refs =>
        have h9 := e9 (by simp)
        cases h9 with
        | cons t1 t2 =>
          obtain ⟨n', sz', rows, _, _, rfl, _⟩ := t1
          refine ⟨_, List.mem_append_left _ List.mem_cons_self, .inr ⟨n'.name, rows, ?_⟩⟩
          rw [b3, e7]
          rfl

theorem mapM_elem {α β : Type} {f : α → M β} {l : List α} {ys : List β} (h : l.mapM f = .ok ys) {x : α} (hx : x ∈ l) : ∃ y, f x = .ok y := by
  induction l generalizing ys with
  | nil => cases hx
  | cons a l ih =>
    rw [List.mapM_cons] at h
    cases h1 : f a with
    | error e => rw [h1] at h; cases h
    | ok y =>
      rw [h1] at h
      cases h2 : l.mapM f with
      | error e => rw [h2] at h; cases h
      | ok ys =>
        rcases List.mem_cons.mp hx with rfl | hx
        · exact ⟨y, h1⟩
        · exact ih h2 hx

theorem structures_self {t g ref : Tree} {q : Path} (hc : Compiled t) (hq : t.descend q = some g) (hg : IsGroup g) (href : ref ∈ g.children) (hk : ref.kind.isResourceReference = true)
    (ht : ref.targetPath = q) : ∀ depth l, structuresOf t depth g ≠ .ok l := by
  intro depth
  induction depth with
  | zero => intro l h; cases h
  | succ depth ih =>
    intro l h
    unfold structuresOf at h
    rw [if_pos (isGroup_iff'.mpr hg)] at h
    cases hm : (g.childrenLike Kind.isResourceReference).mapM fun ref : Tree => do structuresOf t depth (← t.find ref.target) with
    | error e => rw [hm] at h; cases h
    | ok parts =>
      obtain ⟨y, hy⟩ := mapM_elem hm (List.mem_filter.mpr ⟨href, hk⟩)
      have : ∃ rk, ref.kind = .ref rk := by rcases resRef_cases hk with h | h <;> exact ⟨_, h⟩
      obtain ⟨rk, hrk⟩ := this
      obtain ⟨m, _, e2, e3, _⟩ := hc.lk.target (descend_child hc.lk.good hq href) hrk
      rw [ht, hq] at e2; cases e2
      simp only [e3, bind, Except.bind] at hy
      exact ih _ hy

/-- C108 (limits). There is no drawing if an explicit reference leads to a group that lists itself. -/
theorem C108_no_drawing {source : Text} {t : Tree} (h : Compile source (.ok t)) {p s f x q : Path} {g ref : Tree} (he : ExplicitAt t p s f x) (hx : ShownAt t x q)
    (hq : t.descend q = some g) (hg : IsGroup g) (href : ref ∈ g.children) (hk : ref.kind = .ref .resource) (ht : ref.targetPath = q) {depth : Nat} {d : Drawing} :
    ¬ Draws t depth (.ok d) := by
  rintro ⟨N, hN⟩
  have hc := compile_compiled h
  unfold drawingN at hN
  cases hrun : Dfs.run (depChildren t) N (Dfs.init []) with
  | none => rw [hrun] at hN; cases hN
  | some out =>
    cases out with
    | error e => rw [hrun] at hN; cases hN
    | ok events =>
      rw [hrun] at hN
      simp only [Option.some.injEq] at hN
      obtain ⟨N', events', hrun', _, hall, _⟩ := order_exists h
      have hev : events = events' := by
        have a1 := dfs_run_mono _ hrun (Nat.le_max_left N N')
        have a2 := dfs_run_mono _ hrun' (Nat.le_max_right N N')
        rw [a1] at a2
        simpa using a2
      subst hev
      obtain ⟨r, k, ob, m, e, hr, hrk, her, herk, ⟨y, hy, hyk, rfl⟩, ⟨z, hz, hzk, rfl⟩, w, hw, hwk, rfl⟩ := he
      have hrr : r.kind.isResource = true := by rw [hrk]; rfl
      obtain ⟨a, ar, rfl, ha, hak, hm⟩ := hc.archiveOf hr hrr
      cases h1 : drawNode t depth [] t with
      | error e => rw [h1] at hN; cases hN
      | ok graph =>
        cases h2 : (dotArchives t (dependencyOrder events)).mapM (dotArchive t depth) with
        | error e => rw [h1, h2] at hN; cases hN
        | ok ys =>
          obtain ⟨l, hl⟩ := mapM_elem h2 (x := a) (List.mem_filter.mpr ⟨hall a ar ha (by rw [hak]; simp), by rw [ha]; simp [hak]⟩)
          unfold dotArchive at hl
          rw [ha] at hl
          simp only at hl
          cases h3 : (ar.childrenLike Kind.isResource).mapM fun r : Gen.Tree => do
            let edges ← (r.childrenLike fun k => decide (k = Gen.Kind.explicitReference)).mapM (dotReference t depth (a ++ [r.name]))
            pure edges.flatten with
          | error e => rw [h3] at hl; cases hl
          | ok zs =>
            obtain ⟨z1, hz1⟩ := mapM_elem h3 (x := r) (List.mem_filter.mpr ⟨hm, hrr⟩)
            cases h4 : (r.childrenLike fun k => k = .explicitReference).mapM (dotReference t depth (a ++ [r.name])) with
            | error e => rw [h4] at hz1; cases hz1
            | ok us =>
              obtain ⟨u, hu⟩ := mapM_elem h4 (x := e) (List.mem_filter.mpr ⟨her, by simp [herk]⟩)
              obtain ⟨s, f, d, ns, nf, nd, s0, f0, d0, s1, f1, d1, s2, f2, d2, s3, f3, d3, s4, f4, d4, d5⟩ := explicit_parts hc (descend_child hc.lk.good hr her) herk
              obtain ⟨_, lo, o1, o2⟩ := hc.bound hr hrr
              obtain ⟨_, lq, q1, q2⟩ := hc.bound d4 d5
              unfold dotReference at hu
              rw [s2, f2, d2] at hu
              simp only [bind, Except.bind, s3, f3, d3, o1, q1] at hu
              have hwd := (d0 w hw).mp hwk
              subst hwd
              obtain ⟨o, ho⟩ : ∃ o, o ∈ lo := by
                by_cases hgo : ∃ g, GroupOf t (a ++ [r.name]) g
                · obtain ⟨o, ho⟩ := hgo
                  exact ⟨o, (o2 o).mpr (.inl ho)⟩
                · exact ⟨_, (o2 _).mpr (.inr ⟨rfl, fun g hg => hgo ⟨g, hg⟩⟩)⟩
              cases h5 : lo.mapM (fun o => lq.mapM (dotEdge t depth s.targetPath f.targetPath o)) with
              | error e => rw [h5] at hu; cases hu
              | ok vs =>
                obtain ⟨v, hv⟩ := mapM_elem h5 ho
                obtain ⟨y, hy⟩ := mapM_elem hv ((q2 q).mpr hx)
                have hfind : t.find (pathText q) = .ok g := (find_path hc.lk.name (descend_nodot hc.lk.good hq)).mpr hq
                unfold dotEdge at hy
                rw [hfind] at hy
                simp only [bind, Except.bind] at hy
                cases h6 : structuresOf t depth g with
                | error e => rw [h6] at hy; cases hy
                | ok refs => exact structures_self hc hq hg href (by rw [hk]; rfl) ht depth refs h6

theorem draws_unique {t : Gen.Tree} {depth : Nat} {a b : M Drawing} (h1 : Draws t depth a) (h2 : Draws t depth b) : a = b := by
  obtain ⟨n, hn⟩ := h1
  obtain ⟨m, hm⟩ := h2
  have mono : ∀ {n out}, drawingN t depth n = some out → ∀ k, n ≤ k → drawingN t depth k = some out := by
    intro n out h k hk
    unfold drawingN at h ⊢
    cases hr : Dfs.run (depChildren t) n (Dfs.init []) with
    | none => rw [hr] at h; cases h
    | some o =>
      rw [dfs_run_mono _ hr hk]
      rw [hr] at h
      exact h
  have e1 := mono hn _ (Nat.le_max_left n m)
  have e2 := mono hm _ (Nat.le_max_right n m)
  rw [e1] at e2
  exact Option.some.inj e2

end Props
