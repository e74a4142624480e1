import Verif.Lemmas.GenDeps2
import Verif.Lemmas.GenPeel
import Verif.Props.Gen.Again

/-! # What is compiled from a stored schema (for C107) -/

namespace Gen
open Spec Props

/-- The source has what is needed. -/
theorem _root_.Props.Storable.ground {s : Text} {t : Tree} {q : Path} (h : Storable s t q) : Ground t := by
  obtain ⟨bl, hs, _⟩ := compile_blocks h.compiled
  exact ⟨⟨s, h.compiled⟩, h.flat, h.noBuiltin, fun p m hm hd hp => index_plain hs h.compiled (h.noBuiltinBlock _ hs) hm hd hp⟩

theorem _root_.Props.Storable.stages {s : Text} {t : Tree} {q : Path} (h : Storable s t q) {x : Text} (hx : Schema t q (.ok x)) {t' : Tree} (ht : Compile x (.ok t')) :
    ∃ bs, ∃ st : Stages bs t', parseSource x = .ok bs ∧ (∀ b ∈ bs, Lexical b) ∧ AgainRoot t q st.resolved := by
  obtain ⟨bs, t0, h1, h2, h3, h4, h5, h6⟩ := h.again hx
  obtain ⟨bl, hs, _⟩ := compile_blocks h.compiled
  obtain ⟨bs', g1, g2, g3⟩ := compile_blocks ht
  rw [h1] at g1; cases g1
  have hpl : ∀ b ∈ bs, PlainNames b := fun b hb => lexical_plain (g2 b hb)
  obtain ⟨root, r1, r2⟩ := againRoot h.compiled h.flat hs (h.noBuiltinBlock _ hs) hpl h3 h4
  obtain ⟨st, _⟩ := buildAst_stages g3
  refine ⟨bs, st, h1, g2, ?_⟩
  have hr := st.h1
  unfold buildResolved at hr
  obtain ⟨t0', e0, hr⟩ := bind_ok hr
  rw [h3] at e0; cases e0
  obtain ⟨t1, e1, hr⟩ := bind_ok hr
  rw [r1] at e1; cases e1
  have := resolve_qualified r2.good (by rw [r2.kind]; simp) (fun p n rk hn hk => r2.qualified h.compiled h.flat h.noBuiltin h.resources hn hk) hr
  rw [this]; exact r2

theorem _root_.Props.Storable.noBuiltinAgain {s : Text} {t : Tree} {q : Path} (h : Storable s t q) {x : Text} (hx : Schema t q (.ok x)) {bs : List PBlock}
    (hp : parseSource x = .ok bs) : ∀ b ∈ bs, "_builtin".toList ∉ splitDot b.name := by
  obtain ⟨bs', t0, h1, h2, _⟩ := h.again hx
  rw [hp] at h1; cases h1
  intro b hb hm
  obtain ⟨i1, i2⟩ := h2 b hb
  rw [splitDot_ident' i1, List.mem_singleton] at hm
  exact i2 hm.symm

/-- Nodes other than constants listed in archives are there before constants are listed. -/
theorem stages_back {bs : List PBlock} {t' : Tree} (st : Stages bs t') (hl : ∀ b ∈ bs, Lexical b) {p : Path} {n c : Tree} (hn : t'.descend p = some n) (hcm : c ∈ n.children) :
    ∃ r, st.resolved.descend p = some r ∧ r.kind.blank = n.kind.blank ∧ ((∃ d ∈ r.children, d.name = c.name ∧ d.kind.blank = c.kind.blank) ∨ (n.kind = .archive ∧ c.kind = .ref .constantValue)) := by
  rcases st.origin hl hn with ⟨r, ext, r1, r2, r3, r4, r5, r6⟩ | ⟨_, hnil, _⟩
  · refine ⟨r, r1, r3, ?_⟩
    have hm : (c.name, c.kind.blank) ∈ n.children.map fun c => (c.name, c.kind.blank) := List.mem_map_of_mem hcm
    rw [r4] at hm
    rcases List.mem_append.mp hm with hm | hm
    · obtain ⟨d, d1, d2⟩ := List.mem_map.mp hm
      simp only [Prod.mk.injEq] at d2
      exact .inl ⟨d, d1, d2.1, d2.2⟩
    · right
      refine ⟨?_, blank_ref.mp (r6 _ hm)⟩
      by_contra hne
      rw [r5 hne] at hm; cases hm
  · rw [hnil] at hcm; cases hcm

theorem Ground.constant_leaf {t : Tree} (hg : Ground t) {q : Path} {m : Tree} (hm : t.descend q = some m) {b : BasicType} {v : Int} (hk : m.kind = .constant b v) : depChildren t q = [] := by
  have hnil : m.children = [] := by
    rw [List.eq_nil_iff_forall_not_mem]
    intro r hr
    obtain ⟨s, hs⟩ := hg.source
    obtain ⟨k0, ks, e1, e2, e3⟩ := compiled_kinds hs hm
    rcases e3 r hr (hg.kid hm (by rw [hk]; simp) (by rw [hk]; simp) hr).1 with ⟨x, x1, _⟩ | ⟨h, _⟩
    · rw [hk] at e1
      cases k0 <;> simp [Kind.blank] at e1
      rw [show ks = [] from e2] at x1; cases x1
    · rw [hk] at h; cases h
  unfold depChildren
  rw [hm]
  simp [Tree.childrenLike, hnil]

theorem walk_nowhere {V : Type} {ch : V → List V} {a b : V} (h : Reachable ch a b) (hn : ch a = []) : b = a := by
  obtain ⟨k, hw⟩ := h
  induction hw with
  | refl => rfl
  | step _ hc ih => rw [ih hn, hn] at hc; cases hc

theorem Ground.inner_reach {t : Tree} (hg : Ground t) {q v : Path} (hq : InnerNode t q) (h : Reachable (depChildren t) q v) : InnerNode t v := by
  obtain ⟨k, hw⟩ := h
  induction hw with
  | refl => exact hq
  | step _ hc ih => exact hg.inner_kids (ih hq) _ hc

theorem isDef_inner {t : Tree} {p : Path} (h : isDef t p = true) : InnerNode t p := by
  obtain ⟨⟨n, hn, hd⟩, _⟩ := isDef_iff.mp h
  refine ⟨n, hn, ?_, ?_, ?_⟩ <;> intro e <;> (try intro e') <;> simp_all [Spec.Kind.isDefinition]

/-- How definitions are reached. -/
theorem Ground.reach {t : Tree} (hg : Ground t) {q v : Path} (hq : isDef t q = true) (h : Reachable (depChildren t) q v) :
    (isDef t v = true → v = q ∨ ∃ d, Reachable (depChildren t) q d ∧ isDef t d = true ∧ v ∈ defDeps t d) ∧
    (isDef t v = false → ∃ d, Reachable (depChildren t) q d ∧ isDef t d = true ∧ ∀ c ∈ defDeps t v, c ∈ defDeps t d) := by
  obtain ⟨k, hw⟩ := h
  induction hw with
  | refl => exact ⟨fun _ => .inl rfl, fun hn => by rw [hq] at hn; cases hn⟩
  | @step n a b c hw hc ih =>
    have ih := ih hq
    have hrb : Reachable (depChildren t) a b := ⟨_, hw⟩
    have hin := hg.inner_reach (isDef_inner hq) hrb
    have heq := hg.deps_eq hin
    have hsub : ∃ d, Reachable (depChildren t) a d ∧ isDef t d = true ∧ ∀ c ∈ defDeps t b, c ∈ defDeps t d := by
      cases hd : isDef t b with
      | true => exact ⟨b, hrb, hd, fun _ h => h⟩
      | false => exact ih.2 hd
    obtain ⟨d, d1, d2, d3⟩ := hsub
    refine ⟨fun hcd => .inr ⟨d, d1, d2, d3 _ ?_⟩, fun hcd => ⟨d, d1, d2, fun e he => d3 _ ?_⟩⟩
    · rw [heq]; exact List.mem_flatMap.mpr ⟨c, hc, by rw [hcd]; simp⟩
    · rw [heq]; exact List.mem_flatMap.mpr ⟨c, hc, by rw [hcd]; simpa using he⟩

/-- What is compiled from a schema has what is needed. -/
theorem _root_.Props.Storable.groundAgain {s : Text} {t : Tree} {q : Path} (h : Storable s t q) {x : Text} (hx : Schema t q (.ok x)) {t' : Tree} (ht : Compile x (.ok t')) : Ground t' := by
  obtain ⟨bs, st, hp, hl, hr⟩ := h.stages hx ht
  have hc := compile_compiled h.compiled
  have hc' := compile_compiled ht
  have hgr := h.ground
  have hindex := fun p m hm hd hpb => index_plain hp ht (h.noBuiltinAgain hx hp) (p := p) (m := m) hm hd hpb
  refine ⟨⟨x, ht⟩, ?_, ?_, hindex⟩
  · intro p k n hn hk
    obtain ⟨y, y1, y2, y3⟩ := descend_parent hn
    obtain ⟨y0, z1, z2, z3⟩ := stages_back st hl y1 y2
    rcases z3 with ⟨r, r1, r2, r3⟩ | ⟨_, hk'⟩
    swap
    · rw [hk] at hk'; cases hk'
    rw [hk] at r3
    have rk : r.kind = .namespace := blank_namespace.mp (by rw [r3]; rfl)
    have hrd : st.resolved.descend (p ++ [k]) = some r := by rw [← y3, ← r2]; exact descend_child hr.good z1 r1
    have y0r : ∀ rk, y0.kind ≠ .ref rk := by
      intro rk hk0
      rw [named_leaf hr.named z1 hk0] at r1; cases r1
    obtain ⟨p', m', m1, m2, m3, m4⟩ := hr.counterpart hc h.flat z1 y0r
    have y0e : y0.kind ≠ .explicitReference := by
      intro he
      obtain ⟨d, d1, _, d3⟩ := m2.child r1
      have hdn : d.kind = .namespace := by
        have := d3.kind
        rw [rk] at this
        exact gist_plain this.symm rfl
      obtain ⟨a, b, c, e1, e2, e3, e4⟩ := hc.explicitChildren h.flat m1 ((gist_explicit m2.kind).mp he)
      rw [e1] at d1
      simp only [List.mem_cons, List.not_mem_nil, or_false] at d1
      rcases d1 with rfl | rfl | rfl
      · rw [e2] at hdn; cases hdn
      · rw [e3] at hdn; cases hdn
      · rw [e4] at hdn; cases hdn
    have := m3 y0e
    subst this
    obtain ⟨m, g1, g2⟩ := hr.plain hc h.flat hrd (by rw [rk]; simp) (by rw [rk]; simp)
    have hmk : m.kind = .namespace := by
      have := g2.kind
      rw [rk] at this
      exact gist_plain this.symm rfl
    rcases h.flat _ _ _ g1 hmk with e | ⟨m'', n1, n2⟩
    · exact .inl e
    · right
      refine ⟨y, y1, ?_⟩
      rw [m1] at n1; cases n1
      have := m2.kind
      rw [n2] at this
      have h0 : y0.kind = .namespace := gist_plain this rfl
      rw [h0] at z2
      exact blank_namespace.mp z2.symm
  · intro p r rk hrd hk hne
    cases p using List.reverseRecOn with
    | nil => simp only [Tree.descend, Option.some.injEq] at hrd; subst hrd; rw [hc'.rootKind] at hk; cases hk
    | append_singleton p k =>
    obtain ⟨y, y1, y2, y3⟩ := descend_parent hrd
    obtain ⟨y0, z1, z2, z3⟩ := stages_back st hl y1 y2
    rcases z3 with ⟨c, c1, c2, c3⟩ | ⟨ha, hk'⟩
    · rw [hk] at c3
      have ck : c.kind = .ref rk := blank_ref.mp c3
      obtain ⟨p', m, d, rk', m1, m2, m3, m4, d1, d2, d3, d4⟩ := hr.refCounterpart hc h.flat z1 c1 ck
      have : d.targetPath = r.targetPath := (target_of_name (d2.trans c2)).2
      rw [← this]
      refine h.noBuiltin _ _ _ (hc.child m1 d1) d3 ?_
      rintro rfl
      cases rk <;> simp [Kind.gist] at d4
      exact hne rfl
    · obtain ⟨c, _, c2, c3, _⟩ := hc'.target hrd hk'
      obtain ⟨b, v, hck⟩ : ∃ b v, c.kind = .constant b v := by
        simp only [KindFits] at c3; exact c3
      have hcd : Spec.Kind.isDefinition c.kind = true := by rw [hck]; rfl
      have hnb : ¬ InBuiltin r.targetPath := by
        intro hb
        obtain ⟨⟨sz, e⟩, _⟩ := hindex _ _ c2 hcd hb
        rw [hck] at e; cases e
      have honly : ∀ {p m}, t'.descend p = some m → Spec.Kind.isDefinition m.kind = true → (∀ sz, m.kind ≠ .structure sz) →
          Reachable (depChildren t) q p ∧ ¬ InBuiltin p ∧ ∃ n, t.descend p = some n ∧ Spec.Kind.isDefinition n.kind = true := by
        intro p m hm hd hs
        rcases C106_only h hx ht hm hd with g | ⟨a, r, w, o, k, _, _, rfl⟩
        · exact g
        · obtain ⟨⟨sz, e⟩, _⟩ := hindex _ _ hm hd (by unfold InBuiltin; simp)
          exact absurd e (hs sz)
      obtain ⟨g1, g2, n, g3, g4⟩ := honly c2 hcd (by rw [hck]; simp)
      obtain ⟨a1, a2, _⟩ := honly y1 (by rw [ha]; rfl) (by rw [ha]; simp)
      obtain ⟨qn, hqn, hqd⟩ := h.definition
      have hqD : isDef t q = true := isDef_iff.mpr ⟨⟨qn, hqn, hqd⟩, h.outside⟩
      have hcD : isDef t r.targetPath = true := isDef_iff.mpr ⟨⟨n, g3, g4⟩, g2⟩
      obtain ⟨n', f1, f2, f3⟩ := C106_same h hx ht g1 g3 g4 g2
      rw [c2] at f1; cases f1
      have hnk : ∃ b v, n.kind = .constant b v := by
        unfold definitionRecord at f2
        rw [hck] at f2
        cases hnk : n.kind <;> rw [hnk] at f2 <;> simp at f2
        exact ⟨_, _, rfl⟩
      obtain ⟨b', v', hnk⟩ := hnk
      obtain ⟨k0, hw⟩ := g1
      cases hw with
      | refl =>
        have := walk_nowhere a1 (hgr.constant_leaf g3 hnk)
        rw [this, c2] at y1; cases y1
        rw [hck] at ha; cases ha
      | @step k1 _ b' _ hw hstep =>
        have hin := hgr.inner_reach (isDef_inner hqD) ⟨_, hw⟩
        obtain ⟨nb, nb1, nb2, nb3, nb4⟩ := hin
        unfold depChildren at hstep
        rw [nb1] at hstep
        simp only [List.mem_append, List.mem_map, Tree.childrenLike, List.mem_filter] at hstep
        rcases hstep with ⟨d, ⟨hd, hdk⟩, e⟩ | ⟨d, ⟨hd, hdk⟩, e⟩
        · have hcd' := hc.child nb1 hd
          rw [e, g3] at hcd'; cases hcd'
          have := (hgr.kid nb1 nb3 nb4 hd).2.2
          rw [hnk] at this; cases this
        · rw [← e]
          cases hdr : d.kind <;> rw [hdr] at hdk <;> first | (cases hdk; done) | skip
          refine h.noBuiltin _ _ _ (hc.child nb1 hd) hdr ?_
          intro e'
          have := (hgr.typeTarget nb1 hd (by rw [hdr]; exact hdk)).choose_spec.2.2.mpr (by rw [hdr, e'])
          rw [e] at this
          exact g2 this

end Gen
