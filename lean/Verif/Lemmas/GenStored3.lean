import Verif.Lemmas.GenStored2

/-! # The dependencies of what is compiled from a stored schema, continued (for C107) -/

namespace Gen
open Spec Props

theorem sameOrder_eq {V : Type} : ∀ {l l' : List V}, l.Nodup → l'.Nodup → (∀ x, x ∈ l' ↔ x ∈ l) → SameOrder l l' → l' = l := by
  intro l
  induction l with
  | nil => intro l' _ _ hm _; exact List.eq_nil_iff_forall_not_mem.mpr fun c hc => by simpa using (hm c).mp hc
  | cons a l ih =>
    intro l' hn hn' hm ho
    cases l' with
    | nil => simpa using (hm a).mpr (by simp)
    | cons b l' =>
      obtain ⟨n1, n2⟩ := List.nodup_cons.mp hn
      obtain ⟨n1', n2'⟩ := List.nodup_cons.mp hn'
      by_cases e : b = a
      · subst e
        rw [ih n2 n2' ?_ ?_]
        · intro x
          constructor
          · intro hx
            have hne : x ≠ b := fun e => n1' (e ▸ hx)
            simpa [hne] using (hm x).mp (by simp [hx])
          · intro hx
            have hne : x ≠ b := fun e => n1 (e ▸ hx)
            simpa [hne] using (hm x).mpr (by simp [hx])
        · intro x y h1 h2
          exact ho x y (h1.trans (List.sublist_cons_self _ _)) (h2.trans (List.sublist_cons_self _ _))
      · have hb : b ∈ l := by simpa [e] using (hm b).mp (by simp)
        have ha : a ∈ l' := by simpa [Ne.symm e] using (hm a).mpr (by simp)
        exact absurd (List.Sublist.cons_cons b (List.singleton_sublist.mpr ha)) (ho a b (List.Sublist.cons_cons a (List.singleton_sublist.mpr hb)))

theorem same_class {m m' : Tree} (h : definitionRecord m' = definitionRecord m) (hd : Spec.Kind.isDefinition m.kind = true) :
    (∃ sz sz', m.kind = .structure sz ∧ m'.kind = .structure sz' ∧ structureRecord m' = structureRecord m) ∨
    (m.kind = .archive ∧ m'.kind = .archive ∧ archiveRecord m' = archiveRecord m) ∨
    ((∃ b, m.kind = .enumeration b) ∧ ∃ b, m'.kind = .enumeration b) ∨
    ((∃ b v, m.kind = .constant b v) ∧ ∃ b v, m'.kind = .constant b v) := by
  unfold definitionRecord at h
  cases hk : m.kind <;> rw [hk] at h hd <;> first | (cases hd; done) | skip
  all_goals
    cases hk' : m'.kind <;> rw [hk'] at h <;> simp only [Option.some.injEq, reduceCtorEq, PEntry.struct.injEq, PEntry.archive.injEq] at h
  · exact .inr (.inr (.inr ⟨⟨_, _, rfl⟩, _, _, rfl⟩))
  · exact .inr (.inr (.inl ⟨⟨_, rfl⟩, _, rfl⟩))
  · exact .inl ⟨_, _, rfl, rfl, h⟩
  · exact .inr (.inl ⟨rfl, rfl, h⟩)

section
variable {s : Text} {t : Tree} {q : Path} (h : Storable s t q) {x : Text} (hx : Schema t q (.ok x)) {t' : Tree} (ht : Compile x (.ok t'))
include h

theorem _root_.Props.Storable.isDef : isDef t q = true := by
  obtain ⟨n, hn, hd⟩ := h.definition
  exact isDef_iff.mpr ⟨⟨n, hn, hd⟩, h.outside⟩

include hx ht

theorem _root_.Props.Storable.mirror {p : Path} (hr : Reachable (depChildren t) q p) (hp : Gen.isDef t p = true) :
    ∃ m m', t.descend p = some m ∧ t'.descend p = some m' ∧ Spec.Kind.isDefinition m.kind = true ∧ definitionRecord m' = definitionRecord m ∧ Gen.isDef t' p = true := by
  obtain ⟨⟨m, hm, hd⟩, hb⟩ := isDef_iff.mp hp
  obtain ⟨m', h1, h2, _⟩ := C106_same h hx ht hr hm hd hb
  refine ⟨m, m', hm, h1, hd, h2, isDef_iff.mpr ⟨⟨m', h1, ?_⟩, hb⟩⟩
  rw [← record_isSome, h2, record_isSome, hd]

theorem _root_.Props.Storable.isDef_back {p : Path} (hp : Gen.isDef t' p = true) : Reachable (depChildren t) q p ∧ Gen.isDef t p = true := by
  obtain ⟨⟨m, hm, hd⟩, hb⟩ := isDef_iff.mp hp
  rcases C106_only h hx ht hm hd with ⟨g1, g2, g3⟩ | ⟨a, r, w, o, k, _, _, rfl⟩
  · exact ⟨g1, isDef_iff.mpr ⟨g3, g2⟩⟩
  · exact absurd (by unfold InBuiltin; simp) hb

/-- In a printed field the constant that means "no value" comes last. -/
theorem _root_.Props.Storable.invalidLast {p : Path} (hr : Reachable (depChildren t) q p) (hp : Gen.isDef t p = true) {m' : Tree} (hm' : t'.descend p = some m') {sz : Option Nat}
    (hk' : m'.kind = .structure sz) : ∀ f ∈ m'.children, InvalidLast f := by
  obtain ⟨m, m2, hm, h1, hd, h2, h3⟩ := h.mirror hx ht hr hp
  rw [hm'] at h1; cases h1
  have hb := (isDef_iff.mp hp).2
  have hg' := h.groundAgain hx ht
  obtain ⟨bs, t0, g1, _, _, _, g5, _⟩ := h.again hx
  rcases same_class h2 hd with ⟨sz1, sz2, e1, e2, e3⟩ | ⟨_, e, _⟩ | ⟨_, _, e⟩ | ⟨_, _, _, e⟩ <;> try (rw [hk'] at e; cases e; done)
  obtain ⟨ns, rfl, hns, hbl⟩ := g5 p m (.struct (structureRecord m)) hr hm hb (by unfold definitionRecord; rw [e1])
  obtain ⟨n', n1, n2⟩ := C66_structures g1 ht hbl (x := structureRecord m) (by simp [blockOf])
  have hname : (blockOf ns [.struct (structureRecord m)]).name = ns := rfl
  rw [hname, splitDot_ident' hns] at n1 n2
  have hnm : (structureRecord m).name = m.name := rfl
  rw [hnm] at n1 n2
  rw [show [ns] ++ [m.name] = [ns, m.name] from rfl, hm'] at n1
  cases n1
  intro f hf
  have hmm := hg'.members_eq hm' (by rw [hk']; simp) (by rw [hk']; simp) (by rw [hk']; simp) (by rw [hk']; rfl)
  obtain ⟨pf, hpf, hfa⟩ := forall₂_mem_right n2.fields (by rw [hmm]; exact hf)
  obtain ⟨ty, off, refs, hfk, hty, hall⟩ := hfa.is
  have hfm := hg'.members_eq (hg'.compiled.child hm' hf) (by rw [hfk]; simp) (by rw [hfk]; simp) (by rw [hfk]; simp) (by rw [hfk]; rfl)
  rw [hfm] at hall
  obtain ⟨f0, hf0, hrec⟩ := List.mem_filterMap.mp hpf
  obtain ⟨rg, hdec⟩ : ∃ rg, pf.decorations = fieldDecorations f0 rg := by
    unfold fieldRecord at hrec
    split at hrec <;> simp only [Option.some.injEq, reduceCtorEq] at hrec <;> rw [← hrec] <;> exact ⟨_, rfl⟩
  have hrefs : ∀ d ∈ refs, d.1 ≠ .constantValue := by
    cases hty with
    | basic => simp
    | enumeration _ _ _ _ _ => intro d hd; simp only [List.mem_singleton] at hd; rw [hd]; simp
  have hkinds : f.children.map Tree.kind = (decorationRefs pf ++ refs).map fun d => Kind.ref d.1 := by
    clear hfm
    revert hall
    generalize f.children = l
    generalize decorationRefs pf ++ refs = ds
    intro hall
    induction hall with
    | nil => rfl
    | cons h1 _ ih => rw [List.map_cons, List.map_cons, h1.kind, ih]
  have hpw : ((decorationRefs pf ++ refs).map fun d => Kind.ref d.1).Pairwise fun x y => ¬ (x = .ref .invalidValue ∧ y = .ref .constantValue) := by
    rw [decorationRefs_record hdec, List.pairwise_map, List.pairwise_append, List.pairwise_append]
    refine ⟨⟨?_, ?_, ?_⟩, ?_, ?_⟩
    · rw [List.pairwise_map]
      exact List.pairwise_of_forall (by intro a b; simp)
    · rw [List.pairwise_map]
      exact List.pairwise_of_forall (by intro a b; simp)
    · intro a ha b hb'
      obtain ⟨_, _, rfl⟩ := List.mem_map.mp ha
      simp
    · exact List.Pairwise.imp_of_mem (R := fun _ _ => True) (by intro a b _ hb' _ e; simp only [Kind.ref.injEq] at e; exact hrefs _ hb' e.2) (List.pairwise_of_forall (by simp))
    · intro a _ b hb' e
      simp only [Kind.ref.injEq] at e
      exact hrefs _ hb' e.2
  rw [← hkinds, List.pairwise_map] at hpw
  exact hpw

/-- The order of decorations is that of their normal form, and constants keep their order. -/
theorem _root_.Props.Storable.deps (hi : ∀ p m sz, t.descend p = some m → m.kind = .structure sz → ∀ f ∈ m.children, InvalidLast f)
    (hone : ∀ p m m', t.descend p = some m → t'.descend p = some m' → m.kind = .archive → SameOrder (constantsListed m) (constantsListed m'))
    {p : Path} (hr : Reachable (depChildren t) q p) (hp : Gen.isDef t p = true) : defDeps t' p = defDeps t p := by
  have hg := h.ground
  have hg' := h.groundAgain hx ht
  have hc := hg.compiled
  have hc' := hg'.compiled
  have hbp := (isDef_iff.mp hp).2
  have hstruct : ∀ {p : Path}, Reachable (depChildren t) q p → Gen.isDef t p = true → ∀ {m : Tree} {sz}, t.descend p = some m → m.kind = .structure sz →
      (∃ m' sz', t'.descend p = some m' ∧ m'.kind = .structure sz') ∧ defDeps t' p = defDeps t p := by
    intro p hr hp m sz hm hk
    obtain ⟨m0, m', h0, h1, hd, h2, h3⟩ := h.mirror hx ht hr hp
    rw [hm] at h0; cases h0
    rcases same_class h2 hd with ⟨sz1, sz2, e1, e2, e3⟩ | ⟨e, _, _⟩ | ⟨⟨_, e⟩, _⟩ | ⟨⟨_, _, e⟩, _⟩ <;> try (rw [hk] at e; cases e; done)
    have hbp := (isDef_iff.mp hp).2
    refine ⟨⟨m', _, h1, e2⟩, ?_⟩
    rw [hg.structure_deps hm hk hbp (hi _ _ _ hm hk), hg'.structure_deps h1 e2 hbp (h.invalidLast hx ht hr hp h1 e2), e3]
  obtain ⟨m, m', hm, h1, hd, h2, h3⟩ := h.mirror hx ht hr hp
  rcases same_class h2 hd with ⟨sz1, sz2, e1, e2, e3⟩ | ⟨e1, e2, e3⟩ | ⟨e1, e2⟩ | ⟨e1, e2⟩
  · exact (hstruct hr hp hm e1).2
  · rw [hg.archive_deps hm e1, hg'.archive_deps h1 e2, e3]
    congr 1
    -- constants to which fields refer
    have hq : ∀ {c : Path} {n : Tree} {b : BasicType} {v : Int}, t.descend c = some n → n.kind = .constant b v → c ≠ q := by
      rintro c n b v hn hk rfl
      have := walk_nowhere hr (hg.constant_leaf hn hk)
      rw [this, hn] at hm; cases hm
      rw [hk] at e1; cases e1
    obtain ⟨bl, b1, b2, b3⟩ := compile_blocks h.compiled
    obtain ⟨bl', b1', b2', b3'⟩ := compile_blocks ht
    have hpl : ∀ b ∈ bl, PlainNames b := fun b hb => lexical_plain (b2 b hb)
    have hpl' : ∀ b ∈ bl', PlainNames b := fun b hb => lexical_plain (b2' b hb)
    have hfield : ∀ {c : Path} {n n' : Tree} {b b' : BasicType} {v v' : Int}, Reachable (depChildren t) q c → Gen.isDef t c = true → t.descend c = some n → n.kind = .constant b v →
        t'.descend c = some n' → n'.kind = .constant b' v' → (FieldRefersTo t' c ↔ FieldRefersTo t c) := by
      intro c n n' b b' v v' hcr hcd hn hk hn' hk'
      rw [hg.fieldRefersTo hn hk, hg'.fieldRefersTo hn' hk']
      constructor
      · rintro ⟨p, m', sz, d1, d2, d3, d4⟩
        obtain ⟨r1, r2⟩ := h.isDef_back hx ht (isDef_iff.mpr ⟨⟨m', d1, by rw [d2]; rfl⟩, d3⟩)
        obtain ⟨m, m2, a1, a2, a3, a4, _⟩ := h.mirror hx ht r1 r2
        rw [d1] at a2; cases a2
        rcases same_class a4 a3 with ⟨sz1, sz2, e1, e2, e3⟩ | ⟨_, e, _⟩ | ⟨_, _, e⟩ | ⟨_, _, _, e⟩ <;> try (rw [d2] at e; cases e; done)
        exact ⟨p, m, _, a1, e1, d3, by rw [← (hstruct r1 r2 a1 e1).2]; exact d4⟩
      · intro hF
        rcases (hg.reach h.isDef hcr).1 hcd with e | ⟨d, d1, d2, d3⟩
        · exact absurd e (hq hn hk)
        obtain ⟨m, m2, a1, a2, a3, a4, a5⟩ := h.mirror hx ht d1 d2
        rcases same_class a4 a3 with ⟨sz1, sz2, e1, e2, e3⟩ | ⟨e1, _, _⟩ | ⟨e1, e2⟩ | ⟨e1, e2⟩
        · obtain ⟨_, s2⟩ := hstruct d1 d2 a1 e1
          exact ⟨d, m2, _, a2, e2, (isDef_iff.mp d2).2, by rw [s2]; exact d3⟩
        · exact absurd ((hg.fieldRefersTo hn hk).mpr hF) ((C55_unreferenced_constants hpl b3 a1 e1 hn hk).mp ((hg.archive_const a1 e1 hn hk).mp d3))
        · rw [hg.plain_deps a1 (.inl e1)] at d3; cases d3
        · rw [hg.plain_deps a1 (.inr e1)] at d3; cases d3
    have hmem : ∀ c, c ∈ (childrenOf m' (.ref .constantValue)).map Tree.targetPath ↔ c ∈ (childrenOf m (.ref .constantValue)).map Tree.targetPath := by
      have key : ∀ {t : Tree} (hg : Ground t) {p : Path} {m : Tree}, t.descend p = some m → m.kind = .archive → ∀ c, c ∈ (childrenOf m (.ref .constantValue)).map Tree.targetPath ↔
          (∃ n b v, t.descend c = some n ∧ n.kind = .constant b v) ∧ RefersTo m c := by
        intro t hg p m hm hk c
        simp only [List.mem_map, childrenOf, List.mem_filter, decide_eq_true_eq]
        constructor
        · rintro ⟨r, ⟨r1, r2⟩, rfl⟩
          obtain ⟨n, _, n2, n3, _⟩ := hg.compiled.target (hg.compiled.child hm r1) r2
          simp only [KindFits] at n3
          obtain ⟨b, v, n3⟩ := n3
          exact ⟨⟨n, b, v, n2, n3⟩, r, r1, r2, (hg.refTo hm r1 r2 n2).mpr rfl⟩
        · rintro ⟨⟨n, b, v, n2, n3⟩, r, r1, r2, r3⟩
          exact ⟨r, ⟨r1, r2⟩, (hg.refTo hm r1 r2 n2).mp r3⟩
      intro c
      rw [key hg' h1 e2, key hg hm e1]
      have hboth : ∀ {n n' : Tree} {b b' : BasicType} {v v' : Int}, Reachable (depChildren t) q c → Gen.isDef t c = true → t.descend c = some n → n.kind = .constant b v →
          t'.descend c = some n' → n'.kind = .constant b' v' → (RefersTo m' c ↔ RefersTo m c) := by
        intro n n' b b' v v' hcr hcd hn hk hn' hk'
        rw [C55_unreferenced_constants hpl b3 hm e1 hn hk, C55_unreferenced_constants hpl' b3' h1 e2 hn' hk', hfield hcr hcd hn hk hn' hk']
      constructor
      · rintro ⟨⟨n', b', v', n1, n2⟩, n3⟩
        have hnb : ¬ InBuiltin c := by
          intro hb
          obtain ⟨⟨sz, e⟩, _⟩ := hg'.index _ _ n1 (by rw [n2]; rfl) hb
          rw [n2] at e; cases e
        obtain ⟨r1, r2⟩ := h.isDef_back hx ht (isDef_iff.mpr ⟨⟨n', n1, by rw [n2]; rfl⟩, hnb⟩)
        obtain ⟨n, m2, a1, a2, a3, a4, _⟩ := h.mirror hx ht r1 r2
        rw [n1] at a2; cases a2
        rcases same_class a4 a3 with ⟨_, _, _, e, _⟩ | ⟨_, e, _⟩ | ⟨_, _, e⟩ | ⟨⟨b, v, e⟩, _⟩ <;> try (rw [n2] at e; cases e; done)
        exact ⟨⟨n, b, v, a1, e⟩, (hboth r1 r2 a1 e n1 n2).mp n3⟩
      · rintro ⟨⟨n, b, v, n1, n2⟩, n3⟩
        have hdep : c ∈ defDeps t p := (hg.archive_const hm e1 n1 n2).mpr n3
        obtain ⟨r2, j, hj⟩ := hg.deps_reachable hdep
        obtain ⟨i, hi'⟩ := hr
        have r1 : Reachable (depChildren t) q c := ⟨_, walk_trans hi' hj⟩
        obtain ⟨n0, n', a1, a2, a3, a4, _⟩ := h.mirror hx ht r1 r2
        rw [n1] at a1; cases a1
        rcases same_class a4 a3 with ⟨_, _, e, _, _⟩ | ⟨e, _, _⟩ | ⟨⟨_, e⟩, _⟩ | ⟨_, b', v', e⟩ <;> try (rw [n2] at e; cases e; done)
        exact ⟨⟨n', b', v', a2, e⟩, (hboth r1 r2 n1 n2 a2 e).mpr n3⟩
    -- no constant is listed twice
    have hnd : ∀ {t : Tree} (hc : Compiled t) {p : Path} {m : Tree}, t.descend p = some m → ((childrenOf m (.ref .constantValue)).map Tree.targetPath).Nodup := by
      intro t hc p m h1
      refine List.Nodup.map_on ?_ ((nodup_of_names (good_names hc.lk.good h1)).filter _)
      intro a ha b hb e
      have ea := hc.refChild h1 ha
      have eb := hc.refChild h1 hb
      obtain ⟨a1, a2⟩ := List.mem_filter.mp ha
      obtain ⟨b1, b2⟩ := List.mem_filter.mp hb
      obtain ⟨_, _, _, _, ta, _⟩ := hc.target (hc.child h1 a1) (by simpa using a2)
      obtain ⟨_, _, _, _, tb, _⟩ := hc.target (hc.child h1 b1) (by simpa using b2)
      rw [← ta, e, tb, eb] at ea
      injection ea with ea
      exact ea.symm
    exact sameOrder_eq (hnd hc hm) (hnd hc' h1) hmem (hone p m m' hm h1 e1)
  · rw [hg.plain_deps hm (.inl e1), hg'.plain_deps h1 (.inl e2)]
  · rw [hg.plain_deps hm (.inr e1), hg'.plain_deps h1 (.inr e2)]

end

end Gen
