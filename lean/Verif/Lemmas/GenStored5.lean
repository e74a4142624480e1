import Verif.Lemmas.GenStored4
import Verif.Lemmas.GenAlike

/-! # Classes and modules of what is compiled from a stored schema (for C107) -/

namespace Gen
open Spec Props Model

theorem sort_of {k k0 k1 : Kind} (h1 : k0.blank = k.blank) (h2 : k0.gist = k1.gist) :
    (k = .namespace → k1 = .namespace) ∧ (∀ sz, k = .structure sz → ∃ sz', k1 = .structure sz') ∧ (k = .archive → k1 = .archive) ∧
      ∀ a b c, k = .resource a b c → ∃ b' c', k1 = .resource a b' c' := by
  refine ⟨?_, ?_, ?_, ?_⟩
  · rintro rfl
    have : k0 = .namespace := blank_namespace.mp h1
    rw [this] at h2
    exact gist_plain h2.symm rfl
  · rintro sz rfl
    have : ∃ s, k0 = .structure s := by cases k0 <;> simp [Kind.blank] at h1 ⊢
    obtain ⟨s, rfl⟩ := this
    exact gist_structure h2.symm
  · rintro rfl
    have : k0 = .archive := by cases k0 <;> simp [Kind.blank] at h1 ⊢
    rw [this] at h2
    exact gist_plain h2.symm rfl
  · rintro a b c rfl
    have : ∃ b c, k0 = .resource a b c := by
      cases k0 <;> simp [Kind.blank] at h1 ⊢
      exact h1.1
    obtain ⟨b', c', rfl⟩ := this
    exact gist_resource h2.symm

/-- Schemas of archives reachable from `q`, and of their resources, are the same in `t` and `t'`. -/
def SameText (t t' : Tree) (q : Path) : Prop :=
  ∀ p m, Reachable (depChildren t) q p → t.descend p = some m → m.kind = .archive → ¬ InBuiltin p →
    (∀ x x', Schema t p (.ok x) → Schema t' p (.ok x') → x' = x) ∧
    ∀ r ∈ m.children, (resourceLayout r).isSome → ∀ x x', Schema t (p ++ [r.name]) (.ok x) → Schema t' (p ++ [r.name]) (.ok x') → x' = x

theorem SameText.mono {t t' : Tree} {q p : Path} (h : SameText t t' q) (hr : Reachable (depChildren t) q p) : SameText t t' p :=
  fun x m hx => h x m (reachable_trans hr hx)

section
variable {source source' : Text} {blocks blocks' : List PBlock} {t t' : Tree}

mutual
theorem resource_equal (hs : Side source blocks t) (hs' : Side source' blocks' t') : ∀ {q : Path} {r : Tree} {s : Sig}, ResourceAt t q r s → t.descend q = some r →
    Agree t t' q → SameText t t' q → (∀ x x', Schema t q (.ok x) → Schema t' q (.ok x') → x' = x) → ∀ {r' : Tree} {s' : Sig}, t'.descend q = some r' → ResourceAt t' q r' s' → resourceLayout r = resourceLayout r' → s = s'
  | q, r, _, .instance (ref := ref) hk hch hst hx, hr, ha, hb, hq, r', s', hr', h', hl => by
    unfold resourceLayout at hl
    rw [hk] at hl
    cases h' with
    | «instance» hk' hch' hst' hx' =>
      rw [hk'] at hl
      simp only [Option.some.injEq, ResourceLayout.mk.injEq] at hl
      have := targetPaths_eq hl.2.2.2.1
      rw [hch, hch'] at this
      simp only [List.map_cons, List.map_nil, List.cons.injEq, and_true] at this
      rw [← this] at hst'
      rw [ref_structure (compile_compiled hs.compiled) hs.nobuiltin hr ha (by rw [hch]; simp) hst hst', hl.2.2.1]
      rw [hq _ _ hx hx']
    | vector hk' | multivector hk' | rawData hk' | archive hk' => rw [hk'] at hl; simp at hl
  | q, r, _, .vector (ref := ref) hk hch hst hx, hr, ha, hb, hq, r', s', hr', h', hl => by
    unfold resourceLayout at hl
    rw [hk] at hl
    cases h' with
    | vector hk' hch' hst' hx' =>
      rw [hk'] at hl
      simp only [Option.some.injEq, ResourceLayout.mk.injEq] at hl
      have := targetPaths_eq hl.2.2.2.1
      rw [hch, hch'] at this
      simp only [List.map_cons, List.map_nil, List.cons.injEq, and_true] at this
      rw [← this] at hst'
      rw [ref_structure (compile_compiled hs.compiled) hs.nobuiltin hr ha (by rw [hch]; simp) hst hst', hl.2.2.1]
      rw [hq _ _ hx hx']
    | «instance» hk' | multivector hk' | rawData hk' | archive hk' => rw [hk'] at hl; simp at hl
  | q, r, _, .multivector (index := index) hk hch hst hss hx, hr, ha, hb, hq, r', s', hr', h', hl => by
    unfold resourceLayout at hl
    rw [hk] at hl
    cases h' with
    | multivector hk' hch' hst' hss' hx' =>
      rw [hk'] at hl
      simp only [Option.some.injEq, ResourceLayout.mk.injEq, ResKind.multivector.injEq] at hl
      have i1 := (index_class_any hs.parsed hs.compiled hs.undeclared hr hk (by rw [hch]; simp) hst).2
      have i2 := (index_class_any hs'.parsed hs'.compiled hs'.undeclared hr' hk' (by rw [hch']; simp) hst').2
      rw [← hl.2.1] at i2
      rw [structures_eq (compile_compiled hs.compiled) hs.nobuiltin hr ha (fun x hx => hx) (targetPaths_eq hl.2.2.2.1) hss hss', hl.2.2.1, i1, i2]
      rw [hq _ _ hx hx']
    | «instance» hk' | vector hk' | rawData hk' | archive hk' => rw [hk'] at hl; simp at hl
  | q, r, _, .rawData hk hx, hr, ha, hb, hq, r', s', hr', h', hl => by
    unfold resourceLayout at hl
    rw [hk] at hl
    cases h' with
    | rawData hk' hx' =>
      rw [hk'] at hl
      simp only [Option.some.injEq, ResourceLayout.mk.injEq] at hl
      rw [hl.2.2.1]
      rw [hq _ _ hx hx']
    | «instance» hk' | vector hk' | multivector hk' | archive hk' => rw [hk'] at hl; simp at hl
  | q, r, _, .archive (ref := ref) hk hch hA hx, hr, ha, hb, hq, r', s', hr', h', hl => by
    unfold resourceLayout at hl
    rw [hk] at hl
    cases h' with
    | archive hk' hch' hA' hx' =>
      rw [hk'] at hl
      simp only [Option.some.injEq, ResourceLayout.mk.injEq] at hl
      have := targetPaths_eq hl.2.2.2.2
      rw [hch, hch'] at this
      simp only [List.map_cons, List.map_nil, List.cons.injEq, and_true] at this
      rw [← this] at hA'
      have hm : ref ∈ childrenOf r (.ref .archive) := by rw [hch]; simp
      obtain ⟨hm, hrk⟩ := List.mem_filter.mp hm
      have hrk : ref.kind = .ref .archive := by simpa using hrk
      have hd := (compile_compiled hs.compiled).child hr hm
      have hnb := hs.nobuiltin _ _ _ hd hrk (by simp)
      have hreach : Reachable (depChildren t) q ref.targetPath := by
        refine ⟨1, .step (.refl _) ?_⟩
        unfold depChildren
        rw [hr]
        exact List.mem_append_right _ (List.mem_map_of_mem (List.mem_filter.mpr ⟨hm, by rw [hrk]; rfl⟩))
      have e1 := archive_equal hs hs' hA (ha.mono hreach) (hb.mono hreach) (fun hi => hnb (List.dropLast_subset _ hi)) hA'
      rw [hl.2.2.1, e1, hq _ _ hx hx']
    | «instance» hk' | vector hk' | multivector hk' | rawData hk' => rw [hk'] at hl; simp at hl
theorem resources_equal (hs : Side source blocks t) (hs' : Side source' blocks' t') : ∀ {p : Path} {rs : List Tree} {ss : List (String × Sig)}, ResourcesAt t p rs ss →
    (∀ r ∈ rs, t.descend (p ++ [r.name]) = some r ∧ Agree t t' (p ++ [r.name]) ∧ SameText t t' (p ++ [r.name]) ∧
      ∀ x x', Schema t (p ++ [r.name]) (.ok x) → Schema t' (p ++ [r.name]) (.ok x') → x' = x) → ∀ {rs' : List Tree} {ss' : List (String × Sig)},
    (∀ r ∈ rs', t'.descend (p ++ [r.name]) = some r) → ResourcesAt t' p rs' ss' →
    rs.map (fun r => (r.name, resourceLayout r)) = rs'.map (fun r => (r.name, resourceLayout r)) → ss = ss'
  | p, _, _, .nil, _, rs', ss', _, h', hl => by
    cases rs' with
    | nil => cases h'; rfl
    | cons => cases hl
  | p, _, _, .cons h1 h2, hr, rs', ss', hr', h', hl => by
    cases h' with
    | nil => cases hl
    | cons g1 g2 =>
      simp only [List.map_cons, List.cons.injEq, Prod.mk.injEq] at hl
      have a1 := hr _ (List.mem_cons_self ..)
      have a2 := hr' _ (List.mem_cons_self ..)
      rw [← hl.1.1] at g1 a2 ⊢
      rw [resource_equal hs hs' h1 a1.1 a1.2.1 a1.2.2.1 a1.2.2.2 a2 g1 hl.1.2,
        resources_equal hs hs' h2 (fun r hx => hr r (List.mem_cons_of_mem _ hx)) (fun r hx => hr' r (List.mem_cons_of_mem _ hx)) g2 hl.2]
theorem archive_equal (hs : Side source blocks t) (hs' : Side source' blocks' t') : ∀ {p : Path} {A : ArchiveType}, ArchiveAt t p A → Agree t t' p → SameText t t' p → ¬ InBuiltin p →
    ∀ {A' : ArchiveType}, ArchiveAt t' p A' → A = A'
  | p, _, .mk (n := n) hn hk hx hres, ha, hb, hnb, A', h' => by
    cases h' with
    | @mk _ n' x' rs' hn' hk' hx' hres' =>
      obtain ⟨m', e1, e2⟩ := ha p n ⟨0, .refl _⟩ hn (by rw [hk]; rfl) hnb
      rw [hn'] at e1; cases e1
      unfold meaning at e2
      rw [hk, hk'] at e2
      simp only [Option.some.injEq, Meaning.archive.injEq] at e2
      obtain ⟨e3, e4, _⟩ := e2
      have hc := compile_compiled hs.compiled
      have hc' := compile_compiled hs'.compiled
      obtain ⟨b1, b2⟩ := hb p n ⟨0, .refl _⟩ hn hk hnb
      rw [b1 _ _ hx hx', e3]
      congr 1
      refine resources_equal hs hs' hres ?_ ?_ hres' ?_
      · intro r hr
        obtain ⟨hr1, hr2⟩ := List.mem_filter.mp hr
        suffices hstep : Reachable (depChildren t) p (p ++ [r.name]) from ⟨hc.child hn hr1, ha.mono hstep, hb.mono hstep, b2 r hr1 hr2⟩
        refine ⟨1, .step (.refl _) ?_⟩
        unfold depChildren
        rw [hn]
        exact List.mem_append_left _ (List.mem_map.mpr ⟨r, List.mem_filter.mpr ⟨hr1, by show (!r.kind.isReference) = true; rw [isResource_of_layout hr2]; rfl⟩, rfl⟩)
      · intro r hr
        exact hc'.child hn' (List.mem_filter.mp hr).1
      · have key : ∀ l : List Tree, (l.filter fun r => (resourceLayout r).isSome).map (fun r => (r.name, resourceLayout r)) =
            (l.filterMap resourceLayout).map fun x => (x.name, some x) := by
          intro l
          induction l with
          | nil => rfl
          | cons a l ih =>
            cases hf : resourceLayout a with
            | none => rw [List.filterMap_cons_none hf, List.filter_cons_of_neg (by simp [hf]), ih]
            | some x =>
              have : x.name = a.name := by
                unfold resourceLayout at hf
                split at hf <;> cases hf; rfl
              rw [List.filterMap_cons_some hf, List.filter_cons_of_pos (by simp [hf]), List.map_cons, List.map_cons, ih, hf, this]
        rw [key, key, e4]
end

end

section
variable {s : Text} {t : Tree} {q : Path} (h : Storable s t q) {x : Text} (hx : Schema t q (.ok x)) {t' : Tree} (ht : Compile x (.ok t'))
include h hx ht

/-- Everything but references was there before. -/
theorem _root_.Props.Storable.below {p : Path} {n : Tree} (hp : p ≠ []) (hn : t'.descend p = some n) (hr : ∀ rk, n.kind ≠ .ref rk) (he : n.kind ≠ .explicitReference) :
    ∃ m, t.descend p = some m ∧ (n.kind = .namespace → m.kind = .namespace) ∧ (∀ sz, n.kind = .structure sz → ∃ sz', m.kind = .structure sz') ∧
      (n.kind = .archive → m.kind = .archive) ∧ ∀ a b c, n.kind = .resource a b c → ∃ b' c', m.kind = .resource a b' c' := by
  obtain ⟨bs, st, hps, hl, hrt⟩ := h.stages hx ht
  have hc := compile_compiled h.compiled
  cases p using List.reverseRecOn with
  | nil => exact absurd rfl hp
  | append_singleton p k =>
  obtain ⟨y, y1, y2, y3⟩ := descend_parent hn
  obtain ⟨y0, z1, z2, z3⟩ := stages_back st hl y1 y2
  rcases z3 with ⟨r, r1, r2, r3⟩ | ⟨_, hk'⟩
  swap
  · exact absurd hk' (hr _)
  have hrd : st.resolved.descend (p ++ [k]) = some r := by rw [← y3, ← r2]; exact descend_child hrt.good z1 r1
  have rr : ∀ rk, r.kind ≠ .ref rk := by
    intro rk e
    rw [e] at r3
    exact hr _ (blank_ref.mp r3.symm)
  have re : r.kind ≠ .explicitReference := by
    intro e
    rw [e] at r3
    apply he
    cases hk : n.kind <;> rw [hk] at r3 <;> simp [Kind.blank] at r3 ⊢
  obtain ⟨m, g1, g2⟩ := hrt.plain hc h.flat hrd rr re
  exact ⟨m, g1, sort_of r3 g2.kind⟩

/-- What can be imported before can be imported afterwards. -/
theorem _root_.Props.Storable.importable (hi : Importable t) : Importable t' := by
  have hg' := h.groundAgain hx ht
  have hc' := hg'.compiled
  have hlay : ∀ {r : Tree}, (resourceLayout r).isSome ↔ ∃ a b c, r.kind = .resource a b c ∧ a ≠ .bound := by
    intro r
    unfold resourceLayout
    split <;> simp_all
  have hclass : ∀ p c, ClassAt t' p c → ClassAt t p c := by
    rintro p c ⟨n, hn, hcn⟩
    have hp : p ≠ [] := by
      rintro rfl
      simp only [Tree.descend, Option.some.injEq] at hn
      subst hn
      rw [hc'.rootKind] at hcn
      rcases hcn with ⟨⟨_, e⟩, _⟩ | ⟨e, _⟩ <;> cases e
    obtain ⟨m, m1, m2, m3, m4, m5⟩ := h.below hx ht hp hn (by rintro rk e; rw [e] at hcn; rcases hcn with ⟨⟨_, e⟩, _⟩ | ⟨e, _⟩ <;> cases e)
      (by rintro e; rw [e] at hcn; rcases hcn with ⟨⟨_, e⟩, _⟩ | ⟨e, _⟩ <;> cases e)
    refine ⟨m, m1, ?_⟩
    rcases hcn with ⟨⟨sz, e⟩, hcn⟩ | ⟨e, hcn⟩
    · exact .inl ⟨m3 _ e, hcn⟩
    · exact .inr ⟨m4 e, hcn⟩
  refine ⟨?_, ?_, ?_⟩
  · intro k n hn
    have hroot : t'.descend [] = some t' := rfl
    obtain ⟨y, c0, c1, c2⟩ := descend_parent (p := []) (k := k) hn
    rw [hroot] at c0; cases c0
    have hnk : n.kind = .namespace := by
      by_contra hne
      obtain ⟨k0, ks, e1, e2, e3⟩ := compiled_kinds ht hroot
      rw [hc'.rootKind] at e1
      have : k0 = .root := blank_root e1
      subst this
      rcases e3 n c1 hne with ⟨x, x1, _⟩ | ⟨e, _⟩
      · rw [show ks = [] from e2] at x1; cases x1
      · rw [hc'.rootKind] at e; cases e
    obtain ⟨m, m1, _⟩ := h.below hx ht (by simp) hn (by rw [hnk]; simp) (by rw [hnk]; simp)
    exact hi.letters k m m1
  · intro p q c h1 h2
    exact hi.classes p q c (hclass _ _ h1) (hclass _ _ h2)
  · intro p n hn hk r hr hrl
    have hp : p ≠ [] := by
      rintro rfl
      simp only [Tree.descend, Option.some.injEq] at hn
      subst hn
      rw [hc'.rootKind] at hk; cases hk
    obtain ⟨m, m1, _, _, m4, _⟩ := h.below hx ht hp hn (by rw [hk]; simp) (by rw [hk]; simp)
    have hmk := m4 hk
    have key : ∀ r ∈ n.children, (resourceLayout r).isSome → ∃ x ∈ m.children, x.name = r.name ∧ (resourceLayout x).isSome := by
      intro r hr hrl
      obtain ⟨a, b, c, e1, e2⟩ := hlay.mp hrl
      obtain ⟨x, x1, _, _, _, x5⟩ := h.below hx ht (by simp) (hc'.child hn hr) (by rw [e1]; simp) (by rw [e1]; simp)
      obtain ⟨b', c', x5⟩ := x5 _ _ _ e1
      obtain ⟨y, y1, y2, y3⟩ := descend_parent x1
      rw [m1] at y1; cases y1
      exact ⟨x, y2, y3, hlay.mpr ⟨_, _, _, x5, e2⟩⟩
    obtain ⟨x, x1, x2, x3⟩ := key r hr hrl
    obtain ⟨i1, i2⟩ := hi.resources p m m1 hmk x x1 x3
    rw [x2] at i1 i2
    refine ⟨i1, ?_⟩
    intro r' hr' hrl' hup
    obtain ⟨y, y1, y2, y3⟩ := key r' hr' hrl'
    have := i2 y y1 y3 (by rw [y2]; exact hup)
    have hnm : r.name = r'.name := by rw [← x2, ← y2, this]
    have e1 := hc'.child hn hr
    have e2 := hc'.child hn hr'
    rw [hnm, e2] at e1
    cases e1; rfl

omit hx ht in
theorem _root_.Props.Storable.side : ∃ bl, Side s bl t := by
  obtain ⟨bl, hp, _⟩ := compile_blocks h.compiled
  exact ⟨bl, hp, h.compiled, h.noBuiltin, h.noBuiltinBlock _ hp⟩

theorem _root_.Props.Storable.sideAgain : ∃ bl, Side x bl t' := by
  obtain ⟨bl, _, hp, _⟩ := h.stages hx ht
  exact ⟨bl, hp, ht, (h.groundAgain hx ht).noBuiltin, h.noBuiltinAgain hx hp⟩

theorem _root_.Props.Storable.agree : Agree t t' q := by
  intro p m hr hm hd hp
  obtain ⟨m', h1, _, h2⟩ := C106_same h hx ht hr hm hd hp
  exact ⟨m', h1, h2⟩

theorem _root_.Props.Storable.sameText (hs : Settled t t') : SameText t t' q := by
  intro p m hr hm hk hp
  have hd : Gen.isDef t p = true := isDef_iff.mpr ⟨⟨m, hm, by rw [hk]; rfl⟩, hp⟩
  obtain ⟨m0, m', a1, a2, a3, a4, a5⟩ := h.mirror hx ht hr hd
  rw [hm] at a1; cases a1
  have harch : m'.kind = .archive ∧ archiveRecord m' = archiveRecord m := by
    rcases same_class a4 a3 with ⟨_, _, e, _, _⟩ | ⟨_, e2, e3⟩ | ⟨⟨_, e⟩, _⟩ | ⟨⟨_, _, e⟩, _⟩ <;> first | exact ⟨e2, e3⟩ | (rw [hk] at e; cases e)
  refine ⟨fun y y' hy hy' => h.definitionText hx ht hs.decorations hs.constants hr hd hy hy', ?_⟩
  intro r hrm hrl y y' hy hy'
  have hg := h.ground
  have hg' := h.groundAgain hx ht
  have hrk : r.kind.isResource = true := by
    unfold resourceLayout at hrl
    split at hrl <;> simp_all [Kind.isResource]
  have hrd := hg.compiled.child hm hrm
  obtain ⟨n', b1, b2, b3, b4, b5⟩ := written_child harch.2 hrm (hg.written hrd hrk)
  have hn' := hg'.compiled.child a2 b1
  rw [b2] at hn'
  exact h.resourceText hx ht hs.decorations hs.constants hr hd hrd hrk hn' b5 b3 b4 hy hy'

end

end Gen
