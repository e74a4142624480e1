import Verif.Lemmas.GenAgainStep

/-! # The tree of a stored schema with its index types (for C106) -/

namespace Gen
open Spec Props

/-- References stay where they are. -/
theorem kept_ref {t0 root : Tree} (hg : Grows BuiltinOnly t0 root) (hw0 : WellNamed t0) (hw : WellNamed root) {p : Path} {n0 n : Tree}
    (h0 : t0.descend p = some n0) (h : root.descend p = some n) {x : Tree} {rk : RefKind} (hx : x ∈ n0.children) (hk : x.kind = .ref rk) : x ∈ n.children := by
  obtain ⟨n', ext, a1, _, _, a4, _⟩ := hg p n0 h0
  rw [h] at a1; cases a1
  have hm : (x.name, x.kind) ∈ info n := by rw [a4]; exact List.mem_append_left _ (info_mem hx)
  obtain ⟨y, y1, y2, y3⟩ := mem_info hm
  have hleaf : ∀ (r m : Tree), WellNamed r → r.descend p = some m → ∀ c ∈ m.children, c.kind = .ref rk → c = .mk c.name (.ref rk) [] := by
    intro r m hr hm c hc hck
    have hwm := wellNamed_descend hr hm
    have hwc : WellNamed c := by
      cases hwm with
      | ref => cases hc
      | node _ _ hcs => exact hcs c hc
    cases hwc with
    | ref => simp only [Tree.kind] at hck; rw [hck]; rfl
    | node _ h _ => exact absurd hck (h _)
  have e1 := hleaf t0 n0 hw0 h0 x hx hk
  have e2 := hleaf root n hw h y y1 (y3.trans hk)
  have : x = y := by rw [e1, e2, y2]
  rw [this]; exact y1

theorem definition_gist {k k' : Kind} (h : k.gist = k'.gist) : Spec.Kind.isDefinition k = Spec.Kind.isDefinition k' := by
  cases k <;> cases k' <;> simp_all [Kind.gist, Spec.Kind.isDefinition] <;> split at h <;> simp_all

theorem definition_not {k : Kind} (h : Spec.Kind.isDefinition k = true) : (∀ rk, k ≠ .ref rk) ∧ k ≠ .explicitReference ∧ k.isResource = false ∧ k ≠ .namespace := by
  cases k <;> simp_all [Spec.Kind.isDefinition, Kind.isResource]

theorem resource_gist {k k' : Kind} (h : k.gist = k'.gist) : k.isResource = k'.isResource := by
  cases k <;> cases k' <;> simp_all [Kind.gist, Kind.isResource] <;> split at h <;> simp_all

theorem isBuiltin_parent {k : Kind} {ks : List Kind} (h : ChildrenOk k ks) (hx : .ref .builtinStructure ∈ ks) : ∃ w o m, k = .resource (.multivector w) o m := by
  cases k with
  | root => rw [show ks = [] from h] at hx; cases hx
  | «namespace» => have := h _ hx; cases this
  | constant => rw [show ks = [] from h] at hx; cases hx
  | enumeration => have := h _ hx; cases this
  | enumValue => rw [show ks = [] from h] at hx; cases hx
  | «structure» sz => have := h _ hx; cases this
  | field ty =>
    exfalso
    cases ty with
    | basic => have := h _ hx; cases this
    | enum =>
      obtain ⟨cs, w, rfl, hcs⟩ := h
      rcases List.mem_append.mp hx with hx | hx
      · have := hcs _ hx; cases this
      · simp at hx
    | none =>
      obtain ⟨cs, w, rfl, hcs⟩ := h
      rcases List.mem_append.mp hx with hx | hx
      · have := hcs _ hx; cases this
      · simp at hx
  | archive => have := h _ hx; cases this
  | resource rk o m =>
    cases rk with
    | multivector w => exact ⟨w, o, m, rfl⟩
    | vector => obtain ⟨n, rfl⟩ := h; simp at hx
    | «instance» => obtain ⟨n, rfl⟩ := h; simp at hx
    | rawData => obtain ⟨n, rfl⟩ := h; simp at hx
    | archive => obtain ⟨n, rfl⟩ := h; simp at hx
    | bound => obtain ⟨n, rfl⟩ := h; simp at hx
  | explicitReference =>
    rw [show ks = _ from h] at hx
    simp at hx
  | ref => rw [show ks = [] from h] at hx; cases hx

/-- References to index types belong to multivectors. -/
theorem builtin_parent {s : Text} {t : Tree} (h : Compile s (.ok t)) {p : Path} {n c : Tree} (hn : t.descend p = some n) (hcm : c ∈ n.children)
    (hk : c.kind = .ref .builtinStructure) : ∃ w o m, n.kind = .resource (.multivector w) o m := by
  obtain ⟨k0, ks, e1, e2, e3⟩ := compiled_kinds h hn
  rcases e3 c hcm (by rw [hk]; simp) with ⟨x, hx, hxk⟩ | ⟨_, e'⟩
  · rw [hk] at hxk
    have hxe : x = .ref .builtinStructure := Same.ref_eq hxk.symm rfl
    obtain ⟨w, o, m, rfl⟩ := isBuiltin_parent e2 (hxe ▸ hx)
    obtain ⟨m', hm'⟩ := blank_resource e1.symm
    exact ⟨w, o, m', hm'⟩
  · rw [hk] at e'; cases e'

theorem againRoot {s : Text} {t : Tree} (h : Compile s (.ok t)) (hf : Flat t) {blocks : List PBlock} (hs : parseSource s = .ok blocks)
    (hno : ∀ b ∈ blocks, "_builtin".toList ∉ splitDot b.name) {q : Path} {stored : List PBlock} (hpl : ∀ b ∈ stored, PlainNames b) {t0 : Tree}
    (ht : buildNodeTree stored = .ok t0) (ha : Again t q t0) : ∃ root, appendBuiltins t0 = .ok root ∧ AgainRoot t q root := by
  have hc := compile_compiled h
  have hm := (built_merged ht).1
  have hw0 := (built_named hpl ht).1
  have hready : Ready t0 := ⟨hm.good, hw0, hm.name, hm.kind⟩
  have hmem : ∀ e ∈ multivectors t0, ∃ n o m, t0.descend e.1 = some n ∧ n.kind = .resource (.multivector e.2) o m := by
    rintro ⟨p, w⟩ he
    obtain ⟨pos, n, o, m, h1, h2, h3⟩ := multivectors_mem.mp he
    exact ⟨n, o, m, by rw [← h2]; exact descend_namesAt hm.good h1, h3⟩
  have hin : ∀ e ∈ multivectors t0, ∃ z x m rr, IndexIn t e.1 e.2 z x m rr := by
    intro e he
    obtain ⟨n, o, mx, h1, h2⟩ := hmem e he
    obtain ⟨p', m, m1, m2, m3, _⟩ := like_counterpart hc hf hw0 ha.like h1 (by rw [h2]; simp)
    rw [m3 (by rw [h2]; simp)] at m1
    have hk := m2.kind
    rw [h2] at hk
    obtain ⟨o', mx', hk'⟩ := gist_resource hk.symm
    obtain ⟨z, x, rr, hi⟩ := indexIn h hf hs hno m1 hk'
    exact ⟨z, x, m, rr, hi⟩
  have hix : Indexed t0 ((multivectors t0).map (·.1)) t0 := by
    refine ⟨hm.good, ?_, ?_⟩
    · intro p n w o m hn hk
      have : p ∈ (multivectors t0).map (·.1) := by
        obtain ⟨pos, h1, h2⟩ := descend_treeAt hn
        exact List.mem_map.mpr ⟨(p, w), multivectors_mem.mpr ⟨pos, n, o, m, h1, h2, hk⟩, rfl⟩
      rw [if_pos this]
      simp only [indexRefs, List.map_eq_nil_iff, List.filter_eq_nil_iff, info, List.mem_map]
      rintro x ⟨c, hcm, rfl⟩
      simpa using (((built_noIndex ht).descend hn).children c hcm).kind
    · intro q n w hn hq
      rw [hq] at hn; cases hn
  obtain ⟨root, f1, f2, f3, f4, f5, f6⟩ := foldlM_like hin (multivectors_nodup hm.good) hmem hix ha.like hready
  have happ : appendBuiltins t0 = .ok root := f1
  have hgr := (appendBuiltins_grows hm.good happ).2
  have counter : ∀ {p n}, root.descend p = some n → (∀ rk, n.kind ≠ .ref rk) → _ := fun hn hk => like_counterpart hc hf f3.named f2 hn hk
  -- what is neither new nor a namespace comes from the stored schema
  have old : ∀ p n, root.descend p = some n → ¬ NewKind n → ∃ n0, t0.descend p = some n0 ∧ n0.kind = n.kind := by
    intro p n hn hk
    rcases f4 p n hn with ⟨n0, h0⟩ | hnew
    · obtain ⟨n', g1, g2⟩ := f5 _ _ h0
      rw [hn] at g1; cases g1
      exact ⟨n0, h0, g2.symm⟩
    · exact absurd hnew hk
  refine ⟨root, happ, ?_⟩
  refine { good := f3.good, named := f3.named, name := f3.name, kind := f3.kind, shaped := appendBuiltins_shaped hm.good (built_shaped ht) happ,
           like := f2, defs := ?_, reach := ?_, index := ?_, types := ?_ }
  · intro p m hp hpm hbi hd
    obtain ⟨d, d1, d2, d3⟩ := ha.there p m hp hpm hbi hd
    obtain ⟨d', ext, g1, g2, g3, g4, g5⟩ := hgr p d d1
    refine ⟨d', g1, by rw [g3]; exact d2.kind, ?_⟩
    intro c hcm hck
    obtain ⟨c', c1, c2, c3⟩ := d3 c hcm hck
    have hmm : (c'.name, c'.kind) ∈ info d' := by rw [g4]; exact List.mem_append_left _ (info_mem c1)
    obtain ⟨y, y1, y2, y3⟩ := mem_info hmm
    refine ⟨y, y1, y2.trans c2, ?_⟩
    intro hres x hx hxk
    refine kept_ref hgr hw0 f3.named (descend_child hm.good d1 c1) ?_ (c3 hres x hx hxk) hxk
    have := descend_child f3.good g1 y1
    rw [y2] at this; exact this
  · intro p n c rk hn hcm hk hne
    have hcd := descend_child f3.good hn hcm
    obtain ⟨c0, h0, hk0⟩ := old _ c hcd (by
      rintro (e | e | ⟨w, e⟩ | e) <;> rw [hk] at e <;> simp [indexField] at e
      exact hne e)
    rw [hk] at hk0
    obtain ⟨a, b, p', e, e1, e2, mm, e3, e4⟩ := ha.only _ _ h0 (by rw [hk0]; simp) (by rw [hk0]; simp)
    obtain ⟨d, d1, d2, _⟩ := ha.there _ _ e1 e3 e2 e4
    have hdd : Spec.Kind.isDefinition d.kind = true := by rw [definition_gist d2.kind]; exact e4
    have hp' : p' ≠ [] := by
      rintro rfl
      rw [e, d1] at h0
      cases h0
      exact (definition_not hdd).1 _ hk0
    obtain ⟨p1, kl, rfl⟩ : ∃ p1 kl, p' = p1 ++ [kl] := ⟨_, _, (List.dropLast_append_getLast hp').symm⟩
    have hp : p = [a, b] ++ p1 := by
      have : p ++ [c.name] = ([a, b] ++ p1) ++ [kl] := by rw [e]; simp
      exact List.append_inj_left' this rfl
    refine ⟨[a, b], e1, ?_⟩
    by_cases hp1 : p1 = []
    · subst hp1
      rw [List.append_nil] at hp
      subst hp
      refine .inr ⟨rfl, ?_⟩
      obtain ⟨d', _, g1, _, g3, _⟩ := hgr _ d d1
      rw [hn] at g1; cases g1
      rw [g3]
      exact (definition_not hdd).2.1
    · left
      rw [hp, List.dropLast_append_of_ne_nil hp1]
      exact ⟨_, rfl⟩
  · intro p n c hn hcm hk
    have hnr : ∀ rk, n.kind ≠ .ref rk := by
      intro rk hnk
      rw [named_leaf f3.named hn hnk] at hcm; cases hcm
    obtain ⟨p', m, m1, m2, m3, m4⟩ := counter hn hnr
    obtain ⟨d, d1, d2, d3⟩ := m2.child hcm
    have d2 := d2.resolve_left (by rw [hk]; simp)
    have hdk : d.kind = .ref .builtinStructure := gist_ref_eq (by rw [← d3.kind, hk]) (by simp)
    obtain ⟨w, o, mx, hmk⟩ : ∃ w o mx, m.kind = .resource (.multivector w) o mx := builtin_parent h m1 d1 hdk
    have hne : n.kind ≠ .explicitReference := by
      intro he
      rw [(gist_explicit m2.kind).mp he] at hmk; cases hmk
    have := m3 hne
    subst this
    have hct : c.targetPath = indexTypePath p' w := by
      rw [(target_of_name d2).2]
      exact targetPath_of (indexTypePath_nodot (descend_nodot hc.lk.good m1) w) (hc.index _ _ _ _ _ m1 hmk d d1 hdk)
    have hnk := m2.kind
    rw [hmk] at hnk
    obtain ⟨o', mx', hnk⟩ := gist_resource hnk
    obtain ⟨n0, h0, hk0⟩ := old _ n hn (by rintro (e | e | ⟨w, e⟩ | e) <;> rw [hnk] at e <;> simp [indexField] at e)
    rw [hnk] at hk0
    have hmv : (p', w) ∈ multivectors t0 := by
      obtain ⟨pos, h1, h2⟩ := descend_treeAt h0
      exact multivectors_mem.mpr ⟨pos, n0, o', mx', h1, h2, hk0⟩
    obtain ⟨y, sz, y1, y2⟩ := f6 _ hmv
    refine ⟨y, ?_, by rw [y2]; simp, by rw [y2]; simp⟩
    rw [hct, ← indexTypePath_eq]
    exact y1
  · intro p r m hr hrk hpm x hx hxk
    obtain ⟨p', m', m1, m2, m3, _⟩ := counter hr (by intro rk e; rw [e] at hrk; cases hrk)
    rw [m3 (by intro e; rw [e] at hrk; cases hrk), hpm] at m1
    cases m1
    have hmr : m.kind.isResource = true := by rw [← resource_gist m2.kind]; exact hrk
    obtain ⟨r0, h0, hk0⟩ := old _ r hr (by rintro (e | e | ⟨w, e⟩ | e) <;> rw [e] at hrk <;> simp [indexField, Kind.isResource] at hrk)
    have hr0 : r0.kind.isResource = true := by rw [hk0]; exact hrk
    obtain ⟨a, b, p1, e, e1, e2, mm, e3, e4⟩ := ha.only _ _ h0 (by intro e; rw [e] at hr0; cases hr0) (by intro e; rw [e] at hr0; cases hr0)
    obtain ⟨d, d1, d2, d3⟩ := ha.there _ _ e1 e3 e2 e4
    have hdd : Spec.Kind.isDefinition d.kind = true := by rw [definition_gist d2.kind]; exact e4
    have hp1 : p1 ≠ [] := by
      rintro rfl
      rw [e, d1] at h0
      cases h0
      rw [(definition_not hdd).2.2.1] at hr0; cases hr0
    obtain ⟨p2, k, rfl⟩ : ∃ p2 k, p1 = p2 ++ [k] := ⟨_, _, (List.dropLast_append_getLast hp1).symm⟩
    have hpe : p = ([a, b] ++ p2) ++ [k] := by rw [e]; simp
    rw [hpe] at hpm
    obtain ⟨ar, a1, a2, _, a4⟩ := hc.parents _ _ _ hpm
    have a4 := a4 hmr
    have hp2 : p2 = [] := by
      by_contra hp2
      obtain ⟨p3, k', rfl⟩ : ∃ p3 k', p2 = p3 ++ [k'] := ⟨_, _, (List.dropLast_append_getLast hp2).symm⟩
      rw [← List.append_assoc] at a1
      obtain ⟨ns, n1, _, n3, _⟩ := hc.parents _ _ _ a1
      have n3 := n3 (by rw [a4]; rfl)
      have := flat_above hf n1 n3 e3 (by simp)
      exact (definition_not e4).2.2.2 this
    subst hp2
    rw [List.append_nil, e3] at a1
    cases a1
    obtain ⟨c', c1, c2, c3⟩ := d3 m a2 (.inr hmr)
    refine kept_ref hgr hw0 f3.named (p := p) ?_ hr (c3 hmr x hx hxk) hxk
    have hcd := descend_child hm.good d1 c1
    rw [c2, descend_last hpm] at hcd
    rw [hpe, List.append_nil]; exact hcd

end Gen
