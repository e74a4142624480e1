import Verif.Lemmas.GenStored

/-! # The dependencies of what is compiled from a stored schema (for C107) -/

namespace Gen
open Spec Props

/-! ## Constants -/

section
variable {t : Tree} (hg : Ground t)
include hg

/-- Fields belong to structures. -/
theorem Ground.fieldOwner {p : Path} {n c : Tree} (hn : t.descend p = some n) (hcm : c ∈ n.children) (hk : c.kind.isField = true) : ∃ sz, n.kind = .structure sz := by
  obtain ⟨s, hs⟩ := hg.source
  obtain ⟨k0, ks, e1, e2, e3⟩ := compiled_kinds hs hn
  rcases e3 c hcm (by intro e; rw [e] at hk; cases hk) with ⟨x, x1, x2⟩ | ⟨_, h⟩
  swap
  · rw [h] at hk; cases hk
  have hx : x.isField = true := by
    cases hck : c.kind <;> rw [hck] at hk x2 <;> first | (cases hk; done) | skip
    cases x <;> simp [Kind.blank] at x2
    rfl
  cases k0 with
  | «structure» sz =>
    cases hnk : n.kind <;> rw [hnk] at e1 <;> simp [Kind.blank] at e1
    exact ⟨_, rfl⟩
  | root => rw [show ks = [] from e2] at x1; cases x1
  | constant a b => rw [show ks = [] from e2] at x1; cases x1
  | enumValue a b => rw [show ks = [] from e2] at x1; cases x1
  | ref a => rw [show ks = [] from e2] at x1; cases x1
  | «namespace» => have := e2 _ x1; cases x <;> first | (cases hx; done) | cases this
  | enumeration b => have := e2 _ x1; cases x <;> first | (cases hx; done) | cases this
  | archive => have := e2 _ x1; cases x <;> first | (cases hx; done) | cases this
  | explicitReference =>
    rw [show ks = [.ref .resource, .ref .field, .ref .structure] from e2] at x1
    simp only [List.mem_cons, List.not_mem_nil, or_false] at x1
    rcases x1 with rfl | rfl | rfl <;> cases hx
  | field ty rg o =>
    exfalso
    cases ty with
    | basic b => have := e2 _ x1; cases x <;> first | (cases hx; done) | cases this
    | enum a b =>
      obtain ⟨cs, w, rfl, hcs⟩ := e2
      rcases List.mem_append.mp x1 with h | h
      · have := hcs _ h; cases x <;> first | (cases hx; done) | cases this
      · rw [List.mem_singleton] at h; rw [h] at hx; cases hx
    | none =>
      obtain ⟨cs, w, rfl, hcs⟩ := e2
      rcases List.mem_append.mp x1 with h | h
      · have := hcs _ h; cases x <;> first | (cases hx; done) | cases this
      · rw [List.mem_singleton] at h; rw [h] at hx; cases hx
  | resource rk o m =>
    exfalso
    cases rk with
    | vector => obtain ⟨n, rfl⟩ := e2; simp only [List.mem_append, List.mem_replicate, List.mem_singleton] at x1; rcases x1 with ⟨_, rfl⟩ | rfl <;> cases hx
    | «instance» => obtain ⟨n, rfl⟩ := e2; simp only [List.mem_append, List.mem_replicate, List.mem_singleton] at x1; rcases x1 with ⟨_, rfl⟩ | rfl <;> cases hx
    | multivector w => obtain ⟨n, a, b, rfl⟩ := e2; simp only [List.mem_append, List.mem_replicate] at x1; rcases x1 with (⟨_, rfl⟩ | ⟨_, rfl⟩) | ⟨_, rfl⟩ <;> cases hx
    | rawData => obtain ⟨n, rfl⟩ := e2; simp only [List.mem_replicate] at x1; obtain ⟨_, rfl⟩ := x1; cases hx
    | archive => obtain ⟨n, rfl⟩ := e2; simp only [List.mem_append, List.mem_replicate, List.mem_singleton] at x1; rcases x1 with ⟨_, rfl⟩ | rfl <;> cases hx
    | bound => obtain ⟨n, rfl⟩ := e2; simp only [List.mem_replicate] at x1; obtain ⟨_, rfl⟩ := x1; cases hx

theorem Ground.resource_kids {p : Path} {r c : Tree} (hr : t.descend p = some r) (hres : r.kind.isResource = true) (hcm : c ∈ r.children) :
    c.kind = .explicitReference ∨ c.kind.isReference = true := by
  have hc := hg.compiled
  cases hk : r.kind <;> rw [hk] at hres <;> first | (cases hres; done) | skip
  rename_i k o mx
  have hch := hc.resource p r k o mx hr hk
  rw [hc.resourceKinds hg.flat hr (by rw [hk]; rfl)] at hch
  have hm : c.kind ∈ r.children.map Tree.kind := List.mem_map_of_mem hcm
  cases k <;> simp only [ChildrenOk] at hch
  case multivector =>
    obtain ⟨a, b, d, e⟩ := hch
    rw [e] at hm
    simp only [List.mem_append, List.mem_replicate] at hm
    rcases hm with (⟨_, e⟩ | ⟨_, e⟩) | ⟨_, e⟩ <;> rw [e] <;> simp [Kind.isReference]
  all_goals
    obtain ⟨a, e⟩ := hch
    rw [e] at hm
    simp only [List.mem_append, List.mem_replicate, List.mem_singleton] at hm
    grind [Kind.isReference]

/-- Resources do not refer to constants. -/
theorem Ground.resource_noConst {p : Path} {n c : Tree} (hn : t.descend p = some n) (hr : n.kind.isResource = true) (hcm : c ∈ n.children) : ¬ IsConstRef c := by
  obtain ⟨s, hs⟩ := hg.source
  obtain ⟨k0, ks, e1, e2, e3⟩ := compiled_kinds hs hn
  intro hk
  rcases e3 c hcm (by rcases hk with e | e <;> rw [e] <;> simp) with ⟨x, x1, x2⟩ | ⟨h, _⟩
  swap
  · rw [h] at hr; cases hr
  have hx : x = .ref .constantValue ∨ x = .ref .invalidValue := by
    rcases hk with e | e <;> rw [e] at x2
    · exact .inl (blank_ref.mp x2)
    · exact .inr (blank_ref.mp x2)
  cases k0 with
  | resource rk o m =>
    cases rk with
    | vector => obtain ⟨n, rfl⟩ := e2; simp only [List.mem_append, List.mem_replicate, List.mem_singleton] at x1; rcases x1 with ⟨_, rfl⟩ | rfl <;> rcases hx with h | h <;> cases h
    | «instance» => obtain ⟨n, rfl⟩ := e2; simp only [List.mem_append, List.mem_replicate, List.mem_singleton] at x1; rcases x1 with ⟨_, rfl⟩ | rfl <;> rcases hx with h | h <;> cases h
    | multivector w => obtain ⟨n, a, b, rfl⟩ := e2; simp only [List.mem_append, List.mem_replicate] at x1; rcases x1 with (⟨_, rfl⟩ | ⟨_, rfl⟩) | ⟨_, rfl⟩ <;> rcases hx with h | h <;> cases h
    | rawData => obtain ⟨n, rfl⟩ := e2; simp only [List.mem_replicate] at x1; obtain ⟨_, rfl⟩ := x1; rcases hx with h | h <;> cases h
    | archive => obtain ⟨n, rfl⟩ := e2; simp only [List.mem_append, List.mem_replicate, List.mem_singleton] at x1; rcases x1 with ⟨_, rfl⟩ | rfl <;> rcases hx with h | h <;> cases h
    | bound => obtain ⟨n, rfl⟩ := e2; simp only [List.mem_replicate] at x1; obtain ⟨_, rfl⟩ := x1; rcases hx with h | h <;> cases h
  | _ =>
    cases hnk : n.kind <;> rw [hnk] at e1 hr <;> first | (cases hr; done) | skip
    simp [Kind.blank] at e1

theorem Ground.refTo {p : Path} {n c : Tree} (hn : t.descend p = some n) (hcm : c ∈ n.children) {rk : RefKind} (hk : c.kind = .ref rk) {x : Path} {m : Tree}
    (hm : t.descend x = some m) : c.target = pathText x ↔ c.targetPath = x := by
  have hc := hg.compiled
  obtain ⟨_, _, _, _, h, _⟩ := hc.target (hc.child hn hcm) hk
  constructor
  · intro e
    exact targetPath_of (descend_nodot hc.lk.good hm) e
  · intro e; rw [← h, e]

theorem Ground.constRef {p : Path} {n c : Tree} (hn : t.descend p = some n) (hcm : c ∈ n.children) (hk : c.kind.isTypeReference = true) {x : Path} {m : Tree}
    {b : BasicType} {v : Int} (hm : t.descend x = some m) (hmk : m.kind = .constant b v) (he : c.targetPath = x) : IsConstRef c := by
  have hc := hg.compiled
  cases hck : c.kind <;> rw [hck] at hk <;> first | (cases hk; done) | skip
  rename_i rk
  obtain ⟨y, _, h2, h3, _⟩ := hc.target (hc.child hn hcm) hck
  rw [he, hm] at h2; cases h2
  unfold IsConstRef
  rw [hck]
  rw [hmk] at h3
  cases rk <;> simp_all [KindFits, Kind.isTypeReference, RefKind.isType]

/-- The constants to which a structure refers. -/
theorem Ground.structure_const {p : Path} {m : Tree} {sz : Option Nat} (hm : t.descend p = some m) (hk : m.kind = .structure sz) (hp : ¬ InBuiltin p) {x : Path} {n : Tree}
    {b : BasicType} {v : Int} (hx : t.descend x = some n) (hn : n.kind = .constant b v) :
    x ∈ defDeps t p ↔ ∃ f ∈ m.children, ∃ r ∈ f.children, IsConstRef r ∧ r.targetPath = x := by
  have hc := hg.compiled
  have hl : defDeps t p = refsBelow (isDef t) m := by unfold defDeps; rw [hm]
  have hfk : ∀ f ∈ m.children, f.kind.isField = true ∧ ∀ c ∈ f.children, c.kind.isTypeReference = true ∧ c.kind ≠ .ref .builtinStructure := by
    intro f hf
    have hty : ∀ c, IsConstRef c → c.kind.isTypeReference = true ∧ c.kind ≠ .ref .builtinStructure := by
      rintro c (h | h) <;> rw [h] <;> simp [Kind.isTypeReference, RefKind.isType]
    rcases hg.fieldKids hm hk hp hf with ⟨b, rg, o, h1, h2⟩ | ⟨nm, b, rg, o, l, e, w, h1, h2, h3, h4, h5⟩
    · exact ⟨by rw [h1]; rfl, fun c hcm => hty c (h2 c hcm)⟩
    · refine ⟨by rw [h1]; rfl, fun c hcm => ?_⟩
      rw [h2] at hcm
      rcases List.mem_append.mp hcm with hcm | hcm
      · exact hty c (h5 c hcm)
      · simp only [List.mem_singleton] at hcm
        subst hcm
        rw [h3]; simp [Kind.isTypeReference, RefKind.isType]
  rw [hl, refsBelow_eq, List.mem_append]
  constructor
  · rintro (h | h)
    · obtain ⟨f, hf, hxf⟩ := List.mem_flatMap.mp h
      have hf := (List.mem_filter.mp hf).1
      rw [hg.refsBelow_leaves (hc.child hm hf) (hfk f hf).2] at hxf
      obtain ⟨r, hr, e⟩ := List.mem_map.mp hxf
      exact ⟨f, hf, r, hr, hg.constRef (hc.child hm hf) hr ((hfk f hf).2 r hr).1 hx hn e, e⟩
    · obtain ⟨h, _⟩ := List.mem_filter.mp h
      obtain ⟨c, hcm, _⟩ := List.mem_map.mp h
      obtain ⟨hcm, hck⟩ := List.mem_filter.mp hcm
      have := (hfk c hcm).1
      cases hk : c.kind <;> rw [hk] at this hck <;> first | (cases this; done) | cases hck
  · rintro ⟨f, hf, r, hr, hrc, e⟩
    refine .inl (List.mem_flatMap.mpr ⟨f, List.mem_filter.mpr ⟨hf, ?_⟩, ?_⟩)
    · have := (hfk f hf).1
      cases hk : f.kind <;> rw [hk] at this <;> first | (cases this; done) | rfl
    · rw [hg.refsBelow_leaves (hc.child hm hf) (hfk f hf).2]
      exact List.mem_map.mpr ⟨r, hr, e⟩

/-- The constants to which fields refer. -/
theorem Ground.fieldRefersTo {x : Path} {n : Tree} {b : BasicType} {v : Int} (hx : t.descend x = some n) (hn : n.kind = .constant b v) :
    FieldRefersTo t x ↔ ∃ p m sz, t.descend p = some m ∧ m.kind = .structure sz ∧ ¬ InBuiltin p ∧ x ∈ defDeps t p := by
  have hc := hg.compiled
  constructor
  · rintro ⟨p, f, r, hf, ⟨ty, rg, o, hfk⟩, hr, hrk, ht⟩
    cases p using List.reverseRecOn with
    | nil => simp only [Tree.descend, Option.some.injEq] at hf; subst hf; rw [hc.rootKind] at hfk; cases hfk
    | append_singleton p k =>
    obtain ⟨m, m1, m2, m3⟩ := descend_parent hf
    obtain ⟨sz, hmk⟩ := hg.fieldOwner m1 m2 (by rw [hfk]; rfl)
    have hp : ¬ InBuiltin p := by
      intro hb
      rcases (hg.index _ _ m1 (by rw [hmk]; rfl) hb).2 f m2 with e | ⟨_, e⟩
      · rw [hfk] at e; cases e
      · rcases hrk with h | h <;> exact e r hr _ h
    have htp : r.targetPath = x := by
      rcases hrk with h | h <;> exact (hg.refTo hf hr h hx).mp ht
    exact ⟨p, m, sz, m1, hmk, hp, (hg.structure_const m1 hmk hp hx hn).mpr ⟨f, m2, r, hr, hrk, htp⟩⟩
  · rintro ⟨p, m, sz, m1, hmk, hp, hmem⟩
    obtain ⟨f, m2, r, hr, hrk, htp⟩ := (hg.structure_const m1 hmk hp hx hn).mp hmem
    have hfd := hc.child m1 m2
    have hff : ∃ ty rg o, f.kind = .field ty rg o := by
      rcases hg.fieldKids m1 hmk hp m2 with ⟨b, rg, o, h1, _⟩ | ⟨nm, b, rg, o, l, e, w, h1, _⟩ <;> exact ⟨_, _, _, h1⟩
    refine ⟨_, f, r, hfd, hff, hr, hrk, ?_⟩
    rcases hrk with h | h <;> exact (hg.refTo hfd hr h hx).mpr htp

/-- The constants to which an archive refers. -/
theorem Ground.archive_const {p : Path} {m : Tree} (hm : t.descend p = some m) (hk : m.kind = .archive) {x : Path} {n : Tree}
    {b : BasicType} {v : Int} (hx : t.descend x = some n) (hn : n.kind = .constant b v) : x ∈ defDeps t p ↔ RefersTo m x := by
  have hc := hg.compiled
  constructor
  · intro h
    have hl : defDeps t p = refsBelow (isDef t) m := by unfold defDeps; rw [hm]
    rw [hl, refsBelow_eq, List.mem_append] at h
    have harch : ∀ r ∈ m.children, r.kind.isResource = true ∨ r.kind = .ref .constantValue := by
      intro r hr
      obtain ⟨s, hs⟩ := hg.source
      obtain ⟨k0, ks, e1, e2, e3⟩ := compiled_kinds hs hm
      have hk0 : k0 = .archive := by rw [hk] at e1; cases k0 <;> simp [Kind.blank] at e1; rfl
      subst hk0
      rcases e3 r hr (hg.kid hm (by rw [hk]; simp) (by rw [hk]; simp) hr).1 with ⟨y, y1, y2⟩ | ⟨_, h⟩
      · have := e2 _ y1
        cases y <;> first | (cases this; done) | skip
        cases hck : r.kind <;> rw [hck] at y2 <;> simp [Kind.blank] at y2
        exact .inl rfl
      · exact .inr h
    rcases h with h | h
    · exfalso
      obtain ⟨r, hr, hxr⟩ := List.mem_flatMap.mp h
      obtain ⟨hr, hrk⟩ := List.mem_filter.mp hr
      have hrd := hc.child hm hr
      have hres : r.kind.isResource = true := (harch r hr).resolve_right (by intro h; rw [h] at hrk; simp [Kind.isReference] at hrk)
      rw [refsBelow_eq, List.mem_append] at hxr
      rcases hxr with h | h
      · obtain ⟨e, he, hxe⟩ := List.mem_flatMap.mp h
        obtain ⟨he, hek⟩ := List.mem_filter.mp he
        have hee : e.kind = .explicitReference := (hg.resource_kids hrd hres he).resolve_right (by simpa using hek)
        have hed := hc.child hrd he
        obtain ⟨d, f, y, h1, h2, h3, h4⟩ := hc.explicitChildren hg.flat hed hee
        rw [refsBelow_eq, List.mem_append] at hxe
        have hkids : ∀ c ∈ e.children, c.kind.isReference = true ∧ ¬ IsConstRef c := by
          intro c hcm
          rw [h1] at hcm
          simp only [List.mem_cons, List.not_mem_nil, or_false] at hcm
          unfold IsConstRef
          rcases hcm with rfl | rfl | rfl
          · rw [h2]; simp [Kind.isReference]
          · rw [h3]; simp [Kind.isReference]
          · rw [h4]; simp [Kind.isReference]
        rcases hxe with h | h
        · obtain ⟨c, hcm, _⟩ := List.mem_flatMap.mp h
          obtain ⟨hcm, hck⟩ := List.mem_filter.mp hcm
          rw [(hkids c hcm).1] at hck; cases hck
        · obtain ⟨h, _⟩ := List.mem_filter.mp h
          obtain ⟨c, hcm, e'⟩ := List.mem_map.mp h
          obtain ⟨hcm, hck⟩ := List.mem_filter.mp hcm
          exact (hkids c hcm).2 (hg.constRef hed hcm hck hx hn e')
      · obtain ⟨h, _⟩ := List.mem_filter.mp h
        obtain ⟨c, hcm, e⟩ := List.mem_map.mp h
        obtain ⟨hcm, hck⟩ := List.mem_filter.mp hcm
        exact hg.resource_noConst hrd hres hcm (hg.constRef hrd hcm hck hx hn e)
    · obtain ⟨h, _⟩ := List.mem_filter.mp h
      obtain ⟨c, hcm, e⟩ := List.mem_map.mp h
      obtain ⟨hcm, hck⟩ := List.mem_filter.mp hcm
      have hrk : c.kind = .ref .constantValue := (harch c hcm).resolve_left (by
        intro h
        cases hk' : c.kind <;> rw [hk'] at h hck <;> first | (cases h; done) | cases hck)
      exact ⟨c, hcm, hrk, (hg.refTo hm hcm hrk hx).mpr e⟩
  · rintro ⟨r, hr, hrk, ht⟩
    rw [hg.archive_deps hm hk]
    refine List.mem_append_right _ (List.mem_map.mpr ⟨r, ?_, (hg.refTo hm hr hrk hx).mp ht⟩)
    unfold childrenOf
    exact List.mem_filter.mpr ⟨hr, by simpa using hrk⟩

end

end Gen
