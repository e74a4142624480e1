import Verif.Spec.Shape
import Verif.Lemmas.GenNames

/-! # Built trees are shaped -/

namespace Gen
open Spec

theorem childKinds_append (a b : List Tree) : childKinds (a ++ b) = childKinds a ++ childKinds b := by
  simp [childKinds]

theorem childKinds_plain {cs : List Tree} (h : ∀ c ∈ cs, c.kind ≠ .namespace) : childKinds cs = cs.map Tree.kind := by
  unfold childKinds
  rw [List.filter_eq_self]
  intro k hk
  obtain ⟨c, hc, rfl⟩ := List.mem_map.mp hk
  simpa using h c hc

/-- Inserting created nodes into a fresh node. -/
theorem insertEach_shaped {n : Text} {k : Kind} {cs : List (M Tree)} {t' : Tree} (hok : KindOk k) (hns : ∀ c ∈ cs, ∀ d, c = .ok d → d.kind ≠ .namespace ∧ Shaped d)
    (hk : ∀ ds, Created cs ds → ChildrenOk k (ds.map Tree.kind)) (h : insertEach (.mk n k []) cs = .ok t') :
    Shaped t' ∧ t'.kind = k := by
  obtain ⟨ds, hds, rfl⟩ := insertEach_ok h
  have hd : ∀ d ∈ ds, d.kind ≠ .namespace ∧ Shaped d := by
    intro d hd
    obtain ⟨c, hc, he⟩ := created_mem hds hd
    exact hns c hc d he
  refine ⟨.mk hok ?_ ?_, rfl⟩
  · simp only [Tree.children, List.nil_append]
    rw [childKinds_plain (fun d h => (hd d h).1)]
    exact hk ds hds
  · intro d h
    simp only [Tree.children, List.nil_append] at h
    exact (hd d h).2

theorem created_kinds {cs : List (M Tree)} {ds : List Tree} (h : Created cs ds) {P : Kind → Prop}
    (hP : ∀ c ∈ cs, ∀ d, c = .ok d → P d.kind) : ∀ k ∈ ds.map Tree.kind, P k := by
  intro k hk
  obtain ⟨d, hd, rfl⟩ := List.mem_map.mp hk
  obtain ⟨c, hc, he⟩ := created_mem h hd
  exact hP c hc d he

theorem created_append {a b : List (M Tree)} {ds : List Tree} (h : Created (a ++ b) ds) :
    ∃ x y, ds = x ++ y ∧ Created a x ∧ Created b y := by
  induction a generalizing ds with
  | nil => exact ⟨[], ds, rfl, .nil, h⟩
  | cons c a ih =>
    cases h with
    | cons h1 h2 =>
      obtain ⟨x, y, rfl, h3, h4⟩ := ih h2
      exact ⟨_ :: x, y, rfl, .cons h1 h3, h4⟩

/-- All created nodes have the same class. -/
theorem created_replicate {cs : List (M Tree)} {ds : List Tree} (h : Created cs ds) {k : Kind}
    (hk : ∀ c ∈ cs, ∀ d, c = .ok d → d.kind = k) : ds.map Tree.kind = List.replicate cs.length k := by
  induction h with
  | nil => rfl
  | cons h1 _ ih =>
    simp only [List.forall_mem_cons] at hk
    simp only [List.map_cons, List.length_cons, List.replicate_succ, hk.1 _ h1, ih hk.2]

theorem create_shaped {n k t} (hok : KindOk k) (hk : ChildrenOk k []) (h : Tree.create n k = .ok t) : Shaped t ∧ t.kind = k := by
  obtain ⟨rfl, _⟩ := create_ok h
  exact ⟨.mk hok hk (by simp), rfl⟩

theorem mkRef_shaped {k n t} (h : mkRef k n = .ok t) : Shaped t ∧ t.kind = .ref k := create_shaped trivial rfl h

theorem basicType_fits {n : BasicName} {w : Option Nat} {b : BasicType} (h : BasicType.create n w = .ok b) : b.width ≤ b.name.width := by
  unfold BasicType.create at h
  simp only at h
  split at h
  · cases h
  · rename_i hw; cases h; exact Nat.not_lt.mp hw

theorem createConstant_shaped {c t} (h : createConstant c = .ok t) : Shaped t ∧ ∃ ty v, t.kind = .constant ty v := by
  obtain ⟨r, hr, h⟩ := bind_ok h
  have hok : r.type.width = r.type.name.width := by
    unfold Constant.create at hr
    obtain ⟨bt, hb, hr⟩ := bind_ok hr
    obtain ⟨_, _, hr⟩ := bind_ok hr
    split at hr
    · cases hr
    · cases hr
      simp only [BasicType.create, Option.getD_none, gt_iff_lt, lt_self_iff_false, if_false, pure, Except.pure, Except.ok.injEq] at hb
      rw [← hb]
  obtain ⟨h1, h2⟩ := create_shaped (by exact hok) (by simp [ChildrenOk]) h
  exact ⟨h1, _, _, h2⟩

theorem createEnum_shaped {e t} (h : createEnum e = .ok t) : Shaped t ∧ ∃ ty, t.kind = .enumeration ty := by
  obtain ⟨t0, h0, h⟩ := bind_ok h
  obtain ⟨r, hr, h⟩ := bind_ok h
  obtain ⟨vs, hvs, h⟩ := bind_ok h
  cases h
  have hv : ∀ d ∈ vs, Shaped d ∧ ∃ v a, d.kind = .enumValue v a := by
    intro d hd
    obtain ⟨m, hm, he⟩ := created_mem (mapM_created hvs) hd
    obtain ⟨v, _, rfl⟩ := List.mem_map.mp hm
    obtain ⟨h1, h2⟩ := create_shaped (by trivial) (by simp [ChildrenOk]) he
    exact ⟨h1, _, _, h2⟩
  have hok : r.type.width ≤ r.type.name.width := by
    unfold Enumeration.create at hr
    obtain ⟨bt, hb, h⟩ := bind_ok hr
    obtain ⟨⟨u, cs⟩, h1, h⟩ := bind_ok h
    simp only at h
    split at h
    · simp [bind, Except.bind, throw, throwThe, MonadExceptOf.throw] at h
    · obtain ⟨vr, _, h⟩ := bind_ok h
      obtain ⟨cs2, h2, h⟩ := bind_ok h
      obtain ⟨_, _, h⟩ := bind_ok h
      cases h
      exact basicType_fits hb
  refine ⟨.mk hok ?_ (fun d hd => (hv d hd).1), _, rfl⟩
  rw [childKinds_plain (fun d hd => by obtain ⟨_, v, a, h⟩ := hv d hd; rw [h]; simp)]
  intro k hk
  obtain ⟨d, hd, rfl⟩ := List.mem_map.mp hk
  obtain ⟨_, v, a, h⟩ := hv d hd
  rw [h]; rfl

theorem fieldRefs_shaped (ds : List PFieldDeco) : ∀ c ∈ fieldRefs ds, ∀ d, c = .ok d → Shaped d ∧ Kind.isConstantReference d.kind = true := by
  have key : ∀ (k : RefKind) n d, k.isConstant = true → mkRef k n = .ok d → Shaped d ∧ Kind.isConstantReference d.kind = true := by
    intro k n d hk hd
    obtain ⟨h1, h2⟩ := mkRef_shaped hd
    exact ⟨h1, by rw [h2]; exact hk⟩
  induction ds with
  | nil => simp [fieldRefs]
  | cons d ds ih =>
    cases d <;> simp only [fieldRefs, List.forall_mem_cons]
    · exact ih
    · exact ⟨fun d hd => key _ _ d rfl hd, ih⟩
    · exact ⟨fun d hd => key _ _ d rfl hd, ih⟩

theorem constantRef_ns {k : Kind} (h : Kind.isConstantReference k = true) : k ≠ .namespace := by rintro rfl; cases h

theorem createField_shaped {f t} (h : createField f = .ok t) : Shaped t ∧ Kind.isField t.kind = true := by
  obtain ⟨t0, h0, h⟩ := bind_ok h
  obtain ⟨t1, h1, h⟩ := bind_ok h
  obtain ⟨rfl, _⟩ := create_ok h0
  obtain ⟨ds, hds, rfl⟩ := insertEach_ok h1
  have hd : ∀ d ∈ ds, Shaped d ∧ Kind.isConstantReference d.kind = true := by
    intro d hd
    obtain ⟨c, hc, he⟩ := created_mem hds hd
    exact fieldRefs_shaped _ c hc d he
  have hkinds : ∀ k ∈ ds.map Tree.kind, Kind.isConstantReference k = true := by
    intro k hk; obtain ⟨d, h, rfl⟩ := List.mem_map.mp hk; exact (hd d h).2
  split at h
  · obtain ⟨r, hr, h⟩ := bind_ok h
    obtain ⟨r1, r2⟩ := mkRef_shaped hr
    obtain ⟨_, rfl⟩ := insert_ok h
    refine ⟨.mk ⟨rfl, .inl rfl⟩ ?_ ?_, rfl⟩
    · simp only [Tree.children, Tree.kind, List.nil_append]
      rw [childKinds_append, childKinds_plain (cs := ds) (fun d h => constantRef_ns (hd d h).2),
        childKinds_plain (cs := [r]) (by simp [r2])]
      exact ⟨_, f.width, by simp only [List.map_cons, List.map_nil, r2], hkinds⟩
    · intro c hc
      simp only [Tree.children, List.nil_append] at hc
      rcases List.mem_append.mp hc with hc | hc
      · exact (hd c hc).1
      · simp only [List.mem_singleton] at hc; exact hc ▸ r1
  · obtain ⟨bt, hbt, h⟩ := bind_ok h
    cases h
    refine ⟨.mk ⟨rfl, .inr ⟨_, rfl, basicType_fits hbt⟩⟩ ?_ ?_, rfl⟩
    · simp only [Tree.children, List.nil_append]
      rw [childKinds_plain (cs := ds) (fun d h => constantRef_ns (hd d h).2)]
      exact hkinds
    · intro c hc
      simp only [Tree.children, List.nil_append] at hc
      exact (hd c hc).1

theorem createStruct_shaped {s t} (h : createStruct s = .ok t) : Shaped t ∧ t.kind = .structure none := by
  obtain ⟨t0, h0, h⟩ := bind_ok h
  obtain ⟨rfl, _⟩ := create_ok h0
  have key : ∀ c ∈ s.fields.map createField, ∀ d, c = .ok d → Shaped d ∧ Kind.isField d.kind = true := by
    intro c hc d hd; obtain ⟨f, _, rfl⟩ := List.mem_map.mp hc; exact createField_shaped hd
  refine insertEach_shaped (by trivial) ?_ ?_ h
  · intro c hc d hd
    obtain ⟨h1, h2⟩ := key c hc d hd
    exact ⟨fun h => (by rw [h] at h2; cases h2), h1⟩
  · intro ds hds
    exact created_kinds hds (fun c hc d hd => (key c hc d hd).2)

theorem createExplicitReference_shaped {s f d t} (h : createExplicitReference s f d = .ok t) :
    Shaped t ∧ t.kind = .explicitReference := by
  obtain ⟨t0, h0, h⟩ := bind_ok h
  obtain ⟨rfl, _⟩ := create_ok h0
  refine insertEach_shaped (by trivial) ?_ ?_ h
  · intro c hc u hu
    simp only [List.mem_cons, List.not_mem_nil, or_false] at hc
    rcases hc with rfl | rfl | rfl <;> obtain ⟨h1, h2⟩ := mkRef_shaped hu <;> exact ⟨by rw [h2]; simp, h1⟩
  · intro ds hds
    cases hds with
    | cons h1 hds => cases hds with
      | cons h2 hds => cases hds with
        | cons h3 hds =>
          cases hds
          simp only [ChildrenOk, List.map_cons, List.map_nil, (mkRef_shaped h1).2, (mkRef_shaped h2).2, (mkRef_shaped h3).2]

theorem resourceRefs_shaped (ds : List PResDeco) : ∀ c ∈ resourceRefs ds, ∀ d, c = .ok d → Shaped d ∧ d.kind = .explicitReference := by
  induction ds with
  | nil => simp [resourceRefs]
  | cons d ds ih =>
    cases d <;> simp only [resourceRefs, List.forall_mem_cons]
    · exact ⟨fun d hd => createExplicitReference_shaped hd, ih⟩
    · exact ih

theorem typeRefs_shaped (t : PResType) : ∀ c ∈ typeRefs t, ∀ d, c = .ok d → Shaped d ∧ d.kind ≠ .namespace := by
  have key : ∀ k n d, mkRef k n = .ok d → Shaped d ∧ d.kind ≠ .namespace := by
    intro k n d hd; obtain ⟨h1, h2⟩ := mkRef_shaped hd; exact ⟨h1, by rw [h2]; simp⟩
  cases t <;> simp only [typeRefs, List.mem_singleton, List.mem_map, List.not_mem_nil]
  · rintro _ rfl d hd; exact key _ _ d hd
  · rintro _ ⟨_, _, rfl⟩ d hd; exact key _ _ d hd
  · rintro _ rfl d hd; exact key _ _ d hd
  · simp
  · rintro _ rfl d hd; exact key _ _ d hd

theorem createResource_shaped {r t} (h : createResource r = .ok t) : Shaped t ∧ Kind.isResource t.kind = true := by
  obtain ⟨t0, h0, h⟩ := bind_ok h
  obtain ⟨rfl, _⟩ := create_ok h0
  have key : Shaped t ∧ t.kind = .resource r.type.kind (.optional ∈ r.decorations) none := by
    refine insertEach_shaped (by trivial) ?_ ?_ h
    · intro c hc u hu
      rcases List.mem_append.mp hc with hc | hc
      · obtain ⟨h1, h2⟩ := resourceRefs_shaped _ c hc u hu; exact ⟨by rw [h2]; simp, h1⟩
      · obtain ⟨h1, h2⟩ := typeRefs_shaped _ c hc u hu; exact ⟨h2, h1⟩
    · intro ds hds
      obtain ⟨x, y, rfl, hx, hy⟩ := created_append hds
      have hxk := created_replicate hx (fun c hc d hd => (resourceRefs_shaped _ c hc d hd).2)
      rw [List.map_append, hxk]
      cases hr : r.type <;> rw [hr] at hy <;> simp only [typeRefs] at hy <;> simp only [PResType.kind, ChildrenOk]
      · cases hy with
        | cons h1 hy => cases hy; exact ⟨(resourceRefs r.decorations).length, by simp [(mkRef_shaped h1).2]⟩
      · refine ⟨(resourceRefs r.decorations).length, y.length, 0, ?_⟩
        have hl := congrArg List.length (created_replicate hy (k := .ref .structure)
          (by intro c hc d hd; obtain ⟨_, _, rfl⟩ := List.mem_map.mp hc; exact (mkRef_shaped hd).2))
        rw [List.length_map, List.length_replicate] at hl
        rw [hl, created_replicate hy (k := .ref .structure)
          (by intro c hc d hd; obtain ⟨_, _, rfl⟩ := List.mem_map.mp hc; exact (mkRef_shaped hd).2)]
        simp only [List.replicate_zero, List.append_nil]
      · cases hy with
        | cons h1 hy => cases hy; exact ⟨(resourceRefs r.decorations).length, by simp [(mkRef_shaped h1).2]⟩
      · cases hy; exact ⟨(resourceRefs r.decorations).length, by simp⟩
      · cases hy with
        | cons h1 hy => cases hy; exact ⟨(resourceRefs r.decorations).length, by simp [(mkRef_shaped h1).2]⟩
  exact ⟨key.1, by rw [key.2]; rfl⟩

theorem createBound_shaped {b t} (h : createBound b = .ok t) : Shaped t ∧ Kind.isResource t.kind = true := by
  obtain ⟨t0, h0, h⟩ := bind_ok h
  obtain ⟨rfl, _⟩ := create_ok h0
  have key : ∀ c ∈ b.2.map (mkRef .resource), ∀ d, c = .ok d → Shaped d ∧ d.kind = .ref .resource := by
    intro c hc d hd; obtain ⟨f, _, rfl⟩ := List.mem_map.mp hc; exact mkRef_shaped hd
  have key2 : Shaped t ∧ t.kind = .resource .bound false none := by
    refine insertEach_shaped (by trivial) ?_ ?_ h
    · intro c hc d hd; obtain ⟨h1, h2⟩ := key c hc d hd; exact ⟨by rw [h2]; simp, h1⟩
    · intro ds hds; exact ⟨_, created_replicate hds (fun c hc d hd => (key c hc d hd).2)⟩
  exact ⟨key2.1, by rw [key2.2]; rfl⟩

theorem createArchive_shaped {a t} (h : createArchive a = .ok t) : Shaped t ∧ t.kind = .archive := by
  obtain ⟨t0, h0, h⟩ := bind_ok h
  obtain ⟨rfl, _⟩ := create_ok h0
  have key : ∀ c ∈ a.resources.map createResource ++ a.bounds.map createBound, ∀ u, c = .ok u →
      Shaped u ∧ Kind.isResource u.kind = true := by
    intro c hc u hu
    rcases List.mem_append.mp hc with hc | hc
    · obtain ⟨f, _, rfl⟩ := List.mem_map.mp hc; exact createResource_shaped hu
    · obtain ⟨f, _, rfl⟩ := List.mem_map.mp hc; exact createBound_shaped hu
  refine insertEach_shaped (by trivial) ?_ ?_ h
  · intro c hc d hd
    obtain ⟨h1, h2⟩ := key c hc d hd
    exact ⟨fun h => (by rw [h] at h2; cases h2), h1⟩
  · intro ds hds
    exact created_kinds hds (fun c hc d hd => (key c hc d hd).2)

theorem blockDefs_shaped (b : PBlock) : ∀ c ∈ blockDefs b, ∀ d, c = .ok d → Shaped d ∧ Kind.isDefinition d.kind = true := by
  intro c hc d hd
  simp only [blockDefs, List.mem_append, List.mem_map] at hc
  rcases hc with ((⟨x, _, rfl⟩ | ⟨x, _, rfl⟩) | ⟨x, _, rfl⟩) | ⟨x, _, rfl⟩
  · obtain ⟨h1, _, _, h2⟩ := createConstant_shaped hd; exact ⟨h1, by rw [h2]; rfl⟩
  · obtain ⟨h1, h2⟩ := createStruct_shaped hd; exact ⟨h1, by rw [h2]; rfl⟩
  · obtain ⟨h1, _, h2⟩ := createEnum_shaped hd; exact ⟨h1, by rw [h2]; rfl⟩
  · obtain ⟨h1, h2⟩ := createArchive_shaped hd; exact ⟨h1, by rw [h2]; rfl⟩

/-! ## Changing trees -/

/-- Replacing a child by one of the same class. -/
theorem setChild_shaped {t c c' : Tree} {k : Text} (ht : Shaped t) (hnd : (t.children.map Tree.name).Nodup) (hc : t.child k = some c)
    (hn : c'.name = c.name) (hk : c'.kind = c.kind) (hc' : Shaped c') : Shaped (t.setChild c') := by
  obtain ⟨hm, hname⟩ := child_some hc
  cases t with
  | mk n kd cs =>
    simp only [Tree.children] at hm hnd
    have hkinds : (cs.map fun d => if d.name = c'.name then c' else d).map Tree.kind = cs.map Tree.kind := by
      rw [List.map_map]
      apply List.map_congr_left
      intro d hd
      simp only [Function.comp]
      split
      · rename_i he
        have : d = c := by
          have h1 := child_of_mem (t := .mk n kd cs) hnd hd
          have h2 := child_of_mem (t := .mk n kd cs) hnd hm
          rw [he, hn, h2] at h1
          cases h1; rfl
        rw [this, hk]
      · rfl
    refine .mk ht.kindOk ?_ ?_
    · have h1 := ht.kinds
      unfold childKinds at h1 ⊢
      rw [hkinds]; exact h1
    · intro d hd
      obtain ⟨e, he, rfl⟩ := List.mem_map.mp hd
      split
      · exact hc'
      · exact ht.children e he

/-- What a method call on a node has to fulfil. -/
structure Keeps (f : Tree → M Tree) (P : Tree → Prop) : Prop where
  shaped : ∀ n n', P n → Good n → Shaped n → f n = .ok n' → Shaped n'
  same : ∀ n n', f n = .ok n' → n'.kind = n.kind ∧ n'.name = n.name

theorem modifyAt_shaped {f : Tree → M Tree} {P : Tree → Prop} (hf : Keeps f P) {p : List Text} :
    ∀ {t t' : Tree}, (∀ n, t.descend p = some n → P n) → Good t → Shaped t → t.modifyAt f p = .ok t' → Shaped t' := by
  induction p with
  | nil => intro t t' hP hg hs h; exact hf.shaped t t' (hP t rfl) hg hs h
  | cons k ks ih =>
    intro t t' hP hg hs h
    simp only [Tree.modifyAt] at h
    cases hc : t.child k with
    | none => rw [hc] at h; cases h
    | some c =>
      rw [hc] at h
      obtain ⟨c', h1, h⟩ := bind_ok h
      cases h
      have hsame := modifyAt_kind hf.same h1
      have hm := (child_some hc).1
      refine setChild_shaped hs hg.nodup hc hsame.2 hsame.1 (ih ?_ (hg.children c hm) (hs.children c hm) h1)
      intro n hn; exact hP n (by simp [Tree.descend, hc, hn])

/-- Inserting a namespace anywhere. -/
theorem insert_ns_shaped {t u t' : Tree} (ht : Shaped t) (hu : Shaped u) (hk : u.kind = .namespace) (h : t.insert u = .ok t') :
    Shaped t' := by
  obtain ⟨_, rfl⟩ := insert_ok h
  refine .mk ht.kindOk ?_ ?_
  · rw [childKinds_append]
    have : childKinds [u] = [] := by simp [childKinds, hk]
    rw [this, List.append_nil]; exact ht.kinds
  · intro c hc
    rcases List.mem_append.mp hc with hc | hc
    · exact ht.children c hc
    · simp only [List.mem_singleton] at hc; exact hc ▸ hu

theorem nested_shaped {f : Tree → M Tree} (hf : Keeps f (fun n => n.kind = .namespace)) {ks : List Text} :
    ∀ {k : Text} {u : Tree}, nestedNamespaces f k ks = .ok u → Shaped u ∧ u.kind = .namespace := by
  induction ks with
  | nil =>
    intro k u h
    obtain ⟨t0, h0, h⟩ := bind_ok h
    have hg := good_create h0
    obtain ⟨rfl, _⟩ := create_ok h0
    exact ⟨hf.shaped _ _ rfl hg (.mk trivial (by simp [ChildrenOk, childKinds]) (by simp)) h, (hf.same _ _ h).1⟩
  | cons k' ks ih =>
    intro k u h
    obtain ⟨c, hc, h⟩ := bind_ok h
    obtain ⟨t0, h0, h⟩ := bind_ok h
    obtain ⟨rfl, _⟩ := create_ok h0
    obtain ⟨h1, h2⟩ := ih hc
    refine ⟨insert_ns_shaped (.mk (by trivial) (by simp [ChildrenOk, childKinds]) (by simp)) h1 h2 h, ?_⟩
    obtain ⟨_, rfl⟩ := insert_ok h; rfl

theorem ensure_same {f : Tree → M Tree} (hf : ∀ n n', f n = .ok n' → n'.kind = n.kind ∧ n'.name = n.name) {keys : List Text}
    {t t' : Tree} (h : t.ensureNamespace f keys = .ok t') : t'.kind = t.kind ∧ t'.name = t.name := by
  cases keys with
  | nil =>
    simp only [Tree.ensureNamespace] at h
    split at h
    · exact hf _ _ h
    · cases h
  | cons k ks => exact ensure_kind h

theorem ensure_shaped {f : Tree → M Tree} (hf : Keeps f (fun n => n.kind = .namespace)) {keys : List Text} :
    ∀ {t t' : Tree}, Good t → Shaped t → t.ensureNamespace f keys = .ok t' → Shaped t' := by
  induction keys with
  | nil =>
    intro t t' hg hs h
    simp only [Tree.ensureNamespace] at h
    split at h
    · rename_i hk; exact hf.shaped t t' hk hg hs h
    · cases h
  | cons k ks ih =>
    intro t t' hg hs h
    simp only [Tree.ensureNamespace] at h
    cases hc : t.child k with
    | some c =>
      rw [hc] at h
      obtain ⟨c', h1, h⟩ := bind_ok h
      cases h
      have hsame := ensure_same hf.same h1
      have hm := (child_some hc).1
      exact setChild_shaped hs hg.nodup hc hsame.2 hsame.1 (ih (hg.children c hm) (hs.children c hm) h1)
    | none =>
      rw [hc] at h
      obtain ⟨u, hu, h⟩ := bind_ok h
      obtain ⟨h1, h2⟩ := nested_shaped hf hu
      exact insert_ns_shaped hs h1 h2 h

/-- Inserting definitions into a namespace. -/
theorem insertAll_shaped {ds : List Tree} (hd : ∀ d ∈ ds, Shaped d ∧ Kind.isDefinition d.kind = true) :
    ∀ {t t' : Tree}, t.kind = .namespace → Shaped t → t.insertAll ds = .ok t' → Shaped t' := by
  intro t t' hk hs h
  have ht' := insertAll_ok h
  subst ht'
  refine .mk hs.kindOk ?_ ?_
  · rw [childKinds_append, hk]
    have h1 := hs.kinds
    rw [hk] at h1
    simp only [ChildrenOk] at h1 ⊢
    intro x hx
    rcases List.mem_append.mp hx with hx | hx
    · exact h1 x hx
    · simp only [childKinds, List.mem_filter] at hx
      obtain ⟨d, hdm, rfl⟩ := List.mem_map.mp hx.1
      exact (hd d hdm).2
  · intro c hc
    rcases List.mem_append.mp hc with hc | hc
    · exact hs.children c hc
    · exact (hd c hc).1

theorem insertAll_same {ds : List Tree} {t t' : Tree} (h : t.insertAll ds = .ok t') : t'.kind = t.kind ∧ t'.name = t.name := by
  have := insertAll_ok h; subst this; exact ⟨rfl, rfl⟩

theorem mergeRoots_shaped {rs : List (List Text × Tree)}
    (hr : ∀ r ∈ rs, ∀ d ∈ r.2.children, Good d ∧ Shaped d ∧ Kind.isDefinition d.kind = true) :
    ∀ {t t' : Tree}, Good t → Shaped t → mergeRoots t rs = .ok t' → Shaped t' := by
  induction rs with
  | nil => intro t t' _ ht h; simp only [mergeRoots, pure, Except.pure, Except.ok.injEq] at h; exact h ▸ ht
  | cons r rs ih =>
    intro t t' hg ht h
    obtain ⟨keys, target⟩ := r
    simp only [mergeRoots] at h
    obtain ⟨t1, h1, h⟩ := bind_ok h
    have hd := hr _ (List.mem_cons_self ..)
    simp only at hd
    have hk : Keeps (fun n => n.insertAll target.children) (fun n => n.kind = .namespace) :=
      ⟨fun n n' hn _ hs hf => insertAll_shaped (fun d hdm => (hd d hdm).2) hn hs hf, fun n n' hf => insertAll_same hf⟩
    refine ih (fun x hx => hr x (by simp [hx])) ?_ (ensure_shaped hk hg ht h1) h
    exact ensure_good (fun n n' hn hf => insertAll_good hn (fun d hdm => (hd d hdm).1) hf) _ _ _ hg h1

theorem built_shaped {blocks : List PBlock} {t : Tree} (h : buildNodeTree blocks = .ok t) : Shaped t := by
  unfold buildNodeTree at h
  obtain ⟨rs, hrs, h⟩ := bind_ok h
  refine mergeRoots_shaped ?_ good_root (.mk trivial (by simp [ChildrenOk, childKinds]) (by simp)) h
  intro r hr d hd
  obtain ⟨b, hbm, he⟩ := mapM_mem hrs r hr
  obtain ⟨_, _, h3, _⟩ := createBlock_ok he
  obtain ⟨c, hc, hce⟩ := created_mem h3 hd
  exact ⟨(blockDefs_ok b c hc d hce).1, blockDefs_shaped b c hc d hce⟩

theorem insert_builtin_same {w : Nat} {n n' : Tree} (hf : (do
    let builtin ← createStruct (indexTypeDef w)
    if (n.child builtin.name).isSome then pure n else n.insert builtin : M Tree) = .ok n') : n'.kind = n.kind ∧ n'.name = n.name := by
  obtain ⟨b, _, hf⟩ := bind_ok hf
  split at hf
  · cases hf; exact ⟨rfl, rfl⟩
  · exact insert_kind hf

/-! ## What insertions leave as it is -/

/-- Names and classes of the children. -/
def info (n : Tree) : List (Text × Kind) := n.children.map fun c => (c.name, c.kind)

/-- Every node is still there; `E` tells which children it may have got. -/
def Grows (E : Path → Kind → List (Text × Kind) → Prop) (t t' : Tree) : Prop :=
  ∀ q n, t.descend q = some n → ∃ n' ext, t'.descend q = some n' ∧ n'.name = n.name ∧ n'.kind = n.kind ∧
    info n' = info n ++ ext ∧ E q n.kind ext

theorem info_setChild {t c c' : Tree} {k : Text} (hnd : (t.children.map Tree.name).Nodup) (hc : t.child k = some c)
    (hn : c'.name = c.name) (hk : c'.kind = c.kind) : info (t.setChild c') = info t := by
  obtain ⟨hm, hname⟩ := child_some hc
  cases t with
  | mk n kd cs =>
    simp only [Tree.children] at hm hnd
    simp only [info, Tree.setChild, Tree.children, List.map_map]
    apply List.map_congr_left
    intro d hd
    simp only [Function.comp]
    split
    · rename_i he
      have : d = c := by
        have h1 := child_of_mem (t := .mk n kd cs) hnd hd
        have h2 := child_of_mem (t := .mk n kd cs) hnd hm
        rw [he, hn, h2] at h1
        cases h1; rfl
      rw [this, hk, hn]
    · rfl

theorem grows_setChild {t c c' : Tree} {k : Text} {E E' : Path → Kind → List (Text × Kind) → Prop}
    (hnd : (t.children.map Tree.name).Nodup) (hc : t.child k = some c) (hg : Grows E' c c') (h0 : ∀ kd, E [] kd [])
    (h1 : ∀ q kd ext, E' q kd ext → E (k :: q) kd ext) (h2 : ∀ j q kd, j ≠ k → E (j :: q) kd []) : Grows E t (t.setChild c') := by
  obtain ⟨c1, ext, hc1, hn1, hk1, _, _⟩ := hg [] c rfl
  simp only [Tree.descend, Option.some.injEq] at hc1
  subst hc1
  have hcn := (child_some hc).2
  intro q n hq
  cases q with
  | nil =>
    simp only [Tree.descend, Option.some.injEq] at hq
    subst hq
    exact ⟨_, [], rfl, setChild_name _ _, setChild_kind _ _, by rw [info_setChild hnd hc hn1 hk1, List.append_nil], h0 _⟩
  | cons j q =>
    simp only [Tree.descend] at hq ⊢
    rw [child_setChild hc (hn1.trans hcn)]
    by_cases hj : j = k
    · subst hj
      rw [hc] at hq
      simp only at hq
      obtain ⟨n', ext, g1, g2, g3, g4, g5⟩ := hg q n hq
      exact ⟨n', ext, by simpa using g1, g2, g3, g4, h1 _ _ _ g5⟩
    · rw [if_neg hj]
      exact ⟨n, [], hq, rfl, rfl, by simp, h2 j q _ hj⟩

theorem child_appended {n : Text} {k : Kind} {cs ds : List Tree} {key : Text} {c : Tree} (h : (Tree.mk n k cs).child key = some c) :
    (Tree.mk n k (cs ++ ds)).child key = some c := by
  simp only [Tree.child, Tree.children] at h ⊢
  rw [List.find?_append, h]; rfl

/-- A node that only gets children. -/
theorem grows_append {t : Tree} {ds : List Tree} {E : Path → Kind → List (Text × Kind) → Prop}
    (h0 : E [] t.kind (ds.map fun c => (c.name, c.kind))) (h1 : ∀ j q kd, E (j :: q) kd []) :
    Grows E t (.mk t.name t.kind (t.children ++ ds)) := by
  intro q n hq
  cases q with
  | nil =>
    simp only [Tree.descend, Option.some.injEq] at hq
    subst hq
    exact ⟨_, _, rfl, rfl, rfl, by simp [info, Tree.children], h0⟩
  | cons j q =>
    simp only [Tree.descend] at hq ⊢
    cases hc : t.child j with
    | none => rw [hc] at hq; cases hq
    | some c =>
      rw [hc] at hq
      have : (Tree.mk t.name t.kind (t.children ++ ds)).child j = some c := child_appended (cs := t.children) (by rw [Tree.eta]; exact hc)
      rw [this]
      exact ⟨n, [], hq, rfl, rfl, by simp, h1 j q _⟩

theorem grows_refl {t : Tree} {E : Path → Kind → List (Text × Kind) → Prop} (h : ∀ q kd, E q kd []) : Grows E t t :=
  fun q n hq => ⟨n, [], hq, rfl, rfl, by simp, h q _⟩

theorem grows_insertAt {u : Tree} {p : Path} : ∀ {t t' : Tree}, Good t → t.modifyAt (fun n => n.insert u) p = .ok t' →
    Grows (fun q _ ext => ext = if q = p then [(u.name, u.kind)] else []) t t' := by
  induction p with
  | nil =>
    intro t t' hg h
    obtain ⟨_, rfl⟩ := insert_ok h
    exact grows_append (by simp) (by simp)
  | cons k ks ih =>
    intro t t' hg h
    simp only [Tree.modifyAt] at h
    cases hc : t.child k with
    | none => rw [hc] at h; cases h
    | some c =>
      rw [hc] at h
      obtain ⟨c', h1, h⟩ := bind_ok h
      cases h
      refine grows_setChild hg.nodup hc (ih (hg.children c (child_some hc).1) h1) ?_ ?_ ?_
      · simp
      · intro q kd ext he; simpa using he
      · intro j q kd hj; simp [hj]

/-- Namespaces may get anything, other nodes only namespaces. -/
def NsOnly (_ : Path) (kd : Kind) (ext : List (Text × Kind)) : Prop := kd ≠ .namespace → ∀ x ∈ ext, x.2 = .namespace

theorem grows_ensure {f : Tree → M Tree} (hf : ∀ n n', f n = .ok n' → ∃ ds, n' = .mk n.name n.kind (n.children ++ ds))
    {keys : List Text} : ∀ {t t' : Tree}, Good t → t.ensureNamespace f keys = .ok t' → Grows NsOnly t t' := by
  have hsame : ∀ n n', f n = .ok n' → n'.kind = n.kind ∧ n'.name = n.name := by
    intro n n' h; obtain ⟨ds, rfl⟩ := hf n n' h; exact ⟨rfl, rfl⟩
  induction keys with
  | nil =>
    intro t t' hg h
    simp only [Tree.ensureNamespace] at h
    split at h
    · rename_i hk
      obtain ⟨ds, rfl⟩ := hf t t' h
      exact grows_append (fun hn => absurd hk hn) (fun _ _ _ _ => by simp)
    · cases h
  | cons k ks ih =>
    intro t t' hg h
    simp only [Tree.ensureNamespace] at h
    cases hc : t.child k with
    | some c =>
      rw [hc] at h
      obtain ⟨c', h1, h⟩ := bind_ok h
      cases h
      exact grows_setChild hg.nodup hc (ih (hg.children c (child_some hc).1) h1) (fun _ _ => by simp) (fun _ _ _ h => h)
        (fun _ _ _ _ _ => by simp)
    | none =>
      rw [hc] at h
      obtain ⟨u, hu, h⟩ := bind_ok h
      obtain ⟨_, rfl⟩ := insert_ok h
      have huk : u.kind = .namespace := by
        cases ks with
        | nil =>
          obtain ⟨t0, h0, hu⟩ := bind_ok hu
          obtain ⟨rfl, _⟩ := create_ok h0
          exact (hsame _ _ hu).1
        | cons k' ks =>
          obtain ⟨c, hc, hu⟩ := bind_ok hu
          obtain ⟨t0, h0, hu⟩ := bind_ok hu
          obtain ⟨rfl, _⟩ := create_ok h0
          exact (insert_kind hu).1
      exact grows_append (fun _ x hx => by simp at hx; rw [hx]; exact huk) (fun _ _ _ _ => by simp)

theorem insert_builtin_appends {w : Nat} (n n' : Tree) (hf : (do
    let builtin ← createStruct (indexTypeDef w)
    if (n.child builtin.name).isSome then pure n else n.insert builtin : M Tree) = .ok n') :
    ∃ ds, n' = .mk n.name n.kind (n.children ++ ds) := by
  obtain ⟨b, _, hf⟩ := bind_ok hf
  split at hf
  · cases hf; exact ⟨[], by rw [List.append_nil, Tree.eta]⟩
  · obtain ⟨_, rfl⟩ := insert_ok hf; exact ⟨[b], rfl⟩

theorem insert_builtin_good {w : Nat} (n n' : Tree) (hn : Good n) (hf : (do
    let builtin ← createStruct (indexTypeDef w)
    if (n.child builtin.name).isSome then pure n else n.insert builtin : M Tree) = .ok n') : Good n' := by
  obtain ⟨b, hb, hf⟩ := bind_ok hf
  split at hf
  · cases hf; exact hn
  · exact good_insert hn (createStruct_ok hb).1 hf

theorem insert_builtin_keeps {w : Nat} : Keeps (fun n : Tree => (do
    let builtin ← createStruct (indexTypeDef w)
    if (n.child builtin.name).isSome then pure n else n.insert builtin : M Tree)) (fun n => n.kind = .namespace) := by
  refine ⟨?_, fun n n' hf => insert_builtin_same hf⟩
  intro n n' hk hg hs hf
  obtain ⟨b, hb, hf⟩ := bind_ok hf
  split at hf
  · cases hf; exact hs
  · have : n.insertAll [b] = .ok n' := by simp [Tree.insertAll, hf, bind, Except.bind, pure, Except.pure]
    refine insertAll_shaped ?_ hk hs this
    intro d hd
    simp only [List.mem_singleton] at hd
    subst hd
    obtain ⟨h1, h2⟩ := createStruct_shaped hb
    exact ⟨h1, by rw [h2]; rfl⟩

theorem childKinds_snoc (cs : List Tree) {u : Tree} (h : u.kind ≠ .namespace) : childKinds (cs ++ [u]) = childKinds cs ++ [u.kind] := by
  rw [childKinds_append]; simp [childKinds, h]

theorem insert_index_keeps {r : Tree} {w : Nat} (hr : Shaped r) (hk : r.kind = .ref .builtinStructure) :
    Keeps (fun n : Tree => n.insert r) (fun n => ∃ o m, n.kind = .resource (.multivector w) o m) := by
  refine ⟨?_, fun n n' hf => insert_kind hf⟩
  rintro n n' ⟨o, m, hn⟩ hg hs hf
  obtain ⟨_, rfl⟩ := insert_ok hf
  refine .mk hs.kindOk ?_ ?_
  · rw [childKinds_snoc _ (by rw [hk]; simp)]
    have := hs.kinds
    rw [hn] at this ⊢
    obtain ⟨a, b, c, he⟩ := this
    refine ⟨a, b, c + 1, ?_⟩
    rw [he, hk, List.replicate_succ']; simp only [List.append_assoc]
  · intro c hc
    rcases List.mem_append.mp hc with hc | hc
    · exact hs.children c hc
    · simp only [List.mem_singleton] at hc; exact hc ▸ hr

theorem appendBuiltin_shaped {t t' : Tree} {p : Path} {w : Nat} (hg : Good t) (hs : Shaped t)
    (hp : ∃ n o m, t.descend p = some n ∧ n.kind = .resource (.multivector w) o m)
    (h : appendBuiltin t p w = .ok t') : Good t' ∧ Shaped t' ∧
      ∀ q n, t.descend q = some n → ∃ n', t'.descend q = some n' ∧ n'.kind = n.kind := by
  unfold appendBuiltin at h
  obtain ⟨t1, h1, h⟩ := bind_ok h
  obtain ⟨r, h2, h⟩ := bind_ok h
  have hg1 : Good t1 := ensure_good insert_builtin_good _ _ _ hg h1
  have hs1 : Shaped t1 := ensure_shaped insert_builtin_keeps hg hs h1
  have hgr := grows_ensure insert_builtin_appends hg h1
  obtain ⟨n, o, m, hn, hnk⟩ := hp
  obtain ⟨n1, _, hn1, _, hn1k, _⟩ := hgr p n hn
  obtain ⟨r1, r2⟩ := mkRef_shaped h2
  refine ⟨good_modifyAt (fun n n' hn hf => good_insert hn (mkRef_ok h2).1 hf) _ _ _ hg1 h,
    modifyAt_shaped (insert_index_keeps (w := w) r1 r2) ?_ hg1 hs1 h, ?_⟩
  · intro n' hn'
    rw [hn1] at hn'; cases hn'
    exact ⟨o, m, hn1k.trans hnk⟩
  · intro q n hq
    obtain ⟨m1, _, a1, _, a2, _⟩ := hgr q n hq
    obtain ⟨m2, _, b1, _, b2, _⟩ := grows_insertAt hg1 h q m1 a1
    exact ⟨m2, b1, b2.trans a2⟩

theorem foldlM_shaped {l : List (Path × Nat)} : ∀ {t t' : Tree}, (∀ e ∈ l, ∃ n o m, t.descend e.1 = some n ∧ n.kind = .resource (.multivector e.2) o m) →
    Good t → Shaped t → l.foldlM (fun r e => appendBuiltin r e.1 e.2) t = .ok t' → Shaped t' := by
  induction l with
  | nil => intro t t' _ _ ht h; simp only [List.foldlM_nil, pure, Except.pure, Except.ok.injEq] at h; exact h ▸ ht
  | cons e l ih =>
    intro t t' hl hg hs h
    simp only [List.foldlM_cons] at h
    obtain ⟨t1, h1, h⟩ := bind_ok h
    obtain ⟨a, b, c⟩ := appendBuiltin_shaped hg hs (hl e (by simp)) h1
    refine ih ?_ a b h
    intro x hx
    obtain ⟨n, o, m, g1, g2⟩ := hl x (by simp [hx])
    obtain ⟨n', g3, g4⟩ := c _ _ g1
    exact ⟨n', o, m, g3, g4.trans g2⟩

theorem appendBuiltins_shaped {t t' : Tree} (hg : Good t) (hs : Shaped t) (h : appendBuiltins t = .ok t') : Shaped t' := by
  refine foldlM_shaped ?_ hg hs h
  rintro ⟨p, w⟩ he
  obtain ⟨pos, n, o, m, h1, h2, h3⟩ := multivectors_mem.mp he
  exact ⟨n, o, m, by rw [← h2]; exact descend_namesAt hg h1, h3⟩

theorem renamed_shaped {t t' : Tree} (h : Renamed t t') (hs : Shaped t) : Shaped t' := by
  induction t using Tree.induct generalizing t' with
  | h n k cs ih =>
    cases h with
    | @mk _ n' _ _ cs' _ hl hc =>
      have hkinds : cs'.map Tree.kind = cs.map Tree.kind := by
        apply List.ext_getElem?
        intro i
        simp only [List.getElem?_map]
        cases h1 : cs[i]? with
        | none =>
          have : cs'[i]? = none := by rw [List.getElem?_eq_none_iff] at h1 ⊢; omega
          rw [this]
        | some c =>
          have hi : i < cs'.length := by
            have := (List.getElem?_eq_some_iff.mp h1).1; omega
          have h2 : cs'[i]? = some cs'[i] := List.getElem?_eq_getElem hi
          rw [h2]
          have := hc i c _ h1 h2
          generalize cs'[i] = d at this
          cases this; rfl
      refine .mk hs.kindOk ?_ ?_
      · have := hs.kinds
        simp only [childKinds, Tree.children] at this ⊢
        rw [hkinds]; exact this
      · intro c' hc'
        obtain ⟨i, hi, rfl⟩ := List.getElem_of_mem hc'
        have hi' : i < cs.length := by omega
        exact ih cs[i] (List.getElem_mem hi') (hc i _ _ (List.getElem?_eq_getElem hi') (List.getElem?_eq_getElem hi))
          (hs.children _ (List.getElem_mem hi'))

end Gen
