import Verif.Spec.Merge
import Verif.Lemmas.GenTree

/-! # Lemmas about building syntax trees -/

namespace Gen
open Spec

/-- No namespace at or below the node. -/
inductive NoNs : Tree → Prop
  | mk {n k cs} : k ≠ .namespace → (∀ c ∈ cs, NoNs c) → NoNs (.mk n k cs)

theorem NoNs.kind {t : Tree} (h : NoNs t) : t.kind ≠ .namespace := by cases h; assumption
theorem NoNs.children {t : Tree} (h : NoNs t) : ∀ c ∈ t.children, NoNs c := by cases h; assumption

/-! ## Except -/

theorem bind_ok {α β : Type} {x : M α} {f : α → M β} {b : β} (h : (x >>= f) = .ok b) : ∃ a, x = .ok a ∧ f a = .ok b := by
  cases x with
  | error e => simp [bind, Except.bind] at h
  | ok a => exact ⟨a, rfl, h⟩

/-! ## Inserting created nodes -/

theorem insertEach_ok {cs : List (M Tree)} {t t' : Tree} (h : insertEach t cs = .ok t') :
    ∃ ds, Created cs ds ∧ t' = .mk t.name t.kind (t.children ++ ds) := by
  induction cs generalizing t with
  | nil => simp only [insertEach, pure, Except.pure, Except.ok.injEq] at h; exact ⟨[], .nil, by rw [List.append_nil, ← h, t.eta]⟩
  | cons c cs ih =>
    simp only [insertEach] at h
    obtain ⟨d, hd, h⟩ := bind_ok h
    obtain ⟨t1, h1, h⟩ := bind_ok h
    obtain ⟨ds, hds, rfl⟩ := ih h
    obtain ⟨_, rfl⟩ := insert_ok h1
    exact ⟨d :: ds, .cons hd hds, by simp [Tree.name, Tree.kind, Tree.children]⟩

theorem insertEach_good {cs : List (M Tree)} {t t' : Tree} (ht : Good t) (hcs : ∀ c ∈ cs, ∀ d, c = .ok d → Good d)
    (h : insertEach t cs = .ok t') : Good t' := by
  induction cs generalizing t with
  | nil => simp only [insertEach, pure, Except.pure, Except.ok.injEq] at h; exact h ▸ ht
  | cons c cs ih =>
    simp only [insertEach] at h
    obtain ⟨d, hd, h⟩ := bind_ok h
    obtain ⟨t1, h1, h⟩ := bind_ok h
    exact ih (good_insert ht (hcs c (by simp) d hd) h1) (fun c hc => hcs c (by simp [hc])) h

theorem created_mem {cs : List (M Tree)} {ds : List Tree} (h : Created cs ds) {d : Tree} (hd : d ∈ ds) :
    ∃ c ∈ cs, c = .ok d := by
  induction h with
  | nil => simp at hd
  | cons hc _ ih =>
    rcases List.mem_cons.mp hd with rfl | hd
    · exact ⟨_, by simp, hc⟩
    · obtain ⟨c, hc, he⟩ := ih hd; exact ⟨c, by simp [hc], he⟩

theorem insertEach_noNs {cs : List (M Tree)} {t t' : Tree} (ht : NoNs t) (hcs : ∀ c ∈ cs, ∀ d, c = .ok d → NoNs d)
    (h : insertEach t cs = .ok t') : NoNs t' := by
  obtain ⟨ds, hds, rfl⟩ := insertEach_ok h
  refine .mk ht.kind ?_
  intro c hc
  rcases List.mem_append.mp hc with hc | hc
  · exact ht.children c hc
  · obtain ⟨m, hm, he⟩ := created_mem hds hc
    exact hcs m hm c he

theorem create_ok {n k t} (h : Tree.create n k = .ok t) : t = .mk n k [] ∧ '.' ∉ n ∧ n ≠ [] := by
  unfold Tree.create at h
  split at h
  · cases h
  · split at h
    · cases h
    · cases h; exact ⟨rfl, by assumption, by assumption⟩

theorem create_noNs {n k t} (hk : k ≠ .namespace) (h : Tree.create n k = .ok t) : NoNs t := by
  obtain ⟨rfl, _⟩ := create_ok h; exact .mk hk (by simp)

/-! ## The constructors create good trees without namespaces -/

theorem mkRef_ok {k n t} (h : mkRef k n = .ok t) : Good t ∧ NoNs t :=
  ⟨good_create h, create_noNs (by simp) h⟩

theorem createConstant_ok {c t} (h : createConstant c = .ok t) : Good t ∧ NoNs t := by
  obtain ⟨r, _, h⟩ := bind_ok h
  exact ⟨good_create h, create_noNs (by simp) h⟩

theorem insertValue_names {cs cs' : List EnumValue} {v : EnumValue} (h : insertValue cs v = .ok cs') :
    (cs.map (·.name)).Nodup → (cs'.map (·.name)).Nodup := by
  unfold insertValue at h
  split at h
  · cases h
  · rename_i hn
    cases h
    intro hnd
    rw [List.map_append]
    exact List.nodup_append.mpr ⟨hnd, by simp, by
      intro a ha b hb; simp only [List.map_cons, List.map_nil, List.mem_singleton] at hb; subst hb
      intro h; exact hn (h ▸ ha)⟩

theorem declareValues_names {en : Text} {ds : List (Text × Option Int)} {cur : Int} {u : List Int} {cs : List EnumValue}
    {r : List Int × List EnumValue} (h : declareValues en ds cur u cs = .ok r) (hcs : (cs.map (·.name)).Nodup) :
    (r.2.map (·.name)).Nodup := by
  induction ds generalizing cur u cs with
  | nil => simp only [declareValues, pure, Except.pure, Except.ok.injEq] at h; rw [← h]; exact hcs
  | cons d ds ih =>
    obtain ⟨n, c⟩ := d
    simp only [declareValues] at h
    split at h
    · cases h
    · obtain ⟨cs1, h1, h⟩ := bind_ok h
      exact ih h (insertValue_names h1 hcs)

theorem fillMissing_names {u : List Int} {vs : List Int} {cs r : List EnumValue} (h : fillMissing u vs cs = .ok r)
    (hcs : (cs.map (·.name)).Nodup) : (r.map (·.name)).Nodup := by
  induction vs generalizing cs with
  | nil => simp only [fillMissing, pure, Except.pure, Except.ok.injEq] at h; rw [← h]; exact hcs
  | cons v vs ih =>
    simp only [fillMissing] at h
    split at h
    · exact ih h hcs
    · obtain ⟨cs1, h1, h⟩ := bind_ok h
      exact ih h (insertValue_names h1 hcs)

theorem enumeration_create_names {n t w ds e} (h : Enumeration.create n t w ds = .ok e) :
    (e.values.map (·.name)).Nodup := by
  unfold Enumeration.create at h
  obtain ⟨bt, _, h⟩ := bind_ok h
  obtain ⟨⟨u, cs⟩, h1, h⟩ := bind_ok h
  simp only at h
  split at h
  · simp [bind, Except.bind, throw, throwThe, MonadExceptOf.throw] at h
  · obtain ⟨vr, _, h⟩ := bind_ok h
    obtain ⟨cs2, h2, h⟩ := bind_ok h
    obtain ⟨_, _, h⟩ := bind_ok h
    cases h
    exact fillMissing_names h2 (declareValues_names h1 (by simp))

theorem mapM_created {α : Type} {f : α → M Tree} {l : List α} {ds : List Tree} (h : l.mapM f = .ok ds) :
    Created (l.map f) ds := by
  induction l generalizing ds with
  | nil => simp only [List.mapM_nil, pure, Except.pure, Except.ok.injEq] at h; subst h; exact .nil
  | cons a l ih =>
    rw [List.mapM_cons] at h
    obtain ⟨d, hd, h⟩ := bind_ok h
    obtain ⟨ds1, h1, h⟩ := bind_ok h
    cases h
    exact .cons hd (ih h1)

theorem created_values_names {l : List EnumValue} {vs : List Tree}
    (hc : Created (l.map fun v => Tree.create v.name (.enumValue v.value v.autoGenerated)) vs) :
    vs.map Tree.name = l.map (·.name) := by
  induction l generalizing vs with
  | nil => cases hc; rfl
  | cons v l ih =>
    cases hc with
    | cons h1 h2 =>
      obtain ⟨rfl, _⟩ := create_ok h1
      simp only [List.map_cons, Tree.name, ih h2]

theorem createEnum_ok {e t} (h : createEnum e = .ok t) : Good t ∧ NoNs t := by
  obtain ⟨t0, h0, h⟩ := bind_ok h
  obtain ⟨r, hr, h⟩ := bind_ok h
  obtain ⟨vs, hvs, h⟩ := bind_ok h
  cases h
  obtain ⟨rfl, hn, _⟩ := create_ok h0
  have hc := mapM_created hvs
  have hmem : ∀ c ∈ vs, ∃ v ∈ r.values, Tree.create v.name (.enumValue v.value v.autoGenerated) = .ok c := by
    intro c hc'
    obtain ⟨m, hm, he⟩ := created_mem hc hc'
    obtain ⟨v, hv, rfl⟩ := List.mem_map.mp hm
    exact ⟨v, hv, he⟩
  have hnames := created_values_names hc
  refine ⟨.mk hn (by rw [hnames]; exact enumeration_create_names hr) ?_, .mk (by simp) ?_⟩
  · intro c hc'; obtain ⟨v, _, he⟩ := hmem c hc'; exact good_create he
  · intro c hc'; obtain ⟨v, _, he⟩ := hmem c hc'; exact create_noNs (by simp) he

theorem fieldRefs_ok (ds : List PFieldDeco) : ∀ c ∈ fieldRefs ds, ∀ d, c = .ok d → Good d ∧ NoNs d := by
  induction ds with
  | nil => simp [fieldRefs]
  | cons d ds ih =>
    cases d <;> simp only [fieldRefs, List.forall_mem_cons]
    · exact ih
    · exact ⟨fun d hd => mkRef_ok hd, ih⟩
    · exact ⟨fun d hd => mkRef_ok hd, ih⟩

theorem createField_ok {f t} (h : createField f = .ok t) : Good t ∧ NoNs t := by
  obtain ⟨t0, h0, h⟩ := bind_ok h
  obtain ⟨t1, h1, h⟩ := bind_ok h
  have g1 := insertEach_good (good_create h0) (fun c hc d hd => (fieldRefs_ok _ c hc d hd).1) h1
  have n1 := insertEach_noNs (create_noNs (by simp) h0) (fun c hc d hd => (fieldRefs_ok _ c hc d hd).2) h1
  split at h
  · obtain ⟨r, hr, h⟩ := bind_ok h
    refine ⟨good_insert g1 (mkRef_ok hr).1 h, ?_⟩
    obtain ⟨_, rfl⟩ := insert_ok h
    refine .mk n1.kind ?_
    intro c hc
    rcases List.mem_append.mp hc with hc | hc
    · exact n1.children c hc
    · simp only [List.mem_singleton] at hc; exact hc ▸ (mkRef_ok hr).2
  · obtain ⟨bt, _, h⟩ := bind_ok h
    cases h
    exact ⟨.mk g1.name g1.nodup g1.children, .mk (by simp) n1.children⟩

theorem createStruct_ok {s t} (h : createStruct s = .ok t) : Good t ∧ NoNs t := by
  obtain ⟨t0, h0, h⟩ := bind_ok h
  have hc : ∀ c ∈ s.fields.map createField, ∀ d, c = .ok d → Good d ∧ NoNs d := by
    intro c hc d hd; obtain ⟨f, _, rfl⟩ := List.mem_map.mp hc; exact createField_ok hd
  exact ⟨insertEach_good (good_create h0) (fun c h d hd => (hc c h d hd).1) h,
    insertEach_noNs (create_noNs (by simp) h0) (fun c h d hd => (hc c h d hd).2) h⟩

theorem createExplicitReference_ok {s f d t} (h : createExplicitReference s f d = .ok t) : Good t ∧ NoNs t := by
  obtain ⟨t0, h0, h⟩ := bind_ok h
  have hc : ∀ c ∈ [mkRef .resource d, mkRef .field (s ++ '.' :: f), mkRef .structure s], ∀ u, c = .ok u → Good u ∧ NoNs u := by
    intro c hc u hu
    simp only [List.mem_cons, List.not_mem_nil, or_false] at hc
    rcases hc with rfl | rfl | rfl <;> exact mkRef_ok hu
  exact ⟨insertEach_good (good_create h0) (fun c h d hd => (hc c h d hd).1) h,
    insertEach_noNs (create_noNs (by simp) h0) (fun c h d hd => (hc c h d hd).2) h⟩

theorem resourceRefs_ok (ds : List PResDeco) : ∀ c ∈ resourceRefs ds, ∀ d, c = .ok d → Good d ∧ NoNs d := by
  induction ds with
  | nil => simp [resourceRefs]
  | cons d ds ih =>
    cases d <;> simp only [resourceRefs, List.forall_mem_cons]
    · exact ⟨fun d hd => createExplicitReference_ok hd, ih⟩
    · exact ih

theorem typeRefs_ok (t : PResType) : ∀ c ∈ typeRefs t, ∀ d, c = .ok d → Good d ∧ NoNs d := by
  cases t <;> simp only [typeRefs, List.mem_singleton, List.mem_map, List.not_mem_nil]
  · rintro _ rfl d hd; exact mkRef_ok hd
  · rintro _ ⟨_, _, rfl⟩ d hd; exact mkRef_ok hd
  · rintro _ rfl d hd; exact mkRef_ok hd
  · simp
  · rintro _ rfl d hd; exact mkRef_ok hd

theorem createResource_ok {r t} (h : createResource r = .ok t) : Good t ∧ NoNs t := by
  obtain ⟨t0, h0, h⟩ := bind_ok h
  have hc : ∀ c ∈ resourceRefs r.decorations ++ typeRefs r.type, ∀ u, c = .ok u → Good u ∧ NoNs u := by
    intro c hc u hu
    rcases List.mem_append.mp hc with hc | hc
    · exact resourceRefs_ok _ c hc u hu
    · exact typeRefs_ok _ c hc u hu
  exact ⟨insertEach_good (good_create h0) (fun c h d hd => (hc c h d hd).1) h,
    insertEach_noNs (create_noNs (by simp) h0) (fun c h d hd => (hc c h d hd).2) h⟩

theorem createBound_ok {b t} (h : createBound b = .ok t) : Good t ∧ NoNs t := by
  obtain ⟨t0, h0, h⟩ := bind_ok h
  have hc : ∀ c ∈ b.2.map (mkRef .resource), ∀ d, c = .ok d → Good d ∧ NoNs d := by
    intro c hc d hd; obtain ⟨f, _, rfl⟩ := List.mem_map.mp hc; exact mkRef_ok hd
  exact ⟨insertEach_good (good_create h0) (fun c h d hd => (hc c h d hd).1) h,
    insertEach_noNs (create_noNs (by simp) h0) (fun c h d hd => (hc c h d hd).2) h⟩

theorem createArchive_ok {a t} (h : createArchive a = .ok t) : Good t ∧ NoNs t := by
  obtain ⟨t0, h0, h⟩ := bind_ok h
  have hc : ∀ c ∈ a.resources.map createResource ++ a.bounds.map createBound, ∀ u, c = .ok u → Good u ∧ NoNs u := by
    intro c hc u hu
    rcases List.mem_append.mp hc with hc | hc
    · obtain ⟨f, _, rfl⟩ := List.mem_map.mp hc; exact createResource_ok hu
    · obtain ⟨f, _, rfl⟩ := List.mem_map.mp hc; exact createBound_ok hu
  exact ⟨insertEach_good (good_create h0) (fun c h d hd => (hc c h d hd).1) h,
    insertEach_noNs (create_noNs (by simp) h0) (fun c h d hd => (hc c h d hd).2) h⟩

theorem blockDefs_ok (b : PBlock) : ∀ c ∈ blockDefs b, ∀ d, c = .ok d → Good d ∧ NoNs d := by
  intro c hc d hd
  simp only [blockDefs, List.mem_append, List.mem_map] at hc
  rcases hc with ((⟨x, _, rfl⟩ | ⟨x, _, rfl⟩) | ⟨x, _, rfl⟩) | ⟨x, _, rfl⟩
  · exact createConstant_ok hd
  · exact createStruct_ok hd
  · exact createEnum_ok hd
  · exact createArchive_ok hd

theorem mapM_create_ns {l : List Text} {r : List Tree} (h : l.mapM (fun k => Tree.create k .namespace) = .ok r) :
    r = l.map (fun k => .mk k .namespace []) ∧ ∀ k ∈ l, '.' ∉ k ∧ k ≠ [] := by
  induction l generalizing r with
  | nil => simp only [List.mapM_nil, pure, Except.pure, Except.ok.injEq] at h; subst h; simp
  | cons a l ih =>
    rw [List.mapM_cons] at h
    obtain ⟨d, hd, h⟩ := bind_ok h
    obtain ⟨ds1, h1, h⟩ := bind_ok h
    cases h
    obtain ⟨rfl, h2⟩ := ih h1
    obtain ⟨rfl, h3⟩ := create_ok hd
    exact ⟨rfl, by simpa using ⟨h3, fun k hk => h2 k hk⟩⟩

theorem createBlock_ok {b : PBlock} {r : List Text × Tree} (h : createBlock b = .ok r) :
    r.1 = splitDot b.name ∧ (∀ k ∈ r.1, '.' ∉ k ∧ k ≠ []) ∧ Created (blockDefs b) r.2.children ∧ Good r.2 ∧
      (∀ d ∈ r.2.children, NoNs d) := by
  unfold createBlock at h
  obtain ⟨names, hn, h⟩ := bind_ok h
  obtain ⟨rfl, hk⟩ := mapM_create_ns hn
  split at h
  · cases h
  · rename_i target ht
    obtain ⟨t, h1, h⟩ := bind_ok h
    cases h
    have hmem := List.mem_of_getLast? ht
    obtain ⟨k, hkm, rfl⟩ := List.mem_map.mp hmem
    have hg : Good (.mk k .namespace []) := .mk (hk k hkm).1 (by simp) (by simp)
    have g := insertEach_good hg (fun c hc d hd => (blockDefs_ok b c hc d hd).1) h1
    obtain ⟨ds, hds, rfl⟩ := insertEach_ok h1
    refine ⟨rfl, hk, by simpa [Tree.children] using hds, g, ?_⟩
    intro d hd
    simp only [Tree.children, List.nil_append] at hd
    obtain ⟨m, hm, he⟩ := created_mem hds hd
    exact (blockDefs_ok b m hm d he).2

end Gen
