import Verif.Lemmas.GenResolve

/-! # Which names the nodes of built trees have -/

namespace Gen
open Spec

/-- Well named, and no reference. -/
def Named (t : Tree) : Prop := WellNamed t ∧ ∀ r, t.kind ≠ .ref r

theorem create_named {n k t} (hn : '@' ∉ n) (hk : ∀ r, k ≠ .ref r) (h : Tree.create n k = .ok t) : Named t := by
  obtain ⟨rfl, _⟩ := create_ok h
  exact ⟨.node hn hk (by simp), hk⟩

theorem mkRef_named {k n t} (h : mkRef k n = .ok t) : WellNamed t := by
  obtain ⟨rfl, _⟩ := create_ok h
  exact .ref

theorem insert_named {t u t' : Tree} (ht : Named t) (hu : WellNamed u) (h : t.insert u = .ok t') : Named t' := by
  obtain ⟨_, rfl⟩ := insert_ok h
  refine ⟨.node (ht.1.other ht.2) ht.2 ?_, ht.2⟩
  intro c hc
  rcases List.mem_append.mp hc with hc | hc
  · cases t with
    | mk n k cs => exact ht.1.children c hc
  · simp only [List.mem_singleton] at hc; exact hc ▸ hu

theorem insertAll_named {ds : List Tree} {t t' : Tree} (ht : Named t) (hd : ∀ d ∈ ds, WellNamed d)
    (h : t.insertAll ds = .ok t') : Named t' := by
  induction ds generalizing t with
  | nil => simp only [Tree.insertAll, List.foldlM_nil, pure, Except.pure, Except.ok.injEq] at h; exact h ▸ ht
  | cons d ds ih =>
    simp only [Tree.insertAll, List.foldlM_cons] at h
    obtain ⟨t1, h1, h⟩ := bind_ok h
    exact ih (insert_named ht (hd d (by simp)) h1) (fun x hx => hd x (by simp [hx])) h

theorem insertEach_named {cs : List (M Tree)} {t t' : Tree} (ht : Named t) (hcs : ∀ c ∈ cs, ∀ d, c = .ok d → WellNamed d)
    (h : insertEach t cs = .ok t') : Named t' := by
  induction cs generalizing t with
  | nil => simp only [insertEach, pure, Except.pure, Except.ok.injEq] at h; exact h ▸ ht
  | cons c cs ih =>
    simp only [insertEach] at h
    obtain ⟨d, h1, h⟩ := bind_ok h
    obtain ⟨t1, h2, h⟩ := bind_ok h
    exact ih (insert_named ht (hcs c (by simp) d h1) h2) (fun x hx => hcs x (by simp [hx])) h

theorem createConstant_named {c t} (hc : '@' ∉ c.name) (h : createConstant c = .ok t) : Named t := by
  obtain ⟨r, hr, h⟩ := bind_ok h
  refine create_named ?_ (by simp) h
  unfold Constant.create at hr
  obtain ⟨_, _, hr⟩ := bind_ok hr
  obtain ⟨_, _, hr⟩ := bind_ok hr
  split at hr
  · cases hr
  · cases hr; exact hc

theorem digitChar_noat (d : Nat) (h : d < 10) : digitChar d ≠ '@' := by
  have : ∀ d : Fin 10, digitChar d.val ≠ '@' := by decide
  exact this ⟨d, h⟩

theorem natText_noat (n : Nat) : '@' ∉ natText n := by
  induction n using Nat.strongRecOn with
  | ind n ih =>
    rw [natText]
    split
    · rename_i h; simp only [List.mem_singleton]; exact (digitChar_noat n h).symm
    · simp only [List.mem_append, List.mem_singleton, not_or]
      exact ⟨ih _ (by omega), (digitChar_noat _ (Nat.mod_lt _ (by omega))).symm⟩

theorem unknownName_noat (v : Int) : '@' ∉ unknownName v := by
  have h1 : '@' ∉ intText v := by
    unfold intText
    split
    · simp only [List.mem_cons, not_or]; exact ⟨by decide, natText_noat _⟩
    · exact natText_noat _
  unfold unknownName
  simp only [List.mem_append, not_or]
  refine ⟨by decide, ?_⟩
  simp only [replaceMinus, List.mem_flatMap, not_exists, not_and]
  intro c hc
  split
  · decide
  · simp only [List.mem_singleton]; exact fun h => h1 (h ▸ hc)

theorem insertValue_mem {cs cs' : List EnumValue} {v : EnumValue} (h : insertValue cs v = .ok cs') : cs' = cs ++ [v] := by
  unfold insertValue at h
  split at h
  · cases h
  · cases h; rfl

theorem declareValues_noat {en : Text} {ds : List (Text × Option Int)} {cur : Int} {u : List Int} {cs : List EnumValue}
    {r : List Int × List EnumValue} (h : declareValues en ds cur u cs = .ok r) (hds : ∀ d ∈ ds, '@' ∉ d.1)
    (hcs : ∀ c ∈ cs, '@' ∉ c.name) : ∀ c ∈ r.2, '@' ∉ c.name := by
  induction ds generalizing cur u cs with
  | nil => simp only [declareValues, pure, Except.pure, Except.ok.injEq] at h; rw [← h]; exact hcs
  | cons d ds ih =>
    obtain ⟨n, c⟩ := d
    simp only [declareValues] at h
    split at h
    · cases h
    · obtain ⟨cs1, h1, h⟩ := bind_ok h
      refine ih h (fun d hd => hds d (by simp [hd])) ?_
      rw [insertValue_mem h1]
      intro x hx
      rcases List.mem_append.mp hx with hx | hx
      · exact hcs x hx
      · simp only [List.mem_singleton] at hx; subst hx; exact hds (n, c) (by simp)

theorem fillMissing_noat {u : List Int} {vs : List Int} {cs r : List EnumValue} (h : fillMissing u vs cs = .ok r)
    (hcs : ∀ c ∈ cs, '@' ∉ c.name) : ∀ c ∈ r, '@' ∉ c.name := by
  induction vs generalizing cs with
  | nil => simp only [fillMissing, pure, Except.pure, Except.ok.injEq] at h; rw [← h]; exact hcs
  | cons v vs ih =>
    simp only [fillMissing] at h
    split at h
    · exact ih h hcs
    · obtain ⟨cs1, h1, h⟩ := bind_ok h
      refine ih h ?_
      rw [insertValue_mem h1]
      intro x hx
      rcases List.mem_append.mp hx with hx | hx
      · exact hcs x hx
      · simp only [List.mem_singleton] at hx; subst hx; exact unknownName_noat v

theorem createEnum_named {e t} (hn : '@' ∉ e.name) (hv : ∀ v ∈ e.values, '@' ∉ v.1) (h : createEnum e = .ok t) : Named t := by
  obtain ⟨t0, h0, h⟩ := bind_ok h
  obtain ⟨r, hr, h⟩ := bind_ok h
  obtain ⟨vs, hvs, h⟩ := bind_ok h
  cases h
  obtain ⟨rfl, _⟩ := create_ok h0
  have hr' : ∀ c ∈ r.values, '@' ∉ c.name := by
    unfold Enumeration.create at hr
    obtain ⟨bt, _, h⟩ := bind_ok hr
    obtain ⟨⟨u, cs⟩, h1, h⟩ := bind_ok h
    simp only at h
    split at h
    · simp [bind, Except.bind, throw, throwThe, MonadExceptOf.throw] at h
    · obtain ⟨vr, _, h⟩ := bind_ok h
      obtain ⟨cs2, h2, h⟩ := bind_ok h
      obtain ⟨_, _, h⟩ := bind_ok h
      cases h
      exact fillMissing_noat h2 (declareValues_noat h1 hv (by simp))
  refine ⟨.node hn (by simp) ?_, by simp [Tree.kind]⟩
  intro c hc'
  obtain ⟨m, hm, he⟩ := created_mem (mapM_created hvs) hc'
  obtain ⟨v, hv, rfl⟩ := List.mem_map.mp hm
  exact (create_named (hr' v hv) (by simp) he).1

theorem fieldRefs_named (ds : List PFieldDeco) : ∀ c ∈ fieldRefs ds, ∀ d, c = .ok d → WellNamed d := by
  induction ds with
  | nil => simp [fieldRefs]
  | cons d ds ih =>
    cases d <;> simp only [fieldRefs, List.forall_mem_cons]
    · exact ih
    · exact ⟨fun d hd => mkRef_named hd, ih⟩
    · exact ⟨fun d hd => mkRef_named hd, ih⟩

theorem createField_named {f t} (hf : '@' ∉ f.name) (h : createField f = .ok t) : Named t := by
  obtain ⟨t0, h0, h⟩ := bind_ok h
  obtain ⟨t1, h1, h⟩ := bind_ok h
  have g1 := insertEach_named (create_named hf (by simp) h0) (fieldRefs_named _) h1
  split at h
  · obtain ⟨r, hr, h⟩ := bind_ok h
    exact insert_named g1 (mkRef_named hr) h
  · obtain ⟨bt, _, h⟩ := bind_ok h
    cases h
    refine ⟨.node (g1.1.other g1.2) (by simp) ?_, by simp [Tree.kind]⟩
    cases t1 with
    | mk n k cs => exact g1.1.children

theorem createStruct_named {s t} (hs : '@' ∉ s.name) (hf : ∀ f ∈ s.fields, '@' ∉ f.name) (h : createStruct s = .ok t) : Named t := by
  obtain ⟨t0, h0, h⟩ := bind_ok h
  refine insertEach_named (create_named hs (by simp) h0) ?_ h
  intro c hc d hd; obtain ⟨f, hfm, rfl⟩ := List.mem_map.mp hc; exact (createField_named (hf f hfm) hd).1

theorem dotsToUnderscores_noat {t : Text} (h : '@' ∉ t) : '@' ∉ dotsToUnderscores t := by
  simp only [dotsToUnderscores, List.mem_map, not_exists, not_and]
  intro c hc
  split
  · decide
  · exact fun h2 => h (h2 ▸ hc)

theorem createExplicitReference_named {s f d t} (hs : '@' ∉ s) (hf : '@' ∉ f) (hd : '@' ∉ d)
    (h : createExplicitReference s f d = .ok t) : Named t := by
  obtain ⟨t0, h0, h⟩ := bind_ok h
  refine insertEach_named (create_named ?_ (by simp) h0) ?_ h
  · simp only [List.mem_append, List.mem_cons, not_or]
    refine ⟨⟨by decide, dotsToUnderscores_noat ?_⟩, by decide, dotsToUnderscores_noat hd⟩
    simp only [List.mem_append, List.mem_cons, not_or]
    exact ⟨hs, by decide, hf⟩
  · intro c hc u hu
    simp only [List.mem_cons, List.not_mem_nil, or_false] at hc
    rcases hc with rfl | rfl | rfl <;> exact mkRef_named hu

theorem resourceRefs_named (ds : List PResDeco) (hd : ∀ s f d, .explicitReference s f d ∈ ds → '@' ∉ s ∧ '@' ∉ f ∧ '@' ∉ d) :
    ∀ c ∈ resourceRefs ds, ∀ d, c = .ok d → WellNamed d := by
  induction ds with
  | nil => simp [resourceRefs]
  | cons d ds ih =>
    have ih' := ih (fun s f d h => hd s f d (by simp [h]))
    cases d with
    | explicitReference s f e =>
      simp only [resourceRefs, List.forall_mem_cons]
      obtain ⟨h1, h2, h3⟩ := hd s f e (by simp)
      exact ⟨fun d hd => (createExplicitReference_named h1 h2 h3 hd).1, ih'⟩
    | optional => simp only [resourceRefs]; exact ih'

theorem typeRefs_named (t : PResType) : ∀ c ∈ typeRefs t, ∀ d, c = .ok d → WellNamed d := by
  cases t <;> simp only [typeRefs, List.mem_singleton, List.mem_map, List.not_mem_nil]
  · rintro _ rfl d hd; exact mkRef_named hd
  · rintro _ ⟨_, _, rfl⟩ d hd; exact mkRef_named hd
  · rintro _ rfl d hd; exact mkRef_named hd
  · simp
  · rintro _ rfl d hd; exact mkRef_named hd

theorem createResource_named {r t} (hn : '@' ∉ r.name)
    (hd : ∀ s f d, .explicitReference s f d ∈ r.decorations → '@' ∉ s ∧ '@' ∉ f ∧ '@' ∉ d) (h : createResource r = .ok t) :
    Named t := by
  obtain ⟨t0, h0, h⟩ := bind_ok h
  refine insertEach_named (create_named hn (by simp) h0) ?_ h
  intro c hc u hu
  rcases List.mem_append.mp hc with hc | hc
  · exact resourceRefs_named _ hd c hc u hu
  · exact typeRefs_named _ c hc u hu

theorem createBound_named {b t} (hn : '@' ∉ b.1) (h : createBound b = .ok t) : Named t := by
  obtain ⟨t0, h0, h⟩ := bind_ok h
  refine insertEach_named (create_named hn (by simp) h0) ?_ h
  intro c hc d hd; obtain ⟨f, _, rfl⟩ := List.mem_map.mp hc; exact mkRef_named hd

theorem blockDefs_named {b : PBlock} (hb : PlainNames b) : ∀ c ∈ blockDefs b, ∀ d, c = .ok d → Named d := by
  obtain ⟨_, h1, h2, h3, h4⟩ := hb
  intro c hc d hd
  simp only [blockDefs, List.mem_append, List.mem_map] at hc
  rcases hc with ((⟨x, hx, rfl⟩ | ⟨x, hx, rfl⟩) | ⟨x, hx, rfl⟩) | ⟨x, hx, rfl⟩
  · exact createConstant_named (h1 x hx) hd
  · exact createStruct_named (h2 x hx).1 (h2 x hx).2 hd
  · exact createEnum_named (h3 x hx).1 (h3 x hx).2 hd
  · obtain ⟨g1, g2, g3⟩ := h4 x hx
    obtain ⟨t0, h0, hd⟩ := bind_ok hd
    refine insertEach_named (create_named g1 (by simp) h0) ?_ hd
    intro c hc u hu
    rcases List.mem_append.mp hc with hc | hc
    · obtain ⟨r, hr, rfl⟩ := List.mem_map.mp hc; exact (createResource_named (g3 r hr).1 (g3 r hr).2 hu).1
    · obtain ⟨r, hr, rfl⟩ := List.mem_map.mp hc; exact (createBound_named (g2 r hr) hu).1

theorem createBlock_named {b : PBlock} (hb : PlainNames b) {r : List Text × Tree} (h : createBlock b = .ok r) :
    (∀ k ∈ r.1, '@' ∉ k) ∧ ∀ d ∈ r.2.children, WellNamed d := by
  obtain ⟨h1, _, h3, _⟩ := createBlock_ok h
  refine ⟨by rw [h1]; exact splitDot_noat hb.1, ?_⟩
  intro d hd
  obtain ⟨c, hc, he⟩ := created_mem h3 hd
  exact (blockDefs_named hb c hc d he).1

/-! ## Changing trees -/

theorem setChild_named {t c : Tree} (ht : WellNamed t) (hc : WellNamed c) : WellNamed (t.setChild c) := by
  cases ht with
  | ref => exact .ref
  | node h1 h2 h3 =>
    refine .node h1 h2 ?_
    intro d hd
    obtain ⟨e, he, rfl⟩ := List.mem_map.mp hd
    split
    · exact hc
    · exact h3 e he

theorem child_named {t c : Tree} {k : Text} (ht : WellNamed t) (hc : t.child k = some c) : WellNamed c := by
  obtain ⟨hm, _⟩ := child_some hc
  cases t with
  | mk n kd cs => exact ht.children c hm

theorem setChild_kind (t c : Tree) : (t.setChild c).kind = t.kind := by cases t; rfl

theorem modifyAt_named {f : Tree → M Tree} (hf : ∀ n n', Named n → f n = .ok n' → WellNamed n') {p : List Text}
    (hp : ∀ k ∈ p, '@' ∉ k) : ∀ {t t' : Tree}, Named t → t.modifyAt f p = .ok t' → WellNamed t' := by
  induction p with
  | nil => intro t t' ht h; exact hf t t' ht h
  | cons k ks ih =>
    intro t t' ht h
    simp only [Tree.modifyAt] at h
    cases hc : t.child k with
    | none => rw [hc] at h; cases h
    | some c =>
      rw [hc] at h
      obtain ⟨c', h1, h⟩ := bind_ok h
      cases h
      have hcn : Named c := by
        refine ⟨child_named ht.1 hc, ?_⟩
        intro r hr
        obtain ⟨b, hb, _⟩ := (child_named ht.1 hc).ref_name hr
        rw [(child_some hc).2] at hb
        exact hp k (by simp) (by simp [hb])
      exact setChild_named ht.1 (ih (fun x hx => hp x (by simp [hx])) hcn h1)

theorem nested_named {f : Tree → M Tree} (hf : ∀ n n', Named n → f n = .ok n' → WellNamed n') {ks : List Text} :
    ∀ {k : Text} {u : Tree}, '@' ∉ k → (∀ x ∈ ks, '@' ∉ x) → nestedNamespaces f k ks = .ok u → WellNamed u := by
  induction ks with
  | nil =>
    intro k u hk _ h
    obtain ⟨t0, h0, h⟩ := bind_ok h
    exact hf _ _ (create_named hk (by simp) h0) h
  | cons k' ks ih =>
    intro k u hk hks h
    obtain ⟨c, hc, h⟩ := bind_ok h
    obtain ⟨t0, h0, h⟩ := bind_ok h
    simp only [List.forall_mem_cons] at hks
    exact (insert_named (create_named hk (by simp) h0) (ih hks.1 hks.2 hc) h).1

theorem ensure_named {f : Tree → M Tree} (hf : ∀ n n', Named n → f n = .ok n' → WellNamed n') {keys : List Text} :
    ∀ {t t' : Tree}, (∀ k ∈ keys, '@' ∉ k) → Named t → t.ensureNamespace f keys = .ok t' → WellNamed t' := by
  induction keys with
  | nil =>
    intro t t' _ ht h
    simp only [Tree.ensureNamespace] at h
    split at h
    · exact hf t t' ht h
    · cases h
  | cons k ks ih =>
    intro t t' hk ht h
    simp only [List.forall_mem_cons] at hk
    simp only [Tree.ensureNamespace] at h
    cases hc : t.child k with
    | some c =>
      rw [hc] at h
      obtain ⟨c', h1, h⟩ := bind_ok h
      cases h
      have hcn : Named c := by
        refine ⟨child_named ht.1 hc, ?_⟩
        intro r hr
        obtain ⟨b, hb, _⟩ := (child_named ht.1 hc).ref_name hr
        rw [(child_some hc).2] at hb
        exact hk.1 (by simp [hb])
      exact setChild_named ht.1 (ih hk.2 hcn h1)
    | none =>
      rw [hc] at h
      obtain ⟨u, hu, h⟩ := bind_ok h
      exact (insert_named ht (nested_named hf hk.1 hk.2 hu) h).1

theorem ensure_kind {f : Tree → M Tree} {k : Text} {ks : List Text} {t t' : Tree} (h : t.ensureNamespace f (k :: ks) = .ok t') :
    t'.kind = t.kind ∧ t'.name = t.name := by
  simp only [Tree.ensureNamespace] at h
  cases hc : t.child k with
  | some c =>
    rw [hc] at h
    obtain ⟨c', h1, h⟩ := bind_ok h
    cases h
    exact ⟨setChild_kind t c', setChild_name t c'⟩
  | none =>
    rw [hc] at h
    obtain ⟨u, hu, h⟩ := bind_ok h
    obtain ⟨_, rfl⟩ := insert_ok h
    exact ⟨rfl, rfl⟩

/-! ## The whole tree -/

theorem mergeRoots_named {rs : List (List Text × Tree)} (hr : ∀ r ∈ rs, (∀ k ∈ r.1, '@' ∉ k) ∧ r.1 ≠ [] ∧ ∀ d ∈ r.2.children, WellNamed d) :
    ∀ {t t' : Tree}, Named t → mergeRoots t rs = .ok t' → Named t' := by
  induction rs with
  | nil => intro t t' ht h; simp only [mergeRoots, pure, Except.pure, Except.ok.injEq] at h; exact h ▸ ht
  | cons r rs ih =>
    intro t t' ht h
    obtain ⟨keys, target⟩ := r
    simp only [mergeRoots] at h
    obtain ⟨t1, h1, h⟩ := bind_ok h
    obtain ⟨g1, g2, g3⟩ := hr _ (List.mem_cons_self ..)
    simp only at g1 g2 g3
    refine ih (fun x hx => hr x (by simp [hx])) ?_ h
    refine ⟨ensure_named (fun n n' hn hf => (insertAll_named hn g3 hf).1) g1 ht h1, ?_⟩
    cases keys with
    | nil => exact absurd rfl g2
    | cons k ks => rw [(ensure_kind h1).1]; exact ht.2

theorem mapM_mem {α β : Type} {f : α → M β} {l : List α} {r : List β} (h : l.mapM f = .ok r) :
    ∀ b ∈ r, ∃ a ∈ l, f a = .ok b := by
  induction l generalizing r with
  | nil => simp only [List.mapM_nil, pure, Except.pure, Except.ok.injEq] at h; subst h; simp
  | cons a l ih =>
    rw [List.mapM_cons] at h
    obtain ⟨b, hb, h⟩ := bind_ok h
    obtain ⟨bs, hbs, h⟩ := bind_ok h
    cases h
    simp only [List.forall_mem_cons]
    refine ⟨⟨a, by simp, hb⟩, ?_⟩
    intro x hx
    obtain ⟨y, hy, he⟩ := ih hbs x hx
    exact ⟨y, by simp [hy], he⟩

theorem built_named {blocks : List PBlock} (hb : ∀ b ∈ blocks, PlainNames b) {t : Tree} (h : buildNodeTree blocks = .ok t) :
    Named t := by
  unfold buildNodeTree at h
  obtain ⟨rs, hrs, h⟩ := bind_ok h
  refine mergeRoots_named ?_ ⟨.node (by simp) (by simp) (by simp), by simp [Tree.root, Tree.kind]⟩ h
  intro r hr
  obtain ⟨b, hbm, he⟩ := mapM_mem hrs r hr
  obtain ⟨h1, h2⟩ := createBlock_named (hb b hbm) he
  refine ⟨h1, ?_, h2⟩
  rw [(createBlock_ok he).1]; exact splitDot_ne_nil _

/-! ## Iteration and positions -/

mutual
theorem mem_iter {t : Tree} {pre p : Path} {n : Tree} (h : (p, n) ∈ t.iter pre) :
    ∃ pos, treeAt t pos = some n ∧ p = pre ++ namesAt t pos := by
  cases t with
  | mk m k cs =>
    simp only [Tree.iter, List.mem_cons, Prod.mk.injEq] at h
    rcases h with ⟨rfl, rfl⟩ | h
    · exact ⟨[], rfl, by simp [namesAt]⟩
    · obtain ⟨i, c, pos, h1, h2, h3⟩ := mem_iterList h
      exact ⟨i :: pos, by simp [treeAt, Tree.children, h1, h2], by simp [namesAt, Tree.children, h1, h3]⟩
theorem mem_iterList {cs : List Tree} {pre p : Path} {n : Tree} (h : (p, n) ∈ iterList pre cs) :
    ∃ (i : Nat) (c : Tree) (pos : List Nat), cs[i]? = some c ∧ treeAt c pos = some n ∧ p = pre ++ c.name :: namesAt c pos := by
  cases cs with
  | nil => simp [iterList] at h
  | cons c cs =>
    simp only [iterList, List.mem_append] at h
    rcases h with h | h
    · obtain ⟨pos, h1, h2⟩ := mem_iter h
      exact ⟨0, c, pos, rfl, h1, by simp [h2]⟩
    · obtain ⟨i, d, pos, h1, h2, h3⟩ := mem_iterList h
      exact ⟨i + 1, d, pos, by simpa using h1, h2, h3⟩
end

theorem iterList_mem {cs : List Tree} {pre : Path} {c : Tree} (hc : c ∈ cs) {e : Path × Tree} (he : e ∈ c.iter (pre ++ [c.name])) :
    e ∈ iterList pre cs := by
  induction cs with
  | nil => simp at hc
  | cons d cs ih =>
    simp only [iterList, List.mem_append]
    rcases List.mem_cons.mp hc with rfl | hc
    · exact .inl he
    · exact .inr (ih hc)

theorem iter_mem {pos : List Nat} : ∀ {t : Tree} {pre : Path} {n : Tree}, treeAt t pos = some n →
    (pre ++ namesAt t pos, n) ∈ t.iter pre := by
  induction pos with
  | nil =>
    intro t pre n h
    simp only [treeAt, Option.some.injEq] at h
    subst h
    cases t with
    | mk m k cs => simp [Tree.iter, namesAt]
  | cons i is ih =>
    intro t pre n h
    cases t with
    | mk m k cs =>
      simp only [treeAt, Tree.children] at h
      cases hi : cs[i]? with
      | none => simp [hi] at h
      | some c =>
        rw [hi] at h
        have := ih (pre := pre ++ [c.name]) h
        simp only [Tree.iter, List.mem_cons, namesAt, Tree.children, hi]
        right
        exact iterList_mem (List.mem_of_getElem? hi) (by simpa using this)

/-- Iterating visits exactly the nodes of the tree. -/
theorem iter_iff {t : Tree} {p : Path} {n : Tree} : (p, n) ∈ t.iter [] ↔ ∃ pos, treeAt t pos = some n ∧ namesAt t pos = p := by
  constructor
  · intro h; obtain ⟨pos, h1, h2⟩ := mem_iter h; exact ⟨pos, h1, by simpa using h2.symm⟩
  · rintro ⟨pos, h1, rfl⟩; simpa using iter_mem (pre := []) h1

/-! ## Builtin structures -/

theorem builtinKeys_noat {p : Path} (hp : ∀ k ∈ p, '@' ∉ k) : ∀ k ∈ builtinKeys p, '@' ∉ k := by
  intro k hk
  simp only [builtinKeys, List.mem_append, List.mem_cons, List.not_mem_nil, or_false] at hk
  rcases hk with hk | rfl | rfl
  · exact hp k (List.dropLast_subset _ (List.dropLast_subset _ hk))
  · decide
  · decide

theorem builtinKeys_cons (p : Path) : ∃ k ks, builtinKeys p = k :: ks := by
  cases h : builtinKeys p with
  | nil => simp [builtinKeys] at h
  | cons k ks => exact ⟨k, ks, rfl⟩

theorem indexType_named {w : Nat} {t : Tree} (h : createStruct (indexTypeDef w) = .ok t) : Named t := by
  have h1 : '@' ∉ (indexTypeDef w).name := by
    unfold indexTypeDef
    generalize hx : natText w = x
    have := natText_noat w
    rw [hx] at this
    simp only [List.mem_append, not_or]
    exact ⟨by decide, this⟩
  have h2 : ∀ f ∈ (indexTypeDef w).fields, '@' ∉ f.name := by
    unfold indexTypeDef
    intro f hf
    simp only [List.mem_singleton] at hf
    subst hf
    show '@' ∉ "value".toList
    decide
  exact createStruct_named h1 h2 h

theorem modifyAt_kind {f : Tree → M Tree} (hf : ∀ n n', f n = .ok n' → n'.kind = n.kind ∧ n'.name = n.name) {p : List Text}
    {t t' : Tree} (h : t.modifyAt f p = .ok t') : t'.kind = t.kind ∧ t'.name = t.name := by
  cases p with
  | nil => exact hf t t' h
  | cons k ks =>
    simp only [Tree.modifyAt] at h
    cases hc : t.child k with
    | none => rw [hc] at h; cases h
    | some c =>
      rw [hc] at h
      obtain ⟨c', _, h⟩ := bind_ok h
      cases h
      exact ⟨setChild_kind t c', setChild_name t c'⟩

theorem insert_kind {u n n' : Tree} (h : n.insert u = .ok n') : n'.kind = n.kind ∧ n'.name = n.name := by
  obtain ⟨_, rfl⟩ := insert_ok h; exact ⟨rfl, rfl⟩

/-- What is true of trees on which references can be resolved. -/
structure Ready (t : Tree) : Prop where
  good : Good t
  named : WellNamed t
  name : t.name = []
  kind : t.kind = .root

theorem Ready.nonref {t : Tree} (h : Ready t) : Named t := ⟨h.named, by rw [h.kind]; simp⟩

theorem appendBuiltin_ready {t t' : Tree} {p : Path} {w : Nat} (ht : Ready t) (hp : ∀ k ∈ p, '@' ∉ k)
    (h : appendBuiltin t p w = .ok t') : Ready t' := by
  unfold appendBuiltin at h
  obtain ⟨t1, h1, h⟩ := bind_ok h
  obtain ⟨r, h2, h⟩ := bind_ok h
  have hk := builtinKeys_noat hp
  have hn1 : WellNamed t1 := by
    refine ensure_named ?_ hk ht.nonref h1
    intro n n' hn hf
    obtain ⟨b, hb, hf⟩ := bind_ok hf
    split at hf
    · cases hf; exact hn.1
    · exact (insert_named hn (indexType_named hb).1 hf).1
  have hg1 : Good t1 := by
    refine ensure_good ?_ _ _ _ ht.good h1
    intro n n' hn hf
    obtain ⟨b, hb, hf⟩ := bind_ok hf
    split at hf
    · cases hf; exact hn
    · exact good_insert hn (createStruct_ok hb).1 hf
  obtain ⟨k0, ks0, hk0⟩ := builtinKeys_cons p
  rw [hk0] at h1
  have hkind := ensure_kind h1
  have hfin := modifyAt_kind (f := fun n => n.insert r) (fun n n' h => insert_kind h) h
  exact ⟨good_modifyAt (fun n n' hn hf => good_insert hn (mkRef_ok h2).1 hf) _ _ _ hg1 h,
    modifyAt_named (fun n n' hn hf => (insert_named hn (mkRef_named h2) hf).1) hp ⟨hn1, by rw [hkind.1, ht.kind]; simp⟩ h,
    by rw [hfin.2, hkind.2, ht.name], by rw [hfin.1, hkind.1, ht.kind]⟩

theorem foldlM_ready {l : List (Path × Nat)} (hl : ∀ e ∈ l, ∀ k ∈ e.1, '@' ∉ k) : ∀ {t t' : Tree}, Ready t →
    l.foldlM (fun r e => appendBuiltin r e.1 e.2) t = .ok t' → Ready t' := by
  induction l with
  | nil => intro t t' ht h; simp only [List.foldlM_nil, pure, Except.pure, Except.ok.injEq] at h; exact h ▸ ht
  | cons e l ih =>
    intro t t' ht h
    simp only [List.foldlM_cons] at h
    obtain ⟨t1, h1, h⟩ := bind_ok h
    exact ih (fun x hx => hl x (by simp [hx])) (appendBuiltin_ready ht (hl e (by simp)) h1) h

theorem multivectors_mem {t : Tree} {p : Path} {w : Nat} :
    (p, w) ∈ multivectors t ↔ ∃ pos n o m, treeAt t pos = some n ∧ namesAt t pos = p ∧ n.kind = .resource (.multivector w) o m := by
  simp only [multivectors, List.mem_filterMap]
  constructor
  · rintro ⟨⟨q, n⟩, h1, h2⟩
    obtain ⟨pos, h3, h4⟩ := iter_iff.mp h1
    simp only at h2
    split at h2
    · rename_i w' o m hk
      simp only [Option.some.injEq, Prod.mk.injEq] at h2
      obtain ⟨rfl, rfl⟩ := h2
      exact ⟨pos, n, o, m, h3, h4, hk⟩
    · cases h2
  · rintro ⟨pos, n, o, m, h1, h2, h3⟩
    exact ⟨(p, n), iter_iff.mpr ⟨pos, h1, h2⟩, by simp [h3]⟩

theorem appendBuiltins_ready {t t' : Tree} (ht : Ready t) (h : appendBuiltins t = .ok t') : Ready t' := by
  refine foldlM_ready ?_ ht h
  rintro ⟨p, w⟩ he
  obtain ⟨pos, n, o, m, h1, h2, h3⟩ := multivectors_mem.mp he
  rw [← h2]
  exact namesAt_noat ht.named h1 (by rw [h3]; simp)

end Gen
