import Verif.Lemmas.GenPython

/-! # Generated Python modules: archives -/

namespace Gen
open Spec Props

/-! ## Variables of class bodies -/

theorem evalVars_map {cls : Text} {l : List (Text × Text)} (h : ∀ v ∈ l, SchemaChars v.2) : ∀ body,
    evalVars cls (l.map fun v => (v.1, pyLiteral v.2)) body = some ((l.map fun v => (mangle cls v.1, v.2)).reverse ++ body) := by
  induction l with
  | nil => intro body; rfl
  | cons a l ih =>
    intro body
    rw [List.map_cons, evalVars, (schema_literals (h a (by simp))).1]
    simp only
    rw [ih fun v hv => h v (by simp [hv])]
    simp

/-- The variables in the body of the class of an archive. -/
def bodyVars (s : Text) (rs : List Tree) (X : Tree → Text) : List (Text × Text) :=
  ("_SCHEMA".toList, s) :: rs.flatMap fun r => [(schemaVariable r.name, X r), (docVariable r.name, [])]

theorem schemaVariable_inj {a b : Text} (h : schemaVariable a = schemaVariable b) : upperText a = upperText b := by
  unfold schemaVariable at h
  simp only [List.cons_append, List.cons.injEq, true_and] at h
  exact List.append_cancel_right h

theorem docVariable_inj {a b : Text} (h : docVariable a = docVariable b) : upperText a = upperText b := by
  unfold docVariable at h
  simp only [List.cons_append, List.cons.injEq, true_and] at h
  exact List.append_cancel_right h

theorem schema_ne_doc (a b : Text) : schemaVariable a ≠ docVariable b := by
  intro h
  have := congrArg List.getLast? h
  unfold schemaVariable docVariable at this
  rw [List.getLast?_append, List.getLast?_append, show "_SCHEMA".toList.getLast? = some 'A' by decide, show "_DOC".toList.getLast? = some 'C' by decide] at this
  simp at this

theorem root_ne_doc (b : Text) : "_SCHEMA".toList ≠ docVariable b := by
  intro h
  have := congrArg List.getLast? h
  unfold docVariable at this
  rw [List.getLast?_append, show "_SCHEMA".toList.getLast? = some 'A' by decide, show "_DOC".toList.getLast? = some 'C' by decide] at this
  simp at this

theorem root_ne_schema {b : Text} (hb : b ≠ []) : "_SCHEMA".toList ≠ schemaVariable b := by
  intro h
  have := congrArg List.length h
  unfold schemaVariable upperText at this
  simp only [List.cons_append, List.length_cons, List.length_append, List.length_map] at this
  have h2 : "_SCHEMA".toList.length = 7 := by decide
  rw [h2] at this
  have := List.length_pos_of_ne_nil hb
  omega

theorem variable_unmangled {cls r suffix : Text} (h : Ident r) (hr : r.head? ≠ some '_') : mangle cls ('_' :: upperText r ++ suffix) = '_' :: upperText r ++ suffix := by
  apply mangle_id
  obtain ⟨c, u, rfl, _⟩ := ident_head h
  simp only [upperText, List.map_cons, List.cons_append, List.take_succ_cons, List.take_zero, ne_eq, List.cons.injEq, and_true, true_and]
  intro e
  exact hr (by rw [toUpper_underscore e]; rfl)

/-- The resources of an archive as Python needs them. -/
structure NamedApart (rs : List Tree) : Prop where
  nodup : rs.Nodup
  ident : ∀ r ∈ rs, Ident r.name
  head : ∀ r ∈ rs, r.name.head? ≠ some '_'
  apart : ∀ r ∈ rs, ∀ r' ∈ rs, upperText r.name = upperText r'.name → r = r'

theorem bodyVars_nodup {s : Text} {rs : List Tree} {X : Tree → Text} (h : NamedApart rs) : ((bodyVars s rs X).map Prod.fst).Nodup := by
  unfold bodyVars
  rw [List.map_cons, List.nodup_cons, List.map_flatMap]
  constructor
  · intro hm
    obtain ⟨r, hr, hm⟩ := List.mem_flatMap.mp hm
    simp only [List.map_cons, List.map_nil, List.mem_cons, List.not_mem_nil, or_false] at hm
    rcases hm with hm | hm
    · refine root_ne_schema ?_ hm
      obtain ⟨c, u, e, _⟩ := ident_head (h.ident r hr)
      rw [e]; simp
    · exact root_ne_doc _ hm
  · rw [List.nodup_flatMap]
    constructor
    · intro r _
      simp only [List.map_cons, List.map_nil, List.nodup_cons, List.mem_singleton, List.not_mem_nil, not_false_eq_true, List.nodup_nil, and_true]
      exact schema_ne_doc _ _
    · refine List.Pairwise.imp_of_mem ?_ h.nodup
      intro a b ha hb hab
      simp only [Function.onFun]
      intro x hx hx'
      simp only [List.map_cons, List.map_nil, List.mem_cons, List.not_mem_nil, or_false] at hx hx'
      rcases hx with rfl | rfl <;> rcases hx' with e | e
      · exact hab (h.apart a ha b hb (schemaVariable_inj e))
      · exact schema_ne_doc _ _ e
      · exact schema_ne_doc _ _ e.symm
      · exact hab (h.apart a ha b hb (docVariable_inj e))

theorem bodyVars_mangle {cls s : Text} {rs : List Tree} {X : Tree → Text} (h : NamedApart rs) :
    (bodyVars s rs X).map (fun v => (mangle cls v.1, v.2)) = bodyVars s rs X := by
  have : ∀ v ∈ bodyVars s rs X, (mangle cls v.1, v.2) = v := by
    intro v hv
    unfold bodyVars at hv
    rcases List.mem_cons.mp hv with rfl | hv
    · have : mangle cls "_SCHEMA".toList = "_SCHEMA".toList := mangle_id (by decide)
      rw [this]
    · obtain ⟨r, hr, hv⟩ := List.mem_flatMap.mp hv
      simp only [List.mem_cons, List.not_mem_nil, or_false] at hv
      rcases hv with rfl | rfl
      · simp only; unfold schemaVariable; rw [variable_unmangled (h.ident r hr) (h.head r hr)]
      · simp only; unfold docVariable; rw [variable_unmangled (h.ident r hr) (h.head r hr)]
  conv_rhs => rw [← List.map_id (bodyVars s rs X)]
  exact List.map_congr_left this

/-- The body of the class of an archive after the assignments. -/
theorem body_eval {cls s : Text} {rs : List Tree} {X : Tree → Text} (h : NamedApart rs) (hs : SchemaChars s) (hX : ∀ r ∈ rs, SchemaChars (X r)) :
    ∃ body, evalVars cls ((bodyVars s rs X).map fun v => (v.1, pyLiteral v.2)) [] = some body ∧
      body.lookup (mangle cls "_SCHEMA".toList) = some s ∧ (∀ r ∈ rs, body.lookup (mangle cls (schemaVariable r.name)) = some (X r)) ∧
      ∀ name : Text, (∃ c ∈ name.head?, c ≠ '_') → body.lookup name = none := by
  have hchars : ∀ v ∈ bodyVars s rs X, SchemaChars v.2 := by
    intro v hv
    unfold bodyVars at hv
    rcases List.mem_cons.mp hv with rfl | hv
    · exact hs
    · obtain ⟨r, hr, hv⟩ := List.mem_flatMap.mp hv
      simp only [List.mem_cons, List.not_mem_nil, or_false] at hv
      rcases hv with rfl | rfl
      · exact hX r hr
      · intro c hcm; cases hcm
  refine ⟨_, evalVars_map hchars [], ?_⟩
  rw [List.append_nil, bodyVars_mangle h]
  have hnd : (((bodyVars s rs X).reverse).map Prod.fst).Nodup := by
    rw [List.map_reverse, List.nodup_reverse]
    exact bodyVars_nodup h
  refine ⟨?_, ?_, ?_⟩
  · rw [mangle_id (by decide)]
    refine lookup_of_nodup hnd ?_
    rw [List.mem_reverse]
    simp [bodyVars]
  · intro r hr
    unfold schemaVariable
    rw [variable_unmangled (h.ident r hr) (h.head r hr)]
    refine lookup_of_nodup hnd ?_
    rw [List.mem_reverse]
    unfold bodyVars
    refine List.mem_cons_of_mem _ (List.mem_flatMap.mpr ⟨r, hr, ?_⟩)
    simp [schemaVariable]
  · intro name ⟨c, hcm, hne⟩
    refine lookup_not_mem ?_
    intro hm
    rw [List.map_reverse, List.mem_reverse, List.mem_map] at hm
    obtain ⟨v, hv, rfl⟩ := hm
    have : v.1.head? = some '_' := by
      unfold bodyVars at hv
      rcases List.mem_cons.mp hv with rfl | hv
      · show "_SCHEMA".toList.head? = some '_'
        decide
      · obtain ⟨r, hr, hv⟩ := List.mem_flatMap.mp hv
        simp only [List.mem_cons, List.not_mem_nil, or_false] at hv
        rcases hv with rfl | rfl <;> rfl
    rw [this] at hcm
    simp only [Option.mem_def, Option.some.injEq] at hcm
    exact hne hcm.symm

/-! ## Environments -/

/-- The global names after the definitions in `done`. -/
structure GoodEnv (t : Tree) (done : List Path) (env : List (Text × PyVal)) : Prop where
  structures : ∀ p ∈ done, ∀ n sz, t.descend p = some n → n.kind = .structure sz → ∃ x dts, Schema t p (.ok x) ∧
    env.lookup (pythonName p) = some (.structure (structureClass p n) (totalBits n.children) x dts) ∧
    dts.map (fun d => (d.1, numpyDtype d.2)) = n.children.filterMap declaredDtype
  archives : ∀ p ∈ done, ∀ n, t.descend p = some n → n.kind = .archive → ∃ A, ArchiveAt t p A ∧
    env.lookup (pythonName p) = some (.archive A) ∧ env.lookup (pythonName p ++ "Builder".toList) = some (.builder A)
  names : ∀ c ∈ env.map Prod.fst, ∃ p ∈ done, ClassAt t p c

theorem classAt_structure {t n : Tree} {p : Path} {sz : Option Nat} (hn : t.descend p = some n) (hk : n.kind = .structure sz) : ClassAt t p (pythonName p) :=
  ⟨n, hn, .inl ⟨⟨sz, hk⟩, rfl⟩⟩

theorem classAt_archive {t n : Tree} {p : Path} (hn : t.descend p = some n) (hk : n.kind = .archive) :
    ClassAt t p (pythonName p) ∧ ClassAt t p (pythonName p ++ "Builder".toList) :=
  ⟨⟨n, hn, .inr ⟨hk, .inl rfl⟩⟩, ⟨n, hn, .inr ⟨hk, .inr rfl⟩⟩⟩

theorem lookup_cons_ne {β γ : Type} [BEq β] [LawfulBEq β] {d : List (β × γ)} {k x : β} {v : γ} (h : k ≠ x) : ((x, v) :: d).lookup k = d.lookup k := by
  rw [List.lookup_cons]
  have : (k == x) = false := by simpa using h
  rw [this]

/-- New names do not hide others. -/
theorem goodEnv_keep {t : Tree} (hi : Importable t) {done : List Path} {env new : List (Text × PyVal)} (h : GoodEnv t done env) {p : Path} (hp : p ∉ done)
    (hnew : ∀ c ∈ new.map Prod.fst, ClassAt t p c) {q : Path} (hq : q ∈ done) {c : Text} (hcl : ClassAt t q c) : (new ++ env).lookup c = env.lookup c := by
  induction new with
  | nil => rfl
  | cons a new ih =>
    obtain ⟨x, v⟩ := a
    rw [List.cons_append, lookup_cons_ne]
    · exact ih fun c hcm => hnew c (by simp at hcm ⊢; exact .inr hcm)
    · rintro rfl
      have := hi.classes _ _ _ hcl (hnew c (by simp))
      subst this
      exact hp hq

theorem goodEnv_structure {t : Tree} (hi : Importable t) {done : List Path} {env : List (Text × PyVal)} (h : GoodEnv t done env) {p : Path} (hp : p ∉ done) {n : Tree}
    {sz : Option Nat} (hn : t.descend p = some n) (hk : n.kind = .structure sz) {x : Text} {dts : List (Text × Text)} (hx : Schema t p (.ok x))
    (hd : dts.map (fun d => (d.1, numpyDtype d.2)) = n.children.filterMap declaredDtype) :
    GoodEnv t (done ++ [p]) ((pythonName p, .structure (structureClass p n) (totalBits n.children) x dts) :: env) := by
  have hnew : ∀ c ∈ [(pythonName p, PyVal.structure (structureClass p n) (totalBits n.children) x dts)].map Prod.fst, ClassAt t p c := by
    intro c hcm
    simp only [List.map_cons, List.map_nil, List.mem_singleton] at hcm
    subst hcm
    exact classAt_structure hn hk
  constructor
  · intro q hq m sz' hm hmk
    rcases List.mem_append.mp hq with hq | hq
    · obtain ⟨y, d, h1, h2, h3⟩ := h.structures q hq m sz' hm hmk
      refine ⟨y, d, h1, ?_, h3⟩
      rw [← h2]
      exact goodEnv_keep hi h hp hnew hq (classAt_structure hm hmk)
    · rw [List.mem_singleton] at hq
      subst hq
      rw [hn] at hm; cases hm
      exact ⟨x, dts, hx, by simp, hd⟩
  · intro q hq m hm hmk
    rcases List.mem_append.mp hq with hq | hq
    · obtain ⟨A, h1, h2, h3⟩ := h.archives q hq m hm hmk
      refine ⟨A, h1, ?_, ?_⟩
      · rw [← h2]
        exact goodEnv_keep hi h hp hnew hq (classAt_archive hm hmk).1
      · rw [← h3]
        exact goodEnv_keep hi h hp hnew hq (classAt_archive hm hmk).2
    · rw [List.mem_singleton] at hq
      subst hq
      rw [hn] at hm; cases hm
      rw [hk] at hmk; cases hmk
  · intro c hcm
    rcases List.mem_cons.mp hcm with rfl | hcm
    · exact ⟨p, by simp, classAt_structure hn hk⟩
    · obtain ⟨q, hq, hcl⟩ := h.names c hcm
      exact ⟨q, by simp [hq], hcl⟩

theorem goodEnv_archive {t : Tree} (hi : Importable t) {done : List Path} {env : List (Text × PyVal)} (h : GoodEnv t done env) {p : Path} (hp : p ∉ done) {n : Tree}
    (hn : t.descend p = some n) (hk : n.kind = .archive) {A : Model.ArchiveType} (hA : ArchiveAt t p A) :
    GoodEnv t (done ++ [p]) ((pythonName p ++ "Builder".toList, .builder A) :: (pythonName p, .archive A) :: env) := by
  have hnew : ∀ c ∈ [(pythonName p ++ "Builder".toList, PyVal.builder A), (pythonName p, PyVal.archive A)].map Prod.fst, ClassAt t p c := by
    intro c hcm
    simp only [List.map_cons, List.map_nil, List.mem_cons, List.not_mem_nil, or_false] at hcm
    rcases hcm with rfl | rfl
    · exact (classAt_archive hn hk).2
    · exact (classAt_archive hn hk).1
  constructor
  · intro q hq m sz' hm hmk
    rcases List.mem_append.mp hq with hq | hq
    · obtain ⟨y, d, h1, h2, h3⟩ := h.structures q hq m sz' hm hmk
      refine ⟨y, d, h1, ?_, h3⟩
      rw [← h2]
      exact goodEnv_keep hi h hp hnew hq (classAt_structure hm hmk)
    · rw [List.mem_singleton] at hq
      subst hq
      rw [hn] at hm; cases hm
      rw [hk] at hmk; cases hmk
  · intro q hq m hm hmk
    rcases List.mem_append.mp hq with hq | hq
    · obtain ⟨A, h1, h2, h3⟩ := h.archives q hq m hm hmk
      refine ⟨A, h1, ?_, ?_⟩
      · rw [← h2]
        exact goodEnv_keep hi h hp hnew hq (classAt_archive hm hmk).1
      · rw [← h3]
        exact goodEnv_keep hi h hp hnew hq (classAt_archive hm hmk).2
    · rw [List.mem_singleton] at hq
      subst hq
      refine ⟨A, hA, ?_, by simp⟩
      rw [lookup_cons_ne]
      · simp
      · intro e
        have := congrArg List.length e
        simp at this
  · intro c hcm
    simp only [List.map_cons, List.mem_cons] at hcm
    rcases hcm with rfl | rfl | hcm
    · exact ⟨p, by simp, (classAt_archive hn hk).2⟩
    · exact ⟨p, by simp, (classAt_archive hn hk).1⟩
    · obtain ⟨q, hq, hcl⟩ := h.names c hcm
      exact ⟨q, by simp [hq], hcl⟩

/-! ## Resources -/

/-- What the references of a resource lead to is known. -/
structure RefsKnown (t : Tree) (env : List (Text × PyVal)) (r : Tree) : Prop where
  structures : ∀ ref ∈ r.children, ref.kind = .ref .structure ∨ ref.kind = .ref .builtinStructure →
    ∃ s b x d, StructureAt t ref.targetPath s ∧ env.lookup (pythonName ref.targetPath) = some (.structure s b x d)
  archives : ∀ ref ∈ r.children, ref.kind = .ref .archive → ∃ A, ArchiveAt t ref.targetPath A ∧ env.lookup (pythonName ref.targetPath) = some (.archive A)

theorem evalGlobal_known {cls : Text} {body : List (Text × Text)} {env : List (Text × PyVal)} {name : Text}
    (hbody : ∀ name : Text, (∃ c ∈ name.head?, c ≠ '_') → body.lookup name = none) (hname : ∃ c ∈ name.head?, IdStart c ∧ c ≠ '_') {v : PyVal} (hv : env.lookup name = some v) :
    evalGlobal cls body env name = some v := by
  obtain ⟨c, h1, _, h3⟩ := hname
  unfold evalGlobal
  rw [mangle_letter h1 h3, hbody name ⟨c, h1, h3⟩, hv]

section
variable {t : Tree} (hc : Compiled t) (hf : Flat t) (hi : Importable t)
include hc hf hi

/-- The class of the target of a reference. -/
theorem Compiled.refClass {q : Path} {r : Tree} {rk : RefKind} (hr : t.descend q = some r) (hk : r.kind = .ref rk) (hrk : rk = .structure ∨ rk = .builtinStructure ∨ rk = .archive) :
    refClass t r = .ok (pythonName r.targetPath) ∧ ∃ c ∈ (pythonName r.targetPath).head?, IdStart c ∧ c ≠ '_' := by
  obtain ⟨m, h1, h2, h3, _⟩ := hc.target hr hk
  have hd : Spec.Kind.isDefinition m.kind = true := by
    rcases hrk with rfl | rfl | rfl <;> simp only [KindFits] at h3
    · obtain ⟨sz, h3⟩ := h3; rw [h3]; rfl
    · obtain ⟨sz, h3⟩ := h3; rw [h3]; rfl
    · rw [h3]; rfl
  refine ⟨?_, (hc.pythonIdent hi h2 hd).2⟩
  unfold Gen.refClass
  rw [h1]
  show Except.ok (Gen.className t r.targetPath) = _
  rw [hc.className hf h2 hd]

theorem Compiled.evalStructures {cls : Text} {body : List (Text × Text)} {env : List (Text × PyVal)}
    (hbody : ∀ name : Text, (∃ c ∈ name.head?, c ≠ '_') → body.lookup name = none) {q : Path} {r : Tree} (hr : t.descend q = some r) (hkn : RefsKnown t env r) :
    ∀ refs : List Tree, (∀ ref ∈ refs, ref ∈ r.children ∧ (ref.kind = .ref .structure ∨ ref.kind = .ref .builtinStructure)) →
    refs.mapM (Gen.refClass t) = .ok (refs.map fun ref => pythonName ref.targetPath) ∧
    ∃ ss, (refs.map fun ref => pythonName ref.targetPath).mapM (evalStructure cls body env) = some ss ∧ StructuresAt t refs ss := by
  intro refs
  induction refs with
  | nil => intro _; exact ⟨rfl, [], rfl, .nil⟩
  | cons ref refs ih =>
    intro h
    obtain ⟨h1, ss, h2, h3⟩ := ih fun x hx => h x (by simp [hx])
    obtain ⟨hm, hk⟩ := h ref (by simp)
    obtain ⟨s, b, x, d, e1, e2⟩ := hkn.structures ref hm hk
    have hcls : Gen.refClass t ref = .ok (pythonName ref.targetPath) ∧ ∃ c ∈ (pythonName ref.targetPath).head?, IdStart c ∧ c ≠ '_' := by
      rcases hk with hk | hk
      · exact hc.refClass hf hi (hc.child hr hm) hk (by simp)
      · exact hc.refClass hf hi (hc.child hr hm) hk (by simp)
    refine ⟨?_, s :: ss, ?_, .cons e1 h3⟩
    · rw [List.mapM_cons, hcls.1, h1]; rfl
    · rw [List.map_cons, List.mapM_cons, h2]
      unfold evalStructure
      rw [evalGlobal_known hbody hcls.2 e2]
      rfl

omit hi in
/-- No namespaces below resources. -/
theorem Compiled.resourceKinds {q : Path} {r : Tree} (hr : t.descend q = some r) (hk : r.kind.isResource = true) : childKinds r.children = r.children.map Tree.kind := by
  unfold childKinds
  rw [List.filter_eq_self]
  intro k hkm
  simp only [ne_eq, decide_eq_true_eq]
  rintro rfl
  obtain ⟨c, hcm, hck⟩ := List.mem_map.mp hkm
  rcases hf q c.name c (hc.child hr hcm) hck with rfl | ⟨m, hm, hmk⟩
  · simp only [Tree.descend, Option.some.injEq] at hr
    subst hr
    rw [hc.rootKind] at hk; cases hk
  · rw [hr] at hm; cases hm
    rw [hmk] at hk; cases hk

theorem Compiled.resource_stmt (he : ExplicitReferencesOk t)
    (hidx : ∀ p n w o m, t.descend p = some n → n.kind = .resource (.multivector w) o m → ∃ index, childrenOf n (.ref .builtinStructure) = [index])
    {cls : Text} {body : List (Text × Text)} {env : List (Text × PyVal)}
    (hbody : ∀ name : Text, (∃ c ∈ name.head?, c ≠ '_') → body.lookup name = none) {q : Path} {r : Tree} (hr : t.descend q = some r) (hkn : RefsKnown t env r)
    (hk : r.kind.isResource = true) (hb : r.kind.isBoundResource = false) {x : Text} (hx : Schema t q (.ok x))
    (hv : body.lookup (mangle cls (schemaVariable r.name)) = some x) :
    ∃ pr sig, pyResource t r = .ok pr ∧ evalResource cls body env pr = some (String.ofList r.name, sig) ∧ ResourceAt t q r sig := by
  cases hrk : r.kind with
  | resource k o m =>
    have hch := hc.resource q r k o m hr hrk
    have hkinds := hc.resourceKinds hf hr hk
    have hsub : ∀ k, ∀ ref ∈ childrenOf r k, ref ∈ r.children ∧ ref.kind = k := by
      intro k ref hm
      have := List.mem_filter.mp hm
      simpa using this
    have one : ∀ {n : Nat}, childKinds r.children = List.replicate n .explicitReference ++ [.ref .structure] →
        ∃ ref s, childrenOf r (.ref .structure) = [ref] ∧ StructureAt t ref.targetPath s ∧ referencedStructures r = [ref] ∧ Gen.refClass t ref = .ok (pythonName ref.targetPath) ∧
          evalStructure cls body env (pythonName ref.targetPath) = some s := by
      intro n h
      obtain ⟨ref, h1, h2, h3⟩ := hc.oneChild hr (by simp) (by simp) h
      have hm : ref ∈ r.children := (hsub _ ref (by rw [h1]; simp)).1
      obtain ⟨s, b, y, d, e1, e2⟩ := hkn.structures ref hm (.inl h2)
      have hcls := hc.refClass hf hi h3 h2 (by simp)
      refine ⟨ref, s, h1, e1, ?_, hcls.1, ?_⟩
      · unfold referencedStructures
        rw [childrenLike_eq, childrenLike_eq, h1, childrenOf_none (by simp) (by rw [h]; simp)]
        rfl
      · unfold evalStructure
        rw [evalGlobal_known hbody hcls.2 e2]
    cases k with
    | bound => rw [hrk] at hb; cases hb
    | vector =>
      obtain ⟨n, h⟩ := hch
      obtain ⟨ref, s, h1, h2, h3, h4, h5⟩ := one h
      refine ⟨⟨r.name, .vector, .name (pythonName ref.targetPath), schemaVariable r.name, o⟩, _, ?_, ?_, .vector hrk h1 h2 hx⟩
      · unfold pyResource toContainer toInitializer
        rw [hrk]
        simp only
        rw [h3]
        simp only
        rw [h4]; rfl
      · unfold evalResource
        simp only
        rw [hv, h5]; rfl
    | «instance» =>
      obtain ⟨n, h⟩ := hch
      obtain ⟨ref, s, h1, h2, h3, h4, h5⟩ := one h
      refine ⟨⟨r.name, .instance, .name (pythonName ref.targetPath), schemaVariable r.name, o⟩, _, ?_, ?_, .instance hrk h1 h2 hx⟩
      · unfold pyResource toContainer toInitializer
        rw [hrk]
        simp only
        rw [h3]
        simp only
        rw [h4]; rfl
      · unfold evalResource
        simp only
        rw [hv, h5]; rfl
    | multivector w =>
      obtain ⟨index, hindex⟩ := hidx q r w o m hr hrk
      obtain ⟨him, hik⟩ := hsub _ index (by rw [hindex]; simp)
      have hrefs : referencedStructures r = index :: childrenOf r (.ref .structure) := by
        unfold referencedStructures
        rw [childrenLike_eq, childrenLike_eq, hindex]; rfl
      obtain ⟨h1, ss, h2, h3⟩ := hc.evalStructures hf hi (cls := cls) hbody hr hkn (index :: childrenOf r (.ref .structure)) (by
        intro ref hm
        rcases List.mem_cons.mp hm with rfl | hm
        · exact ⟨him, .inr hik⟩
        · exact ⟨(hsub _ _ hm).1, .inl (hsub _ _ hm).2⟩)
      cases h3 with
      | @cons _ _ i ss hi' hss =>
        refine ⟨⟨r.name, .multivector, .list ((index :: childrenOf r (.ref .structure)).map fun ref => pythonName ref.targetPath), schemaVariable r.name, o⟩, _, ?_, ?_,
          .multivector hrk hindex hi' hss hx⟩
        · unfold pyResource toContainer toInitializer
          rw [hrk]
          simp only
          rw [hrefs, h1]; rfl
        · unfold evalResource
          simp only
          rw [hv]
          rw [List.map_cons, List.mapM_cons] at h2
          rw [List.map_cons]
          simp only [Option.bind_eq_bind, Option.bind_some, Option.pure_def] at h2 ⊢
          cases ha : evalStructure cls body env (pythonName index.targetPath) with
          | none => rw [ha] at h2; cases h2
          | some a =>
            rw [ha, Option.bind_some] at h2
            cases hb' : (List.map (fun ref => pythonName ref.targetPath) (childrenOf r (.ref .structure))).mapM (evalStructure cls body env) with
            | none => rw [hb'] at h2; cases h2
            | some bs =>
              rw [hb'] at h2
              simp only [Option.bind_some, Option.some.injEq, List.cons.injEq] at h2 ⊢
              obtain ⟨rfl, rfl⟩ := h2
              rfl
    | rawData =>
      refine ⟨⟨r.name, .rawData, .none, schemaVariable r.name, o⟩, _, ?_, ?_, .rawData hrk hx⟩
      · unfold pyResource toContainer toInitializer
        rw [hrk]; rfl
      · unfold evalResource
        simp only
        rw [hv]; rfl
    | archive =>
      obtain ⟨n, h⟩ := hch
      obtain ⟨ref, h1, h2, h3⟩ := hc.oneChild hr (by simp) (by simp) h
      have hm : ref ∈ r.children := (hsub _ ref (by rw [h1]; simp)).1
      obtain ⟨A, e1, e2⟩ := hkn.archives ref hm h2
      have hcls := hc.refClass hf hi h3 h2 (by simp)
      have hn0 : n = 0 := by
        by_contra hne
        have hmem : Kind.explicitReference ∈ childKinds r.children := by
          rw [h]
          exact List.mem_append_left _ (List.mem_replicate.mpr ⟨hne, rfl⟩)
        rw [hkinds] at hmem
        obtain ⟨e, hem, hek⟩ := List.mem_map.mp hmem
        have hec := hc.explicit _ e (hc.child hr hem) hek
        have : Kind.ref .structure ∈ childKinds e.children := by rw [hec]; simp
        unfold childKinds at this
        obtain ⟨sr, hsm, hsk⟩ := List.mem_map.mp (List.mem_filter.mp this).1
        obtain ⟨y, hy, hyk, _⟩ := he q r e sr hr hem hek hsm hsk
        have : y.kind ∈ childKinds r.children := by rw [hkinds]; exact List.mem_map_of_mem hy
        rw [h, hyk] at this
        simp at this
      subst hn0
      have hlist : r.children = [ref] := by
        rw [hkinds] at h
        simp only [List.replicate_zero, List.nil_append] at h
        obtain ⟨y, h4, _⟩ := map_singleton h
        rw [h4] at hm ⊢
        rw [List.mem_singleton] at hm
        rw [hm]
      refine ⟨⟨r.name, .archive, .name (pythonName ref.targetPath), schemaVariable r.name, o⟩, _, ?_, ?_, .archive hrk h1 e1 hx⟩
      · unfold pyResource toContainer toInitializer
        rw [hrk]
        simp only
        rw [hlist]
        simp only
        rw [h2, hcls.1]; rfl
      · unfold evalResource
        simp only
        rw [hv, evalGlobal_known hbody hcls.2 e2]; rfl
  | _ => rw [hrk] at hk; cases hk

end

/-! ## The specification is a function -/

theorem schemaN_mono {t : Tree} {q : Path} {n m : Nat} {out : M Text} (h : schemaN t q n = some out) (hnm : n ≤ m) : schemaN t q m = some out := by
  unfold schemaN at h ⊢
  cases hr : Dfs.run (extractChildren t q) n (Dfs.init (true, [])) with
  | none => rw [hr] at h; cases h
  | some r =>
    rw [dfs_run_mono _ hr hnm]
    rw [hr] at h
    exact h

theorem schema_unique {t : Tree} {q : Path} {a b : M Text} (ha : Schema t q a) (hb : Schema t q b) : a = b := by
  obtain ⟨n, ha⟩ := ha
  obtain ⟨m, hb⟩ := hb
  have h1 := schemaN_mono ha (Nat.le_max_left n m)
  have h2 := schemaN_mono hb (Nat.le_max_right n m)
  rw [h1] at h2
  injection h2

theorem structureAt_unique {t : Tree} {p : Path} {a b : Model.StructType} (ha : StructureAt t p a) (hb : StructureAt t p b) : a = b := by
  obtain ⟨n, _, h1, _, rfl⟩ := ha
  obtain ⟨m, _, h2, _, rfl⟩ := hb
  rw [h1] at h2; cases h2; rfl

theorem structuresAt_unique {t : Tree} {l : List Tree} {a b : List Model.StructType} (ha : StructuresAt t l a) (hb : StructuresAt t l b) : a = b := by
  induction ha generalizing b with
  | nil => cases hb; rfl
  | cons h _ ih =>
    cases hb with
    | cons h' hs' => rw [structureAt_unique h h', ih hs']

theorem archiveAt_unique {t : Tree} {p : Path} {a b : Model.ArchiveType} (ha : ArchiveAt t p a) (hb : ArchiveAt t p b) : a = b := by
  revert b
  refine ArchiveAt.rec (t := t) (motive_1 := fun q r a _ => ∀ b, ResourceAt t q r b → a = b) (motive_2 := fun p l a _ => ∀ b, ResourcesAt t p l b → a = b)
    (motive_3 := fun p a _ => ∀ {b}, ArchiveAt t p b → a = b) ?_ ?_ ?_ ?_ ?_ ?_ ?_ ?_ ha
  · intro q r o m ref s x k1 c1 s1 x1 b hb
    cases hb with
    | «instance» k2 c2 s2 x2 =>
      rw [k1] at k2; rw [c1] at c2; cases k2; cases c2
      cases structureAt_unique s1 s2
      cases schema_unique x1 x2
      rfl
    | vector k2 => rw [k1] at k2; cases k2
    | multivector k2 => rw [k1] at k2; cases k2
    | rawData k2 => rw [k1] at k2; cases k2
    | archive k2 => rw [k1] at k2; cases k2
  · intro q r o m ref s x k1 c1 s1 x1 b hb
    cases hb with
    | vector k2 c2 s2 x2 =>
      rw [k1] at k2; rw [c1] at c2; cases k2; cases c2
      cases structureAt_unique s1 s2
      cases schema_unique x1 x2
      rfl
    | «instance» k2 => rw [k1] at k2; cases k2
    | multivector k2 => rw [k1] at k2; cases k2
    | rawData k2 => rw [k1] at k2; cases k2
    | archive k2 => rw [k1] at k2; cases k2
  · intro q r w o m index i ss x k1 c1 s1 l1 x1 b hb
    cases hb with
    | multivector k2 c2 s2 l2 x2 =>
      rw [k1] at k2; rw [c1] at c2; cases k2; cases c2
      cases structureAt_unique s1 s2
      cases structuresAt_unique l1 l2
      cases schema_unique x1 x2
      rfl
    | «instance» k2 => rw [k1] at k2; cases k2
    | vector k2 => rw [k1] at k2; cases k2
    | rawData k2 => rw [k1] at k2; cases k2
    | archive k2 => rw [k1] at k2; cases k2
  · intro q r o m x k1 x1 b hb
    cases hb with
    | rawData k2 x2 =>
      rw [k1] at k2; cases k2
      cases schema_unique x1 x2
      rfl
    | «instance» k2 => rw [k1] at k2; cases k2
    | vector k2 => rw [k1] at k2; cases k2
    | multivector k2 => rw [k1] at k2; cases k2
    | archive k2 => rw [k1] at k2; cases k2
  · intro q r o m ref a x k1 c1 a1 x1 ih b hb
    cases hb with
    | archive k2 c2 a2 x2 =>
      rw [k1] at k2; rw [c1] at c2; cases k2; cases c2
      cases ih a2
      cases schema_unique x1 x2
      rfl
    | «instance» k2 => rw [k1] at k2; cases k2
    | vector k2 => rw [k1] at k2; cases k2
    | multivector k2 => rw [k1] at k2; cases k2
    | rawData k2 => rw [k1] at k2; cases k2
  · intro p b hb
    cases hb; rfl
  · intro p r rs s ss h hs ih1 ih2 b hb
    cases hb with
    | cons h' hs' =>
      cases ih1 _ h'
      cases ih2 _ hs'
      rfl
  · intro p n x rs d1 k1 x1 r1 ih b hb
    cases hb with
    | mk d2 k2 x2 r2 =>
      rw [d1] at d2; cases d2
      cases schema_unique x1 x2
      cases ih _ r2
      rfl

/-! ## Archives -/

theorem plainResources_eq (n : Tree) : n.plainResources = n.children.filter fun r => (resourceLayout r).isSome := by
  unfold Tree.plainResources Tree.childrenLike
  apply List.filter_congr
  intro r _
  unfold resourceLayout
  cases h : r.kind with
  | resource k o m => cases k <;> rfl
  | _ => rfl

theorem ofList_append (a b : Text) : String.ofList (a ++ b) = String.ofList a ++ String.ofList b := by
  apply String.toList_injective
  simp

section
variable {t : Tree} (hc : Compiled t) (hf : Flat t) (hi : Importable t)
include hc hf hi

omit hf in
theorem Compiled.apart {p : Path} {n : Tree} (hn : t.descend p = some n) (hk : n.kind = .archive) : NamedApart n.plainResources := by
  have hsub : ∀ r ∈ n.plainResources, r ∈ n.children ∧ (resourceLayout r).isSome = true := by
    intro r hr
    rw [plainResources_eq] at hr
    exact List.mem_filter.mp hr
  constructor
  · have : (n.plainResources.map Tree.name).Nodup := by
      unfold Tree.plainResources Tree.childrenLike
      exact List.Nodup.sublist (List.filter_sublist.map _) (good_descend hc.lk.good hn).nodup
    exact List.Nodup.of_map _ this
  · intro r hr
    have h1 := hc.name _ r (hc.child hn (hsub r hr).1)
    have h2 := (hsub r hr).2
    unfold resourceLayout at h2
    cases hk : r.kind with
    | resource k o m => rw [hk] at h1; exact h1
    | _ => rw [hk] at h2; cases h2
  · intro r hr
    exact (hi.resources p n hn hk r (hsub r hr).1 (hsub r hr).2).1
  · intro r hr r' hr' hu
    exact (hi.resources p n hn hk r (hsub r hr).1 (hsub r hr).2).2 r' (hsub r' hr').1 (hsub r' hr').2 hu

theorem Compiled.archive_stmt (he : ExplicitReferencesOk t)
    (hidx : ∀ p n w o m, t.descend p = some n → n.kind = .resource (.multivector w) o m → ∃ index, childrenOf n (.ref .builtinStructure) = [index])
    {p : Path} {n : Tree} (hn : t.descend p = some n) (hk : n.kind = .archive) {sch : Path → M Text} {X : Path → Text}
    (hsch : ∀ q m, t.descend q = some m → Printable m.kind = true → sch q = .ok (X q) ∧ Schema t q (.ok (X q)) ∧ SchemaChars (X q))
    {env : List (Text × PyVal)} (hkn : ∀ r ∈ n.plainResources, RefsKnown t env r) (builder : Bool) :
    ∃ st A, pyArchive t builder p n sch = .ok st ∧ ArchiveAt t p A ∧
      execStmt env st = some ((pythonName p ++ (if builder then "Builder".toList else []), if builder then .builder A else .archive A) :: env) := by
  have hap := hc.apart hi hn hk
  have hd : Spec.Kind.isDefinition n.kind = true := by rw [hk]; rfl
  have hp : Printable n.kind = true := by unfold Printable; rw [hd]; rfl
  have hres : ∀ r ∈ n.plainResources, r ∈ n.children ∧ r.kind.isResource = true ∧ r.kind.isBoundResource = false := by
    intro r hr
    unfold Tree.plainResources Tree.childrenLike at hr
    obtain ⟨h1, h2⟩ := List.mem_filter.mp hr
    simp only [Bool.and_eq_true, Bool.not_eq_true'] at h2
    exact ⟨h1, h2.1, h2.2⟩
  have hrs : ∀ r ∈ n.plainResources, sch (p ++ [r.name]) = .ok (X (p ++ [r.name])) ∧ Schema t (p ++ [r.name]) (.ok (X (p ++ [r.name]))) ∧ SchemaChars (X (p ++ [r.name])) := by
    intro r hr
    obtain ⟨h1, h2, _⟩ := hres r hr
    exact hsch _ r (hc.child hn h1) (by unfold Printable; rw [h2, Bool.or_true])
  obtain ⟨hs1, hs2, hs3⟩ := hsch p n hn hp
  let cls : Text := pythonName p ++ (if builder then "Builder".toList else [])
  have hident : Ident cls := by
    obtain ⟨⟨⟨c, h1, h2⟩, h3⟩, _⟩ := hc.pythonIdent hi hn hd
    refine ⟨⟨c, ?_, h2⟩, ?_⟩
    · simp only [cls]
      cases hpn : pythonName p with
      | nil => rw [hpn] at h1; cases h1
      | cons d u => rw [hpn] at h1; exact h1
    · intro d hd
      simp only [cls] at hd
      rcases List.mem_append.mp hd with hd | hd
      · exact h3 d hd
      · cases builder with
        | true =>
          have : ∀ d ∈ "Builder".toList, IdChar d := by decide
          exact this d hd
        | false => cases hd
  obtain ⟨body, b1, b2, b3, b4⟩ := body_eval (cls := cls) (s := X p) (rs := n.plainResources) (X := fun r => X (p ++ [r.name])) hap hs3 fun r hr => (hrs r hr).2.2
  have hlist : ∀ l : List Tree, (∀ r ∈ l, r ∈ n.plainResources) → ∃ prs sigs, l.mapM (pyResource t) = .ok prs ∧ prs.mapM (evalResource cls body env) = some sigs ∧
      ResourcesAt t p l sigs ∧ sigs.map Prod.fst = l.map fun r => String.ofList r.name := by
    intro l
    induction l with
    | nil => intro _; exact ⟨[], [], rfl, rfl, .nil, rfl⟩
    | cons r l ih =>
      intro hl
      obtain ⟨prs, sigs, h1, h2, h3, h4⟩ := ih fun x hx => hl x (by simp [hx])
      have hr := hl r (by simp)
      obtain ⟨g1, g2, g3⟩ := hres r hr
      obtain ⟨pr, sig, e1, e2, e3⟩ := hc.resource_stmt hf hi he hidx b4 (hc.child hn g1) (hkn r hr) g2 g3 (hrs r hr).2.1 (b3 r hr)
      refine ⟨pr :: prs, (String.ofList r.name, sig) :: sigs, ?_, ?_, .cons e3 h3, by simp [h4]⟩
      · rw [List.mapM_cons, e1, h1]; rfl
      · rw [List.mapM_cons, e2, h2]; rfl
  obtain ⟨prs, sigs, h1, h2, h3, h4⟩ := hlist n.plainResources fun _ h => h
  have hnd : (((String.ofList n.name ++ ".archive", Model.Sig.rawData (String.ofList (X p)) false) :: sigs).map Prod.fst).Nodup := by
    rw [List.map_cons, h4, List.nodup_cons]
    constructor
    · intro hm
      obtain ⟨r, hr, e⟩ := List.mem_map.mp hm
      have : r.name = n.name ++ ".archive".toList := by
        have := congrArg String.toList e
        simpa using this
      have hdot : '.' ∈ r.name := by rw [this]; exact List.mem_append_right _ (by decide)
      exact (good_descend hc.lk.good (hc.child hn (hres r hr).1)).name hdot
    · have : (n.plainResources.map Tree.name).Nodup := by
        unfold Tree.plainResources Tree.childrenLike
        exact List.Nodup.sublist (List.filter_sublist.map _) (good_descend hc.lk.good hn).nodup
      have := nodup_ofList this
      rwa [List.map_map] at this
  rw [plainResources_eq] at h3
  refine ⟨.archive builder cls ((bodyVars (X p) n.plainResources fun r => X (p ++ [r.name])).map fun v => (v.1, pyLiteral v.2)) n.name
      (⟨n.name ++ ".archive".toList, .rawData, .none, "_SCHEMA".toList, false⟩ :: prs), _, ?_, .mk hn hk hs2 h3, ?_⟩
  · unfold pyArchive
    rw [hs1, mapM_map (g := fun r => [(schemaVariable r.name, pyLiteral (X (p ++ [r.name]))), (docVariable r.name, pyLiteral [])]) (by
      intro r hr
      rw [(hrs r hr).1]; rfl), h1, hc.className hf hn hd]
    show Except.ok _ = Except.ok _
    congr 2
    unfold bodyVars
    rw [List.map_cons, List.map_flatMap]
    rfl
  · unfold execStmt
    simp only
    rw [if_pos hident, b1]
    simp only [Option.bind_eq_bind, Option.bind_some, Option.pure_def]
    rw [b2]
    simp only [Option.bind_some]
    rw [List.mapM_cons]
    have e0 : evalResource cls body env ⟨n.name ++ ".archive".toList, .rawData, .none, "_SCHEMA".toList, false⟩ =
        some (String.ofList n.name ++ ".archive", .rawData (String.ofList (X p)) false) := by
      unfold evalResource
      simp only
      rw [b2, ofList_append]
      rfl
    rw [e0, h2]
    simp only [Option.bind_eq_bind, Option.bind_some, Option.pure_def]
    rw [dictDisplay_nodup hnd]
    rfl

end

end Gen
