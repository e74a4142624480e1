import Verif.Lemmas.GenModule

/-!
# C58, C60: schemas in generated code, generated Python modules

`PyModule t (.ok stmts)` says that the Python generator writes the class statements `stmts` for the tree `t`;
`execModule [] stmts = some env` that the module can be imported, with the global names `env`.
-/

namespace Props
open Gen Spec

/-- **C58.** Whatever the definition or resource: the literal in the generated code denotes its schema, in Python (for structures
and for archives), C++, Rust and Go. -/
theorem C58_schema {s : Text} {t : Tree} (h : Compile s (.ok t)) (hf : Flat t) (hb : NoBuiltin t) {q : Path} {n : Tree} (hn : t.descend q = some n)
    (hd : Spec.Kind.isDefinition n.kind = true ∨ n.kind.isResource = true) {x : Text} (hx : Schema t q (.ok x)) (rest : Text) :
    Spec.pyTriple (pyRawLiteral x ++ rest) = some (x, rest) ∧ Spec.pyTriple (pyLiteral x ++ rest) = some (x, rest) ∧
    Spec.cppStrings false (cppLiteral x ++ ';' :: rest) = some (x, ';' :: rest) ∧
    Spec.rawString "R\"schema(".toList ")schema\"".toList (cppRawLiteral x ++ rest) = some (x, rest) ∧
    Spec.rawString "r#\"".toList "\"#".toList (rustRawLiteral x ++ rest) = some (x, rest) ∧
    Spec.rawString "`".toList "`".toList (goRawLiteral x ++ rest) = some (x, rest) := by
  have hc := compile_compiled h
  have hp : Printable n.kind = true := by unfold Printable; rw [Bool.or_eq_true]; exact hd
  have hch := hc.schars hf hb hn hp hx
  have hne : ∀ d : Char, ¬ SchemaChar d → ∀ c ∈ x, c ≠ d := fun d hd c hcm => schar_ne (hch c hcm) hd
  have hnm : ∀ d : Char, ¬ SchemaChar d → d ∉ x := fun d hd hm => hne d hd d hm rfl
  exact ⟨C58_python_raw x rest fun c hcm => ⟨hne _ (by decide) c hcm, hne _ (by decide) c hcm, hne _ (by decide) c hcm, hne _ (by decide) c hcm⟩,
    C58_python x rest fun c hcm => ⟨hne _ (by decide) c hcm, hne _ (by decide) c hcm⟩, C58_cpp x rest,
    C58_raw x rest ⟨hnm _ (by decide), hnm _ (by decide)⟩⟩

/-! ## Order of definitions -/

theorem reach_node {t : Tree} (hc : Compiled t) {p : Path} (h : Reachable (depChildren t) [] p) : ∃ n, t.descend p = some n ∧ ∀ rk, n.kind ≠ .ref rk := by
  obtain ⟨k, h⟩ := h
  induction k generalizing p with
  | zero =>
    cases h
    refine ⟨t, rfl, ?_⟩
    rw [hc.rootKind]; simp
  | succ k ih =>
    cases h with
    | @step _ _ b _ hw hch =>
      obtain ⟨m, hm, hmr⟩ := ih hw
      unfold depChildren at hch
      rw [hm] at hch
      simp only [List.mem_append, List.mem_map, Tree.childrenLike, List.mem_filter] at hch
      rcases hch with ⟨d, ⟨hd, hdk⟩, rfl⟩ | ⟨d, ⟨hd, hdk⟩, rfl⟩
      · refine ⟨d, hc.child hm hd, ?_⟩
        intro rk hrk
        rw [hrk] at hdk; cases hdk
      · have : ∃ rk, d.kind = .ref rk := by
          cases hk : d.kind with
          | ref rk => exact ⟨rk, rfl⟩
          | _ => rw [hk] at hdk; cases hdk
        obtain ⟨rk, hrk⟩ := this
        obtain ⟨m', _, h2, h3, _⟩ := hc.target (hc.child hm hd) hrk
        exact ⟨m', h2, fun rk' => (fits_nonref' (rk' := rk') h3).1⟩

/-- The order of definitions exists, contains everything and respects dependencies. -/
theorem order_exists {s : Text} {t : Tree} (h : Compile s (.ok t)) : ∃ n events, Dfs.run (depChildren t) n (Dfs.init []) = some (.ok events) ∧
    (dependencyOrder events).Nodup ∧ (∀ p m, t.descend p = some m → (∀ rk, m.kind ≠ .ref rk) → p ∈ dependencyOrder events) ∧
    (∀ p k q, p ∈ dependencyOrder events → Walk (depChildren t) (k + 1) p q → Before (dependencyOrder events) q p) := by
  have hc := compile_compiled h
  obtain ⟨blocks, _, hl, hba⟩ := compile_blocks h
  have hplain : ∀ b ∈ blocks, PlainNames b := fun b hb => lexical_plain (hl b hb)
  have hfin := depChildren_finite hc.lk
  obtain ⟨out, hout, _⟩ := C50_terminates _ _ _ hfin
  have hok : ∃ events, out = .ok events := by
    cases out with
    | ok events => exact ⟨events, rfl⟩
    | error e =>
      obtain ⟨v, hv, hcyc⟩ := (C50_circular_iff _ _ _ hfin _ hout).1.mp ⟨e, rfl⟩
      obtain ⟨m, hm, hr⟩ := reach_node hc hv
      exact absurd hcyc (C64_acyclic hplain hba hm hr)
  obtain ⟨events, rfl⟩ := hok
  obtain ⟨h1, h2, _⟩ := C49_dependency_order _ _ _ hfin events hout
  obtain ⟨n, hn⟩ := hout
  refine ⟨n, events, hn, h1, ?_, ?_⟩
  · intro p m hm hr
    exact (h2 p).mpr (all_reachable hc.lk p m hm hr)
  · intro p k q hp hw
    exact C49_all_dependencies_before _ _ _ hfin events ⟨n, hn⟩ p q hp k hw

/-- Everything before an element of a list without duplicates. -/
theorem before_mem {α : Type} {done l : List α} {p q : α} (hnd : (done ++ p :: l).Nodup) (h : Before (done ++ p :: l) q p) : q ∈ done := by
  obtain ⟨a, b, c, e⟩ := h
  have hp : p ∉ done := by
    intro hm
    rw [List.nodup_append] at hnd
    exact hnd.2.2 p hm p (by simp) rfl
  have hnd2 := hnd
  rw [e] at hnd2
  have hp2 : p ∉ a ++ q :: b := by
    intro hm
    rw [List.nodup_append] at hnd2
    exact hnd2.2.2 p hm p (by simp) rfl
  have : done = a ++ q :: b := by
    have key : ∀ (x y u v : List α), p ∉ x → p ∉ y → x ++ p :: u = y ++ p :: v → x = y := by
      intro x
      induction x with
      | nil =>
        intro y u v _ hy he
        cases y with
        | nil => rfl
        | cons d y =>
          injection he with e1 _
          subst e1
          exact absurd (List.mem_cons_self) hy
      | cons d x ih =>
        intro y u v hx hy he
        cases y with
        | nil =>
          injection he with e1 _
          subst e1
          exact absurd (List.mem_cons_self) hx
        | cons d' y =>
          injection he with e1 e2
          subst e1
          rw [ih y u v (fun hm => hx (by simp [hm])) (fun hm => hy (by simp [hm])) e2]
    exact key _ _ _ _ hp hp2 e
  rw [this]; simp

/-- A resource depends on what it refers to. -/
theorem walk_resource {t : Tree} (hc : Compiled t) {p : Path} {n r ref : Tree} {rk : RefKind} (hn : t.descend p = some n) (hr : r ∈ n.children)
    (hrr : ∀ k, r.kind ≠ .ref k) (href : ref ∈ r.children) (hk : ref.kind = .ref rk) (ht : rk.isType = true) : Walk (depChildren t) 2 p ref.targetPath := by
  have hrd := hc.child hn hr
  refine .step (b := p ++ [r.name]) (.step (.refl _) ?_) ?_
  · unfold depChildren
    rw [hn]
    simp only [List.mem_append, List.mem_map, Tree.childrenLike, List.mem_filter]
    refine .inl ⟨r, ⟨hr, ?_⟩, rfl⟩
    cases h : r.kind with
    | ref rk => exact absurd h (hrr rk)
    | _ => rfl
  · unfold depChildren
    rw [hrd]
    simp only [List.mem_append, List.mem_map, Tree.childrenLike, List.mem_filter]
    exact .inr ⟨ref, ⟨href, by rw [hk]; exact ht⟩, rfl⟩

theorem index_child {s : Text} {t : Tree} (h : Compile s (.ok t)) : ∀ p n w o m, t.descend p = some n → n.kind = .resource (.multivector w) o m →
    ∃ index, childrenOf n (.ref .builtinStructure) = [index] := by
  intro p n w o m hn hk
  have hc := compile_compiled h
  obtain ⟨blocks, _, hl, hba⟩ := compile_blocks h
  have hplain : ∀ b ∈ blocks, PlainNames b := fun b hb => lexical_plain (hl b hb)
  obtain ⟨r, h1, h2, _⟩ := C63_index_type hplain hba hn hk
  refine ⟨r, ?_⟩
  have hu := hc.uniqueChild hn h1
  have : childrenOf n (.ref .builtinStructure) = n.children.filter fun d => d.name = r.name := by
    unfold childrenOf
    apply List.filter_congr
    intro c hcm
    have h3 := h2 c hcm
    by_cases he : c.name = r.name
    · have hmem : c ∈ n.children.filter fun d => d.name = r.name := List.mem_filter.mpr ⟨hcm, by simpa using he⟩
      rw [hu, List.mem_singleton] at hmem
      subst hmem
      simp [h3.mpr rfl]
    · have : c.kind ≠ .ref .builtinStructure := fun hk => he (by rw [h3.mp hk])
      simp [he, this]
  rw [this, hu]

/-! ## Execution -/

theorem execModule_append {env env' : List (Text × PyVal)} {a b : List PyStmt} (h : execModule env a = some env') : execModule env (a ++ b) = execModule env' b := by
  induction a generalizing env with
  | nil => cases h; rfl
  | cons s a ih =>
    rw [List.cons_append, execModule]
    rw [execModule] at h
    cases hs : execStmt env s with
    | none => rw [hs] at h; cases h
    | some e =>
      rw [hs] at h
      exact ih h

theorem goodEnv_skip {t : Tree} {done : List Path} {env : List (Text × PyVal)} (h : GoodEnv t done env) {p : Path}
    (hp : ∀ n, t.descend p = some n → (∀ sz, n.kind ≠ .structure sz) ∧ n.kind ≠ .archive) : GoodEnv t (done ++ [p]) env := by
  constructor
  · intro q hq m sz hm hk
    rcases List.mem_append.mp hq with hq | hq
    · exact h.structures q hq m sz hm hk
    · rw [List.mem_singleton] at hq
      subst hq
      exact absurd hk ((hp m hm).1 sz)
  · intro q hq m hm hk
    rcases List.mem_append.mp hq with hq | hq
    · exact h.archives q hq m hm hk
    · rw [List.mem_singleton] at hq
      subst hq
      exact absurd hk (hp m hm).2
  · intro c hcm
    obtain ⟨q, hq, hcl⟩ := h.names c hcm
    exact ⟨q, by simp [hq], hcl⟩

theorem pyNodes_cons (t : Tree) (p : Path) (l : List Path) : pyNodes t (p :: l) = pyNodes t [p] ++ pyNodes t l := by
  unfold pyNodes
  rw [show p :: l = [p] ++ l from rfl, List.filterMap_append]

theorem refsKnown {t : Tree} (hc : Compiled t) {done : List Path} {env env' : List (Text × PyVal)} (hg : GoodEnv t done env)
    (hsame : ∀ q ∈ done, ∀ c, ClassAt t q c → env'.lookup c = env.lookup c) {q : Path} {r : Tree} (hr : t.descend q = some r)
    (hdone : ∀ ref ∈ r.children, ∀ rk, ref.kind = .ref rk → rk.isType = true → ref.targetPath ∈ done) : RefsKnown t env' r := by
  constructor
  · intro ref href hk
    have hrk : ∃ rk, ref.kind = .ref rk ∧ (rk = .structure ∨ rk = .builtinStructure) := by
      rcases hk with hk | hk
      · exact ⟨_, hk, .inl rfl⟩
      · exact ⟨_, hk, .inr rfl⟩
    obtain ⟨rk, hk, hrk⟩ := hrk
    have ht : rk.isType = true := by rcases hrk with rfl | rfl <;> rfl
    obtain ⟨m, _, h2, h3, _⟩ := hc.target (hc.child hr href) hk
    have hm : ∃ sz, m.kind = .structure sz := by rcases hrk with rfl | rfl <;> exact h3
    obtain ⟨sz, hm⟩ := hm
    have hd := hdone ref href rk hk ht
    obtain ⟨x, dts, e1, e2, _⟩ := hg.structures _ hd m sz h2 hm
    refine ⟨_, totalBits m.children, x, dts, ⟨m, sz, h2, hm, rfl⟩, ?_⟩
    rw [hsame _ hd _ (classAt_structure h2 hm)]
    exact e2
  · intro ref href hk
    obtain ⟨m, _, h2, h3, _⟩ := hc.target (hc.child hr href) hk
    have hd := hdone ref href _ hk rfl
    obtain ⟨A, e1, e2, _⟩ := hg.archives _ hd m h2 h3
    refine ⟨A, e1, ?_⟩
    rw [hsame _ hd _ (classAt_archive h2 h3).1]
    exact e2

theorem module_exec {s : Text} {t : Tree} (h : Compile s (.ok t)) (hf : Flat t) (hi : Importable t) {sch : Path → M Text} {X : Path → Text}
    (hsch : ∀ q m, t.descend q = some m → Printable m.kind = true → sch q = .ok (X q) ∧ Schema t q (.ok (X q)) ∧ SchemaChars (X q)) {order : List Path}
    (hnd : order.Nodup) (hbefore : ∀ p k q, p ∈ order → Walk (depChildren t) (k + 1) p q → Before order q p) :
    ∀ (l done : List Path) (env : List (Text × PyVal)), order = done ++ l → GoodEnv t done env →
      ∃ stss env', (pyNodes t l).mapM (pyNode t sch) = .ok stss ∧ execModule env stss.flatten = some env' ∧ GoodEnv t order env' := by
  have hc := compile_compiled h
  have hidx := index_child h
  have he : ExplicitReferencesOk t := by
    obtain ⟨blocks, _, hl, hba⟩ := compile_blocks h
    exact C65_explicit_references (fun b hb => lexical_plain (hl b hb)) hba
  intro l
  induction l with
  | nil =>
    intro done env ho hg
    rw [List.append_nil] at ho
    subst ho
    exact ⟨[], env, rfl, rfl, hg⟩
  | cons p l ih =>
    intro done env ho hg
    have ho' : order = (done ++ [p]) ++ l := by rw [ho]; simp
    have hp : p ∉ done := by
      intro hm
      rw [ho, List.nodup_append] at hnd
      exact hnd.2.2 p hm p (by simp) rfl
    have skip : pyNodes t [p] = [] → (∀ n, t.descend p = some n → (∀ sz, n.kind ≠ .structure sz) ∧ n.kind ≠ .archive) →
        ∃ stss env', (pyNodes t (p :: l)).mapM (pyNode t sch) = .ok stss ∧ execModule env stss.flatten = some env' ∧ GoodEnv t order env' := by
      intro h1 h2
      rw [pyNodes_cons, h1, List.nil_append]
      exact ih _ _ ho' (goodEnv_skip hg h2)
    have step : ∀ n sts env1, pyNodes t [p] = [(p, n)] → pyNode t sch (p, n) = .ok sts → execModule env sts = some env1 → GoodEnv t (done ++ [p]) env1 →
        ∃ stss env', (pyNodes t (p :: l)).mapM (pyNode t sch) = .ok stss ∧ execModule env stss.flatten = some env' ∧ GoodEnv t order env' := by
      intro n sts env1 h1 h2 h3 h4
      obtain ⟨stss, env', g1, g2, g3⟩ := ih _ _ ho' h4
      refine ⟨sts :: stss, env', ?_, ?_, g3⟩
      · rw [pyNodes_cons, h1, List.singleton_append, List.mapM_cons, h2, g1]; rfl
      · rw [List.flatten_cons, execModule_append h3, g2]
    cases hd : t.descend p with
    | none =>
      refine skip ?_ ?_
      · simp [pyNodes, hd]
      · intro n hn
        rw [hd] at hn; cases hn
    | some n =>
      cases hk : n.kind with
      | «structure» sz =>
        obtain ⟨h1, h2, h3⟩ := hsch p n hd (by rw [hk]; rfl)
        obtain ⟨st, dts, e1, e2, e3⟩ := structure_stmt h hf hi hd hk h3
        refine step n [st] _ ?_ ?_ ?_ (goodEnv_structure hi hg hp hd hk h2 e3)
        · simp [pyNodes, hd, hk, Kind.isStructure]
        · unfold pyNode
          simp only
          rw [hk]
          simp only
          rw [h1, e1]; rfl
        · unfold execModule
          rw [e2 env]; rfl
      | archive =>
        have hdone : ∀ r ∈ n.plainResources, ∀ ref ∈ r.children, ∀ rk, ref.kind = .ref rk → rk.isType = true → ref.targetPath ∈ done := by
          intro r hr ref href rk hrk ht
          unfold Tree.plainResources Tree.childrenLike at hr
          obtain ⟨hr, hrr⟩ := List.mem_filter.mp hr
          have hw := walk_resource hc hd hr (by
            intro k hk
            rw [hk] at hrr; cases hrr) href hrk ht
          have := hbefore p 1 _ (by rw [ho]; simp) hw
          rw [ho] at this hnd
          exact before_mem hnd this
        have hplain : ∀ r ∈ n.plainResources, t.descend (p ++ [r.name]) = some r := by
          intro r hr
          exact hc.child hd (List.mem_of_mem_filter hr)
        obtain ⟨st0, A, a1, a2, a3⟩ := hc.archive_stmt hf hi he hidx hd hk hsch (env := env)
          (fun r hr => refsKnown hc hg (fun _ _ _ _ => rfl) (hplain r hr) (hdone r hr)) false
        obtain ⟨st1, A', b1, b2, b3⟩ := hc.archive_stmt hf hi he hidx hd hk hsch (env := (pythonName p, .archive A) :: env)
          (fun r hr => refsKnown hc hg (fun q hq c hcl => goodEnv_keep hi hg hp (new := [(pythonName p, .archive A)]) (by
            intro c hcm
            simp only [List.map_cons, List.map_nil, List.mem_singleton] at hcm
            subst hcm
            exact (classAt_archive hd hk).1) hq hcl) (hplain r hr) (hdone r hr)) true
        cases archiveAt_unique a2 b2
        refine step n [st0, st1] _ ?_ ?_ ?_ (goodEnv_archive hi hg hp hd hk a2)
        · simp [pyNodes, hd, hk]
        · unfold pyNode
          simp only
          rw [hk]
          simp only
          rw [a1, b1]; rfl
        · simp only [Bool.false_eq_true, if_false, List.append_nil] at a3
          simp only [if_true] at b3
          unfold execModule
          rw [a3]
          simp only
          unfold execModule
          rw [b3]
          rfl
      | _ =>
        refine skip ?_ ?_
        · simp [pyNodes, hd, hk, Kind.isStructure]
        · intro m hm
          rw [hd] at hm; cases hm
          rw [hk]
          exact ⟨by simp, by simp⟩

/-! ## Modules -/

theorem mapM_congr' {α β : Type} {f g : α → M β} {l : List α} (h : ∀ x ∈ l, f x = g x) : l.mapM f = l.mapM g := by
  induction l with
  | nil => rfl
  | cons a l ih => rw [List.mapM_cons, List.mapM_cons, h a (by simp), ih fun x hx => h x (by simp [hx])]

theorem pyNode_congr {t : Tree} {f g : Path → M Text} {e : Path × Tree} (h : ∀ q ∈ schemaPaths e, f q = g q) : pyNode t f e = pyNode t g e := by
  have h0 : f e.1 = g e.1 := h _ (by simp [schemaPaths])
  have hr : ∀ r ∈ e.2.plainResources, f (e.1 ++ [r.name]) = g (e.1 ++ [r.name]) := by
    intro r hr
    apply h
    unfold schemaPaths
    exact List.mem_cons_of_mem _ (List.mem_map.mpr ⟨r, hr, rfl⟩)
  have ha : ∀ b, pyArchive t b e.1 e.2 f = pyArchive t b e.1 e.2 g := by
    intro b
    unfold pyArchive
    rw [h0]
    congr 1
    funext s
    congr 1
    apply mapM_congr'
    intro r hrm
    rw [hr r hrm]
  unfold pyNode
  simp only [h0, ha]

theorem pyModuleN_mono {t : Tree} {n m : Nat} {out : M (List PyStmt)} (h : pyModuleN t n = some out) (hnm : n ≤ m) : pyModuleN t m = some out := by
  unfold pyModuleN at h ⊢
  cases hr : Dfs.run (depChildren t) n (Dfs.init []) with
  | none => rw [hr] at h; cases h
  | some r =>
    rw [dfs_run_mono _ hr hnm]
    rw [hr] at h
    cases r with
    | error e => exact h
    | ok events =>
      simp only at h ⊢
      split at h
      · rename_i hall
        have hsome : ∀ q ∈ (pyNodes t (dependencyOrder events)).flatMap schemaPaths, ∃ o, schemaN t q n = some o ∧ schemaN t q m = some o := by
          intro q hq
          have := List.all_eq_true.mp hall q hq
          obtain ⟨o, ho⟩ := Option.isSome_iff_exists.mp this
          exact ⟨o, ho, schemaN_mono ho hnm⟩
        rw [if_pos]
        · rw [← h]
          congr 2
          rw [mapM_congr']
          intro e he
          apply pyNode_congr
          intro q hq
          obtain ⟨o, h1, h2⟩ := hsome q (List.mem_flatMap.mpr ⟨e, he, hq⟩)
          rw [h1, h2]
        · rw [List.all_eq_true]
          intro q hq
          obtain ⟨o, _, h2⟩ := hsome q hq
          rw [h2]; rfl
      · cases h

theorem pyModule_unique {t : Tree} {a b : M (List PyStmt)} (ha : PyModule t a) (hb : PyModule t b) : a = b := by
  obtain ⟨n, ha⟩ := ha
  obtain ⟨m, hb⟩ := hb
  have h1 := pyModuleN_mono ha (Nat.le_max_left n m)
  have h2 := pyModuleN_mono hb (Nat.le_max_right n m)
  rw [h1] at h2
  injection h2

/-- A number of steps that suffices for finitely many things. -/
theorem common_bound {α : Type} {P : α → Nat → Prop} (hmono : ∀ x n m, P x n → n ≤ m → P x m) (l : List α) (h : ∀ x ∈ l, ∃ n, P x n) : ∃ n, ∀ x ∈ l, P x n := by
  induction l with
  | nil => exact ⟨0, by simp⟩
  | cons a l ih =>
    obtain ⟨n, hn⟩ := ih fun x hx => h x (by simp [hx])
    obtain ⟨m, hm⟩ := h a (by simp)
    refine ⟨max n m, ?_⟩
    intro x hx
    rcases List.mem_cons.mp hx with rfl | hx
    · exact hmono _ _ _ hm (Nat.le_max_right n m)
    · exact hmono _ _ _ (hn x hx) (Nat.le_max_left n m)

/-- **C60.** For every accepted schema (without namespaces below definitions or references into `_builtin`, and with names that Python can
keep apart) the generator writes exactly one module; it can be imported; and it binds

* for every structure, a class with the computed layout, the schema of the structure and the numpy types of its fields,
* for every archive, a class and a builder with its resources, each with its types, its schema and whether it is optional,

under names that consist of the namespaces and the name of the definition; and no others. -/
theorem C60_module {s : Text} {t : Tree} (h : Compile s (.ok t)) (hf : Flat t) (hb : NoBuiltin t) (hi : Importable t) :
    ∃ stmts env, PyModule t (.ok stmts) ∧ (∀ out, PyModule t out → out = .ok stmts) ∧ execModule [] stmts = some env ∧
      (∀ p n size, t.descend p = some n → n.kind = .structure size → ∃ x dtypes, Schema t p (.ok x) ∧
        env.lookup (pythonName p) = some (.structure (structureClass p n) (totalBits n.children) x dtypes) ∧
        dtypes.map (fun d => (d.1, numpyDtype d.2)) = n.children.filterMap declaredDtype) ∧
      (∀ p n, t.descend p = some n → n.kind = .archive → ∃ A, ArchiveAt t p A ∧ (∀ B, ArchiveAt t p B → B = A) ∧
        env.lookup (pythonName p) = some (.archive A) ∧ env.lookup (pythonName p ++ "Builder".toList) = some (.builder A)) ∧
      ∀ c ∈ env.map Prod.fst, ∃ p, ClassAt t p c := by
  have hc := compile_compiled h
  obtain ⟨n0, events, hrun, hnd, hall, hbefore⟩ := order_exists h
  let L := (t.iter []).map (·.1)
  have hmemL : ∀ {p : Path} {m : Tree}, t.descend p = some m → p ∈ L := by
    intro p m hm
    simp only [L, List.mem_map, Prod.exists, exists_and_right, exists_eq_right, iter_descend hc.lk.good]
    exact ⟨m, hm⟩
  obtain ⟨n1, hn1⟩ := common_bound (P := fun q n => ∀ m, t.descend q = some m → Printable m.kind = true → ∃ x, schemaN t q n = some (.ok x))
    (by
      intro q n m hP hnm u hu hp
      obtain ⟨x, hx⟩ := hP u hu hp
      exact ⟨x, schemaN_mono hx hnm⟩) L (by
      intro q _
      by_cases hq : ∃ m, t.descend q = some m ∧ Printable m.kind = true
      · obtain ⟨m, hm, hp⟩ := hq
        have hp' := hp
        unfold Printable at hp'
        rw [Bool.or_eq_true] at hp'
        obtain ⟨x, ⟨n, hx⟩, _⟩ := C56_schema h hf hb hm hp'
        exact ⟨n, fun _ _ _ => ⟨x, hx⟩⟩
      · exact ⟨0, fun m hm hp => absurd ⟨m, hm, hp⟩ hq⟩)
  let N := max n0 n1
  let sch : Path → M Text := fun q => (schemaN t q N).getD (throw .runtimeError)
  let X : Path → Text := fun q => match sch q with | .ok x => x | .error _ => []
  have hget : ∀ q m, t.descend q = some m → Printable m.kind = true → ∃ x, schemaN t q N = some (.ok x) := by
    intro q m hm hp
    obtain ⟨x, hx⟩ := hn1 q (hmemL hm) m hm hp
    exact ⟨x, schemaN_mono hx (Nat.le_max_right n0 n1)⟩
  have hsch : ∀ q m, t.descend q = some m → Printable m.kind = true → sch q = .ok (X q) ∧ Schema t q (.ok (X q)) ∧ SchemaChars (X q) := by
    intro q m hm hp
    obtain ⟨x, hx⟩ := hget q m hm hp
    have h1 : sch q = .ok x := by simp only [sch]; rw [hx]; rfl
    have h2 : X q = x := by simp only [X]; rw [h1]
    rw [h2]
    exact ⟨h1, ⟨N, hx⟩, hc.schars hf hb hm hp ⟨N, hx⟩⟩
  obtain ⟨stss, env, e1, e2, e3⟩ := module_exec h hf hi hsch hnd hbefore (dependencyOrder events) [] [] rfl
    (by constructor <;> intro x hx <;> cases hx)
  have hmod : PyModule t (.ok stss.flatten) := by
    refine ⟨N, ?_⟩
    unfold pyModuleN
    rw [dfs_run_mono _ hrun (Nat.le_max_left n0 n1)]
    simp only
    rw [if_pos]
    · have e1' : (pyNodes t (dependencyOrder events)).mapM (pyNode t fun q => (schemaN t q N).getD (throw .runtimeError)) = .ok stss := e1
      rw [e1']; rfl
    · rw [List.all_eq_true]
      intro q hq
      obtain ⟨⟨p, n⟩, he, hq⟩ := List.mem_flatMap.mp hq
      obtain ⟨p', _, hp'⟩ := List.mem_filterMap.mp he
      have hpn : t.descend p = some n ∧ Printable n.kind = true := by
        split at hp'
        · rename_i n' hn'
          split at hp'
          · rename_i hk
            injection hp' with hp'
            injection hp' with h1 h2
            subst h1 h2
            refine ⟨hn', ?_⟩
            cases hk' : n'.kind <;> rw [hk'] at hk <;> first | rfl | (simp [Kind.isStructure] at hk)
          · cases hp'
        · cases hp'
      obtain ⟨hn, hp⟩ := hpn
      unfold schemaPaths at hq
      rcases List.mem_cons.mp hq with rfl | hq
      · obtain ⟨x, hx⟩ := hget _ n hn hp
        rw [hx]; rfl
      · obtain ⟨r, hr, rfl⟩ := List.mem_map.mp hq
        unfold Tree.plainResources Tree.childrenLike at hr
        obtain ⟨hr, hrk⟩ := List.mem_filter.mp hr
        simp only [Bool.and_eq_true] at hrk
        obtain ⟨x, hx⟩ := hget _ r (hc.child hn hr) (by unfold Printable; rw [hrk.1, Bool.or_true])
        rw [hx]; rfl
  refine ⟨stss.flatten, env, hmod, fun out ho => pyModule_unique ho hmod, e2, ?_, ?_, ?_⟩
  · intro p n size hn hk
    exact e3.structures p (hall p n hn (by rw [hk]; simp)) n size hn hk
  · intro p n hn hk
    obtain ⟨A, h1, h2, h3⟩ := e3.archives p (hall p n hn (by rw [hk]; simp)) n hn hk
    exact ⟨A, h1, fun B hB => archiveAt_unique hB h1, h2, h3⟩
  · intro c hcm
    obtain ⟨p, _, hcl⟩ := e3.names c hcm
    exact ⟨p, hcl⟩

/-- **C45 (names).** The natural width and the signedness of a basic type are those its name spells: `bool` has one unsigned
bit, every other name is `i` (signed) or `u` (unsigned) followed by the width in decimal. -/
theorem C45_names (b : BasicName) :
    (b.text = "bool".toList ∧ b.width = 1 ∧ b.isSigned = false) ∨
    (b.text = (if b.isSigned then 'i' else 'u') :: (toString b.width).toList) := by
  cases b <;> decide +kernel

end Props
