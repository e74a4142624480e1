import Verif.Props.Gen.Python
import Verif.Props.Gen.SchemaSamples

/-!
# C60: a concrete module, and what the theorem excludes
-/

namespace Props
open Gen Spec

/-- The names of the classes for a node. -/
def classNames (e : Path × Tree) : List Text :=
  match e.2.kind with
  | .structure _ => [pythonName e.1]
  | .archive => [pythonName e.1, pythonName e.1 ++ "Builder".toList]
  | _ => []

/-- All class names, with the definitions they are for. -/
def allClasses (t : Tree) : List (Path × Text) := (t.iter []).flatMap fun e => (classNames e).map fun c => (e.1, c)

theorem allClasses_mem {t : Tree} (hc : Compiled t) {p : Path} {c : Text} (h : ClassAt t p c) : (p, c) ∈ allClasses t := by
  obtain ⟨n, hn, h⟩ := h
  refine List.mem_flatMap.mpr ⟨(p, n), (iter_descend hc.lk.good).mpr hn, List.mem_map.mpr ⟨c, ?_, rfl⟩⟩
  unfold classNames
  rcases h with ⟨⟨sz, hk⟩, rfl⟩ | ⟨hk, rfl | rfl⟩ <;> simp only [hk] <;> simp

def lettersCheck (t : Tree) : Bool := t.children.all fun n => n.name.head?.any fun c => isIdStart c && c ≠ '_'
def classesCheck (t : Tree) : Bool := (allClasses t).all fun x => (allClasses t).all fun y => x.2 ≠ y.2 || x.1 = y.1
def resourcesCheck (t : Tree) : Bool := (t.iter []).all fun e => e.2.kind ≠ .archive ||
  (let rs := e.2.children.filter fun r => (resourceLayout r).isSome
   rs.all fun r => r.name.head? ≠ some '_' && rs.all fun r' => r.name.map Char.toUpper ≠ r'.name.map Char.toUpper || r.name = r'.name)

theorem import_check {t : Tree} (hc : Compiled t) (h1 : lettersCheck t = true) (h2 : classesCheck t = true) (h3 : resourcesCheck t = true) : Importable t := by
  constructor
  · intro k n hn
    obtain ⟨m, hm, hd, rfl⟩ := descend_parent (p := []) (k := k) hn
    cases hm
    have := List.all_eq_true.mp h1 n hd
    cases hh : n.name.head? with
    | none => rw [hh] at this; cases this
    | some c =>
      rw [hh] at this
      simp only [Option.any_some, Bool.and_eq_true, decide_eq_true_eq] at this
      exact ⟨c, rfl, (isIdStart_iff c).mp this.1, this.2⟩
  · intro p q c hp hq
    have := List.all_eq_true.mp (List.all_eq_true.mp h2 _ (allClasses_mem hc hp)) _ (allClasses_mem hc hq)
    simpa using this
  · intro p n hn hk r hr hl
    have := List.all_eq_true.mp h3 _ ((iter_descend hc.lk.good).mpr hn)
    simp only [hk, ne_eq, not_true_eq_false, decide_false, Bool.false_or] at this
    have := List.all_eq_true.mp this r (List.mem_filter.mpr ⟨hr, hl⟩)
    simp only [Bool.and_eq_true, decide_eq_true_eq] at this
    refine ⟨this.1, ?_⟩
    intro r' hr' hl' he
    have := List.all_eq_true.mp this.2 r' (List.mem_filter.mpr ⟨hr', hl'⟩)
    simp only [he, ne_eq, not_true_eq_false, decide_false, Bool.false_or, decide_eq_true_eq] at this
    have h4 := hc.uniqueChild hn hr
    have : r' ∈ n.children.filter fun d => d.name = r.name := List.mem_filter.mpr ⟨hr', by simp [this]⟩
    rw [h4, List.mem_singleton] at this
    exact this.symm

/-- The module of a tree (the number bounds the steps of the traversals). -/
def moduleOf (t : Tree) : List PyStmt :=
  match pyModuleN t 500 with
  | some (.ok m) => m
  | _ => []

theorem moduleOf_ok {t : Tree} (h : moduleOf t ≠ []) : PyModule t (.ok (moduleOf t)) := by
  refine ⟨500, ?_⟩
  unfold moduleOf at h ⊢
  cases hs : pyModuleN t 500 with
  | none => rw [hs] at h; exact absurd rfl h
  | some o =>
    cases o with
    | error e => rw [hs] at h; exact absurd rfl h
    | ok x => rfl

theorem checksA_import : (lettersCheck (treeOf blocksA) && classesCheck (treeOf blocksA) && resourcesCheck (treeOf blocksA)) = true := by decide +kernel

attribute [local irreducible] Compile in
/-- All hypotheses of `C60_module` for the first source of `C57_witness`. -/
theorem C60_witness : Compile sourceA (.ok (treeOf blocksA)) ∧ Flat (treeOf blocksA) ∧ NoBuiltin (treeOf blocksA) ∧ Importable (treeOf blocksA) := by
  have hc := compile_compiled sourceA_ok
  have h1 := checksA
  have h2 := checksA_import
  simp only [Bool.and_eq_true] at h1 h2
  exact ⟨sourceA_ok, flat_check hc h1.1.1, builtin_check hc h1.1.2, import_check hc h2.1.1 h2.1.2 h2.2⟩

/-- The structure class of that name. -/
def structureIn (env : List (Text × PyVal)) (c : Text) : Option (Model.StructType × Nat × List (Text × Text)) :=
  match env.lookup c with
  | some (.structure t bits _ dts) => some (t, bits, dts)
  | _ => none

/-- The names its module binds, latest first. -/
theorem moduleA_names : (execModule [] (moduleOf (treeOf blocksA))).map (fun env => env.map Prod.fst) =
    some ["n_RBuilder".toList, "n_R".toList, "n__builtin_multivector_IndexType33".toList, "n_S".toList] := by decide +kernel

/-- The layout of one of its classes. -/
theorem moduleA_layout : (execModule [] (moduleOf (treeOf blocksA))).bind (fun env => (structureIn env "n_S".toList).map Prod.fst) =
    some (Model.mkStruct "n_S" [⟨"f", 5, false⟩, ⟨"g", 1, false⟩]) := by decide +kernel

/-! ## What the theorem excludes -/

/-- Whether the module can be imported. -/
def imports (t : Tree) : Bool := (execModule [] (moduleOf t)).isSome

/-- A block with a structure and an archive of vectors. -/
def smallBlock (name struct : String) (type : String) (resources : List (String × String)) : PBlock :=
  { name := name.toList, constants := [], enumerations := []
    structures := [⟨struct.toList, [⟨"f".toList, [], type.toList, none⟩]⟩]
    archives := if resources = [] then [] else [⟨"A".toList, [], resources.map fun r => ⟨r.1.toList, [], .vector r.2.toList⟩⟩] }

/-- Two structures, one class name. -/
def sourceSame : Text := "namespace a.b { struct S { f : u8; } } namespace a { struct b_S { f : u16; } }".toList
def blocksSame : List PBlock := [smallBlock "a.b" "S" "u8" [], smallBlock "a" "b_S" "u16" []]

/-- Two resources whose names differ in case only. -/
def sourceCase : Text := "namespace n { struct S { f : u8; } archive A { v : vector< S >; V : vector< S >; } }".toList
def blocksCase : List PBlock := [smallBlock "n" "S" "u8" [("v", "S"), ("V", "S")]]

/-- A namespace that begins with two underscores. -/
def sourceMangled : Text := "namespace __n { struct S { f : u8; } archive A { v : vector< S >; } }".toList
def blocksMangled : List PBlock := [smallBlock "__n" "S" "u8" [("v", "S")]]

/-- A structure whose class is called like a variable in the body of another class. -/
def sourceShadowed : Text := "namespace _V { struct SCHEMA { f : u8; } archive A { v : vector< SCHEMA >; } }".toList
def blocksShadowed : List PBlock := [smallBlock "_V" "SCHEMA" "u8" [("v", "SCHEMA")]]

theorem same_facts : parsesTo sourceSame blocksSame = true ∧ accepted blocksSame = true ∧ flatCheck (treeOf blocksSame) = true ∧ builtinCheck (treeOf blocksSame) = true := by
  refine ⟨by decide +kernel, by decide +kernel, by decide +kernel, by decide +kernel⟩
theorem case_facts : parsesTo sourceCase blocksCase = true ∧ accepted blocksCase = true ∧ flatCheck (treeOf blocksCase) = true ∧ builtinCheck (treeOf blocksCase) = true := by
  refine ⟨by decide +kernel, by decide +kernel, by decide +kernel, by decide +kernel⟩
theorem mangled_facts : parsesTo sourceMangled blocksMangled = true ∧ accepted blocksMangled = true ∧ flatCheck (treeOf blocksMangled) = true ∧ builtinCheck (treeOf blocksMangled) = true := by
  refine ⟨by decide +kernel, by decide +kernel, by decide +kernel, by decide +kernel⟩
theorem shadowed_facts : parsesTo sourceShadowed blocksShadowed = true ∧ accepted blocksShadowed = true ∧ flatCheck (treeOf blocksShadowed) = true ∧ builtinCheck (treeOf blocksShadowed) = true := by
  refine ⟨by decide +kernel, by decide +kernel, by decide +kernel, by decide +kernel⟩

theorem sample_ok {s : Text} {b : List PBlock} (h : parsesTo s b = true ∧ accepted b = true ∧ flatCheck (treeOf b) = true ∧ builtinCheck (treeOf b) = true) :
    Compile s (.ok (treeOf b)) ∧ Flat (treeOf b) ∧ NoBuiltin (treeOf b) := by
  have h1 := compile_accepted h.1 h.2.1
  exact ⟨h1, flat_check (compile_compiled h1) h.2.2.1, builtin_check (compile_compiled h1) h.2.2.2⟩

theorem module_unimportable {t : Tree} (h0 : moduleOf t ≠ []) (h : execModule [] (moduleOf t) = none) : ∀ stmts, PyModule t (.ok stmts) → execModule [] stmts = none := by
  intro stmts hs
  have := pyModule_unique hs (moduleOf_ok h0)
  injection this with this
  rw [this, h]

/-- The resources of an archive class, with their schemas. -/
def schemasIn (env : List (Text × PyVal)) (c : Text) : List (String × String) :=
  match env.lookup c with
  | some (.archive a) => a.resources.map fun r => (r.1, r.2.schema)
  | _ => []

theorem caseModule : (execModule [] (moduleOf (treeOf blocksCase))).map (fun env => (schemasIn env "n_A".toList).lookup "v") =
    some (some (String.ofList (schemaOf (treeOf blocksCase) (pathOf "n.A.V")))) := by decide +kernel
theorem caseSchemas : schemaOf (treeOf blocksCase) (pathOf "n.A.v") ≠ schemaOf (treeOf blocksCase) (pathOf "n.A.V") ∧ schemaOf (treeOf blocksCase) (pathOf "n.A.v") ≠ [] ∧
    moduleOf (treeOf blocksCase) ≠ [] := by refine ⟨by decide +kernel, by decide +kernel, by decide +kernel⟩

attribute [local irreducible] Compile in
/-- Without the condition on class names: one class stands for two structures. -/
theorem C60_counterexample_classes : ∃ s t, Compile s (.ok t) ∧ Flat t ∧ NoBuiltin t ∧ ∃ p q c, p ≠ q ∧ ClassAt t p c ∧ ClassAt t q c := by
  obtain ⟨h1, h2, h3⟩ := sample_ok same_facts
  refine ⟨_, _, h1, h2, h3, pathOf "a.b.S", pathOf "a.b_S", "a_b_S".toList, by decide, ?_, ?_⟩
  · have : (((treeOf blocksSame).descend (pathOf "a.b.S")).map Tree.kind) = some (.structure (some 8)) := by decide +kernel
    obtain ⟨n, hn, hk⟩ := Option.map_eq_some_iff.mp this
    exact ⟨n, hn, .inl ⟨⟨_, hk⟩, by decide⟩⟩
  · have : (((treeOf blocksSame).descend (pathOf "a.b_S")).map Tree.kind) = some (.structure (some 16)) := by decide +kernel
    obtain ⟨n, hn, hk⟩ := Option.map_eq_some_iff.mp this
    exact ⟨n, hn, .inl ⟨⟨_, hk⟩, by decide⟩⟩

attribute [local irreducible] Compile in
/-- Without the condition on the names of resources: the class of the archive has a wrong schema for one of them. -/
theorem C60_counterexample_case : ∃ s t stmts env x y, Compile s (.ok t) ∧ Flat t ∧ NoBuiltin t ∧ PyModule t (.ok stmts) ∧ execModule [] stmts = some env ∧
    Schema t (pathOf "n.A.v") (.ok x) ∧ (schemasIn env "n_A".toList).lookup "v" = some (String.ofList y) ∧ x ≠ y := by
  obtain ⟨h1, h2, h3⟩ := sample_ok case_facts
  obtain ⟨e1, e2, e3⟩ := caseSchemas
  obtain ⟨env, g1, g2⟩ := Option.map_eq_some_iff.mp caseModule
  exact ⟨_, _, _, env, _, _, h1, h2, h3, moduleOf_ok e3, g1, schemaOf_ok e2, g2, e1⟩

attribute [local irreducible] Compile in
/-- Without the condition on the names of namespaces: the module cannot be imported, because names in classes are mangled. -/
theorem C60_counterexample_mangled : ∃ s t, Compile s (.ok t) ∧ Flat t ∧ NoBuiltin t ∧ (∃ stmts, PyModule t (.ok stmts)) ∧
    ∀ stmts, PyModule t (.ok stmts) → execModule [] stmts = none := by
  obtain ⟨h1, h2, h3⟩ := sample_ok mangled_facts
  have e : moduleOf (treeOf blocksMangled) ≠ [] := by decide +kernel
  have e2 : imports (treeOf blocksMangled) = false := by decide +kernel
  exact ⟨_, _, h1, h2, h3, ⟨_, moduleOf_ok e⟩, module_unimportable e (by simpa [imports] using e2)⟩

attribute [local irreducible] Compile in
/-- Likewise: a string is where the class of a structure should be (`none` is the model's value for it). -/
theorem C60_counterexample_shadowed : ∃ s t, Compile s (.ok t) ∧ Flat t ∧ NoBuiltin t ∧ (∃ stmts, PyModule t (.ok stmts)) ∧
    ∀ stmts, PyModule t (.ok stmts) → execModule [] stmts = none := by
  obtain ⟨h1, h2, h3⟩ := sample_ok shadowed_facts
  have e : moduleOf (treeOf blocksShadowed) ≠ [] := by decide +kernel
  have e2 : imports (treeOf blocksShadowed) = false := by decide +kernel
  exact ⟨_, _, h1, h2, h3, ⟨_, moduleOf_ok e⟩, module_unimportable e (by simpa [imports] using e2)⟩

end Props
