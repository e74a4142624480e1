import Verif.Props.Gen.Evolution
import Verif.Props.Gen.UsageSamples

/-!
# C68: two versions of a schema, and what the theorem does not say
-/

namespace Props
open Gen Spec Model

/-! ## Two sources for one archive -/

def structClassA : StructType := mkStruct "n_S" fieldsA
def indexClassA : StructType := mkStruct "n__builtin_multivector_IndexType33" [⟨"value", 33, false⟩]

theorem indexA_name : mkStruct (String.ofList (pythonName (indexTypePath (pathOf "n.R" ++ ["w".toList]) 33))) [⟨"value", if 33 = 0 then 64 else 33, false⟩] =
    indexClassA := by
  have h : pythonName (indexTypePath (pathOf "n.R" ++ ["w".toList]) 33) = "n__builtin_multivector_IndexType33".toList := by decide +kernel
  rw [h, String.ofList_toList]
  rfl

/-- What the class of the archive has to look like. -/
theorem archive_explicit {t n : Tree} {source : Text} {blocks : List PBlock} (hs : parseSource source = .ok blocks)
    (a5 : ∀ b ∈ blocks, "_builtin".toList ∉ splitDot b.name) (h1 : Compile source (.ok t)) (hn : t.descend (pathOf "n.R") = some n)
    (hname : n.name = "R".toList)
    (a3 : (resourcesOf n).map resourceView = [("v".toList, .resource .vector false (some 32), [["n".toList, "S".toList]]),
      ("w".toList, .resource (.multivector 33) true none, [["n".toList, "S".toList]])])
    (a4 : (t.descend ["n".toList, "S".toList]).map (fun n => (n.kind, n.children.filterMap declaredField)) = some (.structure (some 6), fieldsA))
    {xr xv xw : Text} (hr : Schema t (pathOf "n.R") (.ok xr)) (hv : Schema t (pathOf "n.R" ++ ["v".toList]) (.ok xv))
    (hw : Schema t (pathOf "n.R" ++ ["w".toList]) (.ok xw))
    {A : ArchiveType} (hA : ArchiveAt t (pathOf "n.R") A) :
    A = mkArchive "R" (String.ofList xr) [("v", .vector structClassA (String.ofList xv) false),
      ("w", .multivector indexClassA [structClassA] (String.ofList xw) true)] := by
  have hst : ∀ {p : Path} {s : StructType}, p = ["n".toList, "S".toList] → StructureAt t p s → s = structClassA := by
    rintro p s rfl ⟨m, sz, e1, e2, rfl⟩
    rw [e1] at a4
    simp only [Option.map_some, Option.some.injEq, Prod.mk.injEq] at a4
    unfold structureClass structClassA
    rw [a4.2]
    rfl
  cases hA with
  | mk e1 e2 e3 e4 =>
    rw [hn] at e1; cases e1
    cases schema_unique hr e3
    rw [hname]
    have hc := compile_compiled h1
    have hdesc : ∀ r ∈ resourcesOf n, t.descend (pathOf "n.R" ++ [r.name]) = some r := fun r hr => hc.child hn (List.mem_filter.mp hr).1
    change ResourcesAt t _ (resourcesOf n) _ at e4
    generalize hl : resourcesOf n = l at *
    cases e4 with
    | nil => simp at a3
    | cons g1 g2 =>
      cases g2 with
      | nil => simp at a3
      | cons g3 g4 =>
        cases g4 with
        | cons => simp at a3
        | nil =>
          simp only [List.map_cons, List.map_nil, List.cons.injEq, and_true, resourceView, Prod.mk.injEq] at a3
          obtain ⟨⟨v1, v2, v3⟩, w1, w2, w3⟩ := a3
          have hwd := hdesc _ (List.mem_cons_of_mem _ (List.mem_cons_self ..))
          rw [v1] at g1
          rw [w1] at g3 hwd
          rw [v1, w1]
          cases g1 with
          | vector c1 c2 c3 c4 =>
            rw [v2] at c1; cases c1
            cases schema_unique hv c4
            rw [c2] at v3
            simp only [List.map_cons, List.map_nil, List.cons.injEq, and_true] at v3
            cases hst v3 c3
            cases g3 with
            | multivector d1 d2 d3 d4 d5 =>
              have d1' := d1
              rw [w2] at d1; cases d1
              cases schema_unique hw d5
              have hi := (index_class_any hs h1 a5 hwd d1' (by rw [d2]; simp) d3).2
              generalize hch : childrenOf _ (.ref .structure) = refs at d4 w3
              cases d4 with
              | nil => cases w3
              | cons f1 f2 =>
                cases f2 with
                | cons => simp at w3
                | nil =>
                  simp only [List.map_cons, List.map_nil, List.cons.injEq, and_true] at w3
                  cases hst w3 f1
                  rw [hi, indexA_name]
                  rfl
            | «instance» k1 | vector k1 | rawData k1 | archive k1 => rw [w2] at k1; cases k1
          | «instance» k1 | multivector k1 | rawData k1 | archive k1 => rw [v2] at k1; cases k1

/-- The archive in the other source. -/
def archiveNodeB : Tree := ((treeOf blocksB).descend (pathOf "n.R")).getD (.mk [] .root [])

theorem archiveNodeB_ok : ((treeOf blocksB).descend (pathOf "n.R")).isSome = true ∧ archiveNodeB.kind = .archive ∧
    (resourcesOf archiveNodeB).map resourceView = [("v".toList, .resource .vector false (some 32), [["n".toList, "S".toList]]),
      ("w".toList, .resource (.multivector 33) true none, [["n".toList, "S".toList]])] ∧
    ((treeOf blocksB).descend ["n".toList, "S".toList]).map (fun n => (n.kind, n.children.filterMap declaredField)) = some (.structure (some 6), fieldsA) := by
  decide +kernel

theorem builtinB : ∀ b ∈ blocksB, "_builtin".toList ∉ splitDot b.name := by decide +kernel
theorem checksB_import : (lettersCheck (treeOf blocksB) && classesCheck (treeOf blocksB) && resourcesCheck (treeOf blocksB)) = true := by decide +kernel
theorem namesAB : archiveNodeA.name = "R".toList ∧ archiveNodeB.name = "R".toList := by decide +kernel
theorem schemasRv : schemaOf (treeOf blocksA) (pathOf "n.R" ++ ["v".toList]) = schemaOf (treeOf blocksB) (pathOf "n.R" ++ ["v".toList]) ∧
    schemaOf (treeOf blocksA) (pathOf "n.R" ++ ["v".toList]) ≠ [] := by decide +kernel
theorem schemasRw : schemaOf (treeOf blocksA) (pathOf "n.R" ++ ["w".toList]) = schemaOf (treeOf blocksB) (pathOf "n.R" ++ ["w".toList]) ∧
    schemaOf (treeOf blocksA) (pathOf "n.R" ++ ["w".toList]) ≠ [] := by decide +kernel
theorem schemasR : schemaOf (treeOf blocksA) (pathOf "n.R") = schemaOf (treeOf blocksB) (pathOf "n.R") ∧
    schemaOf (treeOf blocksA) (pathOf "n.R") ≠ [] := by decide +kernel

attribute [local irreducible] Compile in
/-- Two different sources whose classes for `n.R` both open the directory of C67. -/
theorem C68_witness : ∃ A A' node l l' v, Compile sourceA (.ok (treeOf blocksA)) ∧ Compile sourceB (.ok (treeOf blocksB)) ∧
    treeOf blocksA ≠ treeOf blocksB ∧ ArchiveAt (treeOf blocksA) (pathOf "n.R") A ∧ ArchiveAt (treeOf blocksB) (pathOf "n.R") A' ∧
    openArchive A .files node = .ok l ∧ openArchive A' .files node = .ok l' ∧ l'.lookup "v" = some (.vector v) ∧ v.len = .ok 2 := by
  obtain ⟨_, _, A, l, v, _, _, _, hA, _, _, ho, hl, hv, _⟩ := C67_witness
  have hcb := compile_compiled sourceB_ok
  have h1 := checksB
  have h2 := checksB_import
  simp only [Bool.and_eq_true] at h1 h2
  obtain ⟨a1, a2, a3, a4⟩ := archiveNodeA_ok
  obtain ⟨b1, b2, b3, b4⟩ := archiveNodeB_ok
  obtain ⟨n0, hn0⟩ := Option.isSome_iff_exists.mp a1
  obtain ⟨n1, hn1⟩ := Option.isSome_iff_exists.mp b1
  have hn : (treeOf blocksA).descend (pathOf "n.R") = some archiveNodeA := by unfold archiveNodeA; rw [hn0]; rfl
  have hn' : (treeOf blocksB).descend (pathOf "n.R") = some archiveNodeB := by unfold archiveNodeB; rw [hn1]; rfl
  obtain ⟨_, _, _, _, _, _, hB, _⟩ := C60_module sourceB_ok (flat_check hcb h1.1.1) (builtin_check hcb h1.1.2) (import_check hcb h2.1.1 h2.1.2 h2.2)
  obtain ⟨A', hA', _⟩ := hB _ _ hn' b2
  have e1 := archive_explicit (parses_blocks sourceA_parses) builtinA sourceA_ok hn namesAB.1 a3 a4 (schemaOf_ok schemasR.2) (schemaOf_ok schemasRv.2)
    (schemaOf_ok schemasRw.2) hA
  have e2 := archive_explicit (parses_blocks sourceB_parses) builtinB sourceB_ok hn' namesAB.2 b3 b4
    (schemaOf_ok (by rw [← schemasR.1]; exact schemasR.2)) (schemaOf_ok (by rw [← schemasRv.1]; exact schemasRv.2))
    (schemaOf_ok (by rw [← schemasRw.1]; exact schemasRw.2)) hA'
  have hAA : A' = A := by rw [e1, e2, schemasR.1, schemasRv.1, schemasRw.1]
  have hne : treeOf blocksA ≠ treeOf blocksB := fun e => countsAB (by rw [e])
  exact ⟨A, A', _, l, l, v, sourceA_ok, sourceB_ok, hne, hA, hA', ho, by rw [hAA]; exact ho, hl, hv⟩

/-! ## What C68 does not say: that equal archives are opened

The schema kept with a resource lists the constants it needs in the order in which they are found: the order of the decorators in
the source, which the printed definitions themselves do not show. -/

/-- A source where only the order of two decorators of a field is open. -/
def sourceOrder (decorators : String) : Text :=
  ("namespace n { const u8 C = 1; const u8 N = 2; struct S { @const(C) @optional(N) f : u8; } struct T { " ++ decorators ++
    " g : u8; } archive A { a : vector< S >; b : vector< T >; } }").toList

def blocksOf (s : Text) : List PBlock := match parseSource s with | .ok b => b | .error _ => []

def sourceCN : Text := sourceOrder "@const(C) @optional(N)"
def sourceNC : Text := sourceOrder "@optional(N) @const(C)"

theorem sourceCN_parses : parsesTo sourceCN (blocksOf sourceCN) = true := by decide +kernel
theorem sourceNC_parses : parsesTo sourceNC (blocksOf sourceNC) = true := by decide +kernel
theorem blocksCN_ok : accepted (blocksOf sourceCN) = true := by decide +kernel
theorem blocksNC_ok : accepted (blocksOf sourceNC) = true := by decide +kernel

/-- The resources of an archive of which only the names matter. -/
def archiveNames (t : Tree) (p : Path) : Option (Kind × List (Text × Kind)) :=
  (t.descend p).map fun n => (n.kind, (resourcesOf n).map fun r => (r.name, r.kind))

theorem orderCN : archiveNames (treeOf (blocksOf sourceCN)) (pathOf "n.A") =
      some (.archive, [("a".toList, .resource .vector false none), ("b".toList, .resource .vector false none)]) ∧
    (flatCheck (treeOf (blocksOf sourceCN)) && builtinCheck (treeOf (blocksOf sourceCN)) && lettersCheck (treeOf (blocksOf sourceCN)) &&
      classesCheck (treeOf (blocksOf sourceCN)) && resourcesCheck (treeOf (blocksOf sourceCN))) = true := by decide +kernel
theorem orderNC : archiveNames (treeOf (blocksOf sourceNC)) (pathOf "n.A") =
      some (.archive, [("a".toList, .resource .vector false none), ("b".toList, .resource .vector false none)]) ∧
    (flatCheck (treeOf (blocksOf sourceNC)) && builtinCheck (treeOf (blocksOf sourceNC)) && lettersCheck (treeOf (blocksOf sourceNC)) &&
      classesCheck (treeOf (blocksOf sourceNC)) && resourcesCheck (treeOf (blocksOf sourceNC))) = true := by decide +kernel
theorem orderSchemas : schemaOf (treeOf (blocksOf sourceCN)) (pathOf "n.A") = schemaOf (treeOf (blocksOf sourceNC)) (pathOf "n.A") ∧
    schemaOf (treeOf (blocksOf sourceCN)) (pathOf "n.A") ≠ [] ∧
    schemaOf (treeOf (blocksOf sourceCN)) (pathOf "n.A.b") ≠ schemaOf (treeOf (blocksOf sourceNC)) (pathOf "n.A.b") ∧
    schemaOf (treeOf (blocksOf sourceCN)) (pathOf "n.A.b") ≠ [] ∧ schemaOf (treeOf (blocksOf sourceNC)) (pathOf "n.A.b") ≠ [] := by
  decide +kernel

/-- What `archiveNames` tells about the class: its schema, and that a directory it opens has the schema of `b` beside `b`. -/
theorem order_opened {t : Tree} {A : ArchiveType}
    (hr : archiveNames t (pathOf "n.A") = some (.archive, [("a".toList, .resource .vector false none), ("b".toList, .resource .vector false none)]))
    {x y : Text} (hx : Schema t (pathOf "n.A") (.ok x)) (hy : Schema t (pathOf "n.A.b") (.ok y)) (hA : ArchiveAt t (pathOf "n.A") A) :
    A.schema = String.ofList x ∧ ∀ k node l, openArchive A k node = .ok l → SchemaMatches node "b" (String.ofList y) := by
  cases hA with
  | mk e1 e2 e3 e4 =>
    cases schema_unique hx e3
    unfold archiveNames at hr
    rw [e1] at hr
    simp only [Option.map_some, Option.some.injEq, Prod.mk.injEq] at hr
    refine ⟨rfl, fun k node l ho => ?_⟩
    have hall := (C22_opens_iff _ k node).mp ⟨l, ho⟩
    change ResourcesAt t _ (resourcesOf _) _ at e4
    generalize resourcesOf _ = l at hr e4
    cases e4 with
    | nil => simp at hr
    | cons g1 g2 =>
      cases g2 with
      | nil => simp at hr
      | cons g3 g4 =>
        simp only [List.map_cons, List.cons.injEq, Prod.mk.injEq] at hr
        obtain ⟨_, ⟨_, _⟩, ⟨b1, b2⟩, _⟩ := hr
        rw [b1] at g3
        cases g3 with
        | vector c1 c2 c3 c4 =>
          rw [b2] at c1; cases c1
          cases schema_unique hy c4
          have := hall ("b", _) (by rw [b1]; simp [mkArchive]; right; right; left; rfl)
          cases this with
          | absent _ h => cases h
          | present _ h => exact h
        | «instance» k1 | multivector k1 | rawData k1 | archive k1 => rw [b2] at k1; cases k1

theorem order_differs {t t' : Tree} {source source' : Text} (h : Compile source (.ok t)) (h' : Compile source' (.ok t'))
    (hc : archiveNames t (pathOf "n.A") = some (.archive, [("a".toList, .resource .vector false none), ("b".toList, .resource .vector false none)]) ∧
      (flatCheck t && builtinCheck t && lettersCheck t && classesCheck t && resourcesCheck t) = true)
    (hc' : archiveNames t' (pathOf "n.A") = some (.archive, [("a".toList, .resource .vector false none), ("b".toList, .resource .vector false none)]) ∧
      (flatCheck t' && builtinCheck t' && lettersCheck t' && classesCheck t' && resourcesCheck t') = true)
    (hs : schemaOf t (pathOf "n.A") = schemaOf t' (pathOf "n.A") ∧ schemaOf t (pathOf "n.A") ≠ [] ∧
      schemaOf t (pathOf "n.A.b") ≠ schemaOf t' (pathOf "n.A.b") ∧ schemaOf t (pathOf "n.A.b") ≠ [] ∧ schemaOf t' (pathOf "n.A.b") ≠ []) :
    ∃ A A', ArchiveAt t (pathOf "n.A") A ∧ ArchiveAt t' (pathOf "n.A") A' ∧ A.name = A'.name ∧ A.schema = A'.schema ∧
      ∀ k node l l', ¬(openArchive A k node = .ok l ∧ openArchive A' k node = .ok l') := by
  have mk : ∀ {t : Tree} {source : Text}, Compile source (.ok t) →
      archiveNames t (pathOf "n.A") = some (.archive, [("a".toList, .resource .vector false none), ("b".toList, .resource .vector false none)]) ∧
        (flatCheck t && builtinCheck t && lettersCheck t && classesCheck t && resourcesCheck t) = true →
      ∃ A, ArchiveAt t (pathOf "n.A") A ∧ A.name = "A" := by
    intro t source h ⟨h1, h2⟩
    have hc := compile_compiled h
    simp only [Bool.and_eq_true] at h2
    unfold archiveNames at h1
    obtain ⟨n, hn, e⟩ := Option.map_eq_some_iff.mp h1
    simp only [Prod.mk.injEq] at e
    obtain ⟨_, _, _, _, _, _, hB, _⟩ := C60_module h (flat_check hc h2.1.1.1.1) (builtin_check hc h2.1.1.1.2) (import_check hc h2.1.1.2 h2.1.2 h2.2)
    obtain ⟨A, hA, _⟩ := hB _ _ hn e.1
    refine ⟨A, hA, ?_⟩
    cases id hA with
    | mk e1 =>
      rw [hn] at e1; cases e1
      have := descend_name (p := pathOf "n") (k := "A".toList) hn
      simp only [mkArchive]
      rw [this]
      decide +kernel
  obtain ⟨A, hA, hAn⟩ := mk h hc
  obtain ⟨A', hA', hAn'⟩ := mk h' hc'
  obtain ⟨s1, s2, s3, s4, s5⟩ := hs
  obtain ⟨e1, e2⟩ := order_opened hc.1 (schemaOf_ok s2) (schemaOf_ok s4) hA
  obtain ⟨f1, f2⟩ := order_opened hc'.1 (schemaOf_ok (by rw [← s1]; exact s2)) (schemaOf_ok s5) hA'
  refine ⟨A, A', hA, hA', by rw [hAn, hAn'], by rw [e1, f1, s1], ?_⟩
  rintro k node l l' ⟨o1, o2⟩
  have m1 := (e2 k node l o1).2
  rw [(f2 k node l' o2).2] at m1
  simp only [Option.some.injEq, Node.file.injEq] at m1
  have := congrArg String.toList (encodeUtf8_inj m1)
  simp only [String.toList_ofList] at this
  exact s3 this.symm

attribute [local irreducible] Compile in
/-- **C68 (limits).** Two schemas that differ only in the order of the two decorators of one field: the archive's own schema is the
same, and still no directory is opened by both classes. -/
theorem C68_counterexample_order : ∃ A A', Compile sourceCN (.ok (treeOf (blocksOf sourceCN))) ∧ Compile sourceNC (.ok (treeOf (blocksOf sourceNC))) ∧
    ArchiveAt (treeOf (blocksOf sourceCN)) (pathOf "n.A") A ∧ ArchiveAt (treeOf (blocksOf sourceNC)) (pathOf "n.A") A' ∧
    A.name = A'.name ∧ A.schema = A'.schema ∧
    ∀ k node l l', ¬(openArchive A k node = .ok l ∧ openArchive A' k node = .ok l') := by
  have h1 := compile_accepted sourceCN_parses blocksCN_ok
  have h2 := compile_accepted sourceNC_parses blocksNC_ok
  obtain ⟨A, A', h⟩ := order_differs h1 h2 orderCN orderNC orderSchemas
  exact ⟨A, A', h1, h2, h⟩

end Props
