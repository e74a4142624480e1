import Verif.Props.Gen.Engine
import Verif.Props.Gen.EvolutionSamples

/-!
# C104: a directory written by a generated builder and opened by the inspector
-/

namespace Props
open Gen Spec Model

/-- The schema stored in a directory of the archive `n.R` of the sample schema. -/
def storedA : Text := schemaOf (treeOf blocksA) (pathOf "n.R")

def blocksStored : List PBlock := blocksOf storedA

theorem storedA_parses : parsesTo storedA blocksStored = true := by decide +kernel
theorem blocksStored_ok : accepted blocksStored = true := by decide +kernel
attribute [local irreducible] Compile in
theorem storedA_ok : Compile storedA (.ok (treeOf blocksStored)) := compile_accepted storedA_parses blocksStored_ok

theorem checksStored : (flatCheck (treeOf blocksStored) && builtinCheck (treeOf blocksStored)) = true := by decide +kernel
theorem checksStored_import : (lettersCheck (treeOf blocksStored) && classesCheck (treeOf blocksStored) && resourcesCheck (treeOf blocksStored)) = true := by
  decide +kernel

/-- The archive in the stored schema. -/
def archiveNodeStored : Tree := ((treeOf blocksStored).descend (pathOf "n.R")).getD (.mk [] .root [])

theorem archiveNodeStored_ok : ((treeOf blocksStored).descend (pathOf "n.R")).isSome = true ∧ archiveNodeStored.kind = .archive ∧
    (resourcesOf archiveNodeStored).map resourceView = [("v".toList, .resource .vector false (some 32), [["n".toList, "S".toList]]),
      ("w".toList, .resource (.multivector 33) true none, [["n".toList, "S".toList]])] ∧
    ((treeOf blocksStored).descend ["n".toList, "S".toList]).map (fun n => (n.kind, n.children.filterMap declaredField)) = some (.structure (some 6), fieldsA) := by
  decide +kernel
theorem builtinStored : ∀ b ∈ blocksStored, "_builtin".toList ∉ splitDot b.name := by decide +kernel
theorem nameStored : archiveNodeStored.name = "R".toList := by decide +kernel
theorem storedRv : schemaOf (treeOf blocksA) (pathOf "n.R" ++ ["v".toList]) = schemaOf (treeOf blocksStored) (pathOf "n.R" ++ ["v".toList]) := by decide +kernel
theorem storedRw : schemaOf (treeOf blocksA) (pathOf "n.R" ++ ["w".toList]) = schemaOf (treeOf blocksStored) (pathOf "n.R" ++ ["w".toList]) := by decide +kernel
theorem storedR : schemaOf (treeOf blocksA) (pathOf "n.R") = schemaOf (treeOf blocksStored) (pathOf "n.R") := by decide +kernel
theorem rootStored : (match findRootNamespace (treeOf blocksStored) with | .ok n => n.name = "n".toList | _ => false) = true := by decide +kernel

attribute [local irreducible] Compile in
/-- The inspector opens the directory of C67 with a class generated from the stored schema, which is not the schema of the builder, and shows
the vector with its two elements. -/
theorem C104_witness : ∃ engine A node l v, IsEngine engine ∧ ArchiveAt (treeOf blocksA) (pathOf "n.R") A ∧
    inspectorOpen engine (.dir ["R.archive".toList] node) none = .ok (A, l) ∧ storedA ≠ sourceA ∧ l.lookup "v" = some (.vector v) ∧ v.len = .ok 2 := by
  obtain ⟨_, _, A, l, v, _, _, _, hA, _, _, ho, hl, hv, _⟩ := C67_witness
  obtain ⟨engine, hE⟩ := engine_exists
  have hcb := compile_compiled storedA_ok
  have h1 := checksStored
  have h2 := checksStored_import
  simp only [Bool.and_eq_true] at h1 h2
  obtain ⟨a1, a2, a3, a4⟩ := archiveNodeA_ok
  obtain ⟨b1, b2, b3, b4⟩ := archiveNodeStored_ok
  obtain ⟨n0, hn0⟩ := Option.isSome_iff_exists.mp a1
  obtain ⟨n1, hn1⟩ := Option.isSome_iff_exists.mp b1
  have hn : (treeOf blocksA).descend (pathOf "n.R") = some archiveNodeA := by unfold archiveNodeA; rw [hn0]; rfl
  have hn' : (treeOf blocksStored).descend (pathOf "n.R") = some archiveNodeStored := by unfold archiveNodeStored; rw [hn1]; rfl
  have hf := flat_check hcb h1.1
  have hb := builtin_check hcb h1.2
  have hi := import_check hcb h2.1.1 h2.1.2 h2.2
  obtain ⟨_, _, _, _, _, _, hB, _⟩ := C60_module storedA_ok hf hb hi
  obtain ⟨A', hA', _⟩ := hB _ _ hn' b2
  have e1 := archive_explicit (parses_blocks sourceA_parses) builtinA sourceA_ok hn namesAB.1 a3 a4 (schemaOf_ok schemasR.2) (schemaOf_ok schemasRv.2)
    (schemaOf_ok schemasRw.2) hA
  have e2 := archive_explicit (parses_blocks storedA_parses) builtinStored storedA_ok hn' nameStored b3 b4
    (schemaOf_ok (by rw [← storedR]; exact schemasR.2)) (schemaOf_ok (by rw [← storedRv]; exact schemasRv.2))
    (schemaOf_ok (by rw [← storedRw]; exact schemasRw.2)) hA'
  have hAA : A' = A := by rw [e1, e2, storedR, storedRv, storedRw]
  subst hAA
  have hroot : OnlyNamespace (treeOf blocksStored) "n".toList := by
    have hr := rootStored
    cases hx : findRootNamespace (treeOf blocksStored) with
    | error e => rw [hx] at hr; cases hr
    | ok n =>
      rw [hx] at hr
      exact (C104_root_namespace hcb.lk.good _).mp ⟨n, hx, by simpa using hr⟩
  have hmatch : SchemaMatches (Node.ofFiles (replay noFiles (runCalls A' "dir" historyA (newBuilder A' "dir")).ops)) "R.archive" (String.ofList storedA) := by
    have hok := (C22_opens_iff A' _ _).mp ⟨l, ho⟩
    generalize Node.ofFiles (replay noFiles (runCalls A' "dir" historyA (newBuilder A' "dir")).ops) = node at hok ⊢
    rw [e1] at hok
    have hm : ("R" ++ ".archive", Sig.rawData (String.ofList storedA) false) ∈ (mkArchive "R" (String.ofList storedA)
        [("v", .vector structClassA (String.ofList (schemaOf (treeOf blocksA) (pathOf "n.R" ++ ["v".toList]))) false),
        ("w", .multivector indexClassA [structClassA] (String.ofList (schemaOf (treeOf blocksA) (pathOf "n.R" ++ ["w".toList]))) true)]).resources := by
      unfold mkArchive
      exact List.mem_cons_self ..
    cases hok ("R" ++ ".archive", .rawData (String.ofList storedA) false) hm with
    | absent _ h => cases h
    | present _ h => have : "R" ++ ".archive" = "R.archive" := by decide +kernel
                     rw [this] at h; exact h
  have hch : Chosen ["R.archive".toList] none "R".toList := by
    refine ⟨by unfold HasArchive; decide +kernel, fun b hb => ?_⟩
    simp only [HasArchive, List.mem_singleton] at hb
    have : "R.archive".toList = "R".toList ++ ".archive".toList := by decide +kernel
    rw [this] at hb
    exact List.append_cancel_right hb
  have hopen := (C104_inspector hE (names := ["R.archive".toList]) (by simp) hch hmatch.1 (s := String.ofList storedA) (by
    have : String.ofList ("R".toList ++ ".archive".toList ++ ".schema".toList) = "R.archive" ++ ".schema" := by decide +kernel
    rw [this]; exact hmatch.2) (by rw [String.toList_ofList]; exact storedA_ok) hf hb hi A' l).mpr
    ⟨by decide +kernel, "n".toList, pathOf "n.R", hroot, by decide +kernel, hA', ho⟩
  exact ⟨engine, A', _, l, v, hE, hA, hopen, by decide +kernel, hl, hv⟩

/-! ## Archives in nested namespaces -/

/-- An archive in a nested namespace, as stored in its directories. -/
def sourceInner : Text := "namespace n.m { archive R { r : raw_data; } }".toList

theorem sourceInner_parses : parsesTo sourceInner (blocksOf sourceInner) = true := by decide +kernel
theorem blocksInner_ok : accepted (blocksOf sourceInner) = true := by decide +kernel
attribute [local irreducible] Compile in
theorem sourceInner_ok : Compile sourceInner (.ok (treeOf (blocksOf sourceInner))) := compile_accepted sourceInner_parses blocksInner_ok
theorem checksInner : (flatCheck (treeOf (blocksOf sourceInner)) && builtinCheck (treeOf (blocksOf sourceInner)) &&
    lettersCheck (treeOf (blocksOf sourceInner)) && classesCheck (treeOf (blocksOf sourceInner)) && resourcesCheck (treeOf (blocksOf sourceInner))) = true := by
  decide +kernel
theorem rootInner : (match findRootNamespace (treeOf (blocksOf sourceInner)) with | .ok n => n.name = "n".toList | _ => false) = true := by decide +kernel
theorem directInner : ((treeOf (blocksOf sourceInner)).descend ["n".toList, "R".toList]).isNone = true := by decide +kernel
theorem nestedInner : ((treeOf (blocksOf sourceInner)).descend ["n".toList, "m".toList, "R".toList]).map Tree.kind = some .archive := by decide +kernel

/-- In general: an archive in a nested namespace, and none of its name in the outermost one. -/
theorem nested_not_found {s : Text} {t : Tree} (h : Compile s (.ok t)) (hf : Flat t) (hb : NoBuiltin t) (hi : Importable t) {k a : Text}
    (hk : OnlyNamespace t k) (ha : '_' ∉ a) (h0 : a ≠ []) (hno : t.descend [k, a] = none) (A : ArchiveType) :
    ¬ Renders s a (.archive A) ∧ ¬ WriterFor s a A := by
  have key : ∀ k', OnlyNamespace t k' → ¬ ArchiveAt t [k', a] A := by
    intro k' hk' hA
    obtain ⟨g1, ⟨m, m1, m2⟩, _⟩ := hk'
    have := hk.2.2 k' m m1 m2 g1
    subst this
    cases hA with
    | mk e1 => rw [hno] at e1; cases e1
  refine ⟨fun h' => ?_, fun h' => ?_⟩
  · obtain ⟨_, k', hk', hA⟩ := (C104_direct h hf hb hi ha A).mp h'
    exact key k' hk' hA
  · unfold WriterFor at h'
    rw [if_neg h0] at h'
    obtain ⟨k', hk', hA⟩ := (C104_direct_builder h hf hb hi ha A).mp h'
    exact key k' hk' hA

attribute [local irreducible] Compile in
/-- An archive in a nested namespace has a class in the module, but the engine, asked for an archive of its name, does not find it: neither the
inspector nor the writer can be used. -/
theorem C104_nested : (∃ A, ArchiveAt (treeOf (blocksOf sourceInner)) ["n".toList, "m".toList, "R".toList] A) ∧
    ∀ A, ¬ Renders sourceInner "R".toList (.archive A) ∧ ¬ WriterFor sourceInner "R".toList A := by
  have h0 := sourceInner_ok
  have hc := compile_compiled h0
  have h1 := checksInner
  have r1 := rootInner
  have r2 := directInner
  have r3 := nestedInner
  generalize treeOf (blocksOf sourceInner) = t at *
  simp only [Bool.and_eq_true] at h1
  obtain ⟨⟨⟨⟨h1, h2⟩, h3⟩, h4⟩, h5⟩ := h1
  have hf := flat_check hc h1
  have hb := builtin_check hc h2
  have hi := import_check hc h3 h4 h5
  have hroot : OnlyNamespace t "n".toList := by
    cases hx : findRootNamespace t with
    | error e => rw [hx] at r1; cases r1
    | ok n =>
      rw [hx] at r1
      exact (C104_root_namespace hc.lk.good _).mp ⟨n, hx, by simpa using r1⟩
  refine ⟨?_, nested_not_found h0 hf hb hi hroot (by decide +kernel) (by decide +kernel) (Option.isNone_iff_eq_none.mp r2)⟩
  obtain ⟨_, _, _, _, _, _, hB, _⟩ := C60_module h0 hf hb hi
  cases hd : t.descend ["n".toList, "m".toList, "R".toList] with
  | none => rw [hd] at r3; cases r3
  | some n =>
    rw [hd] at r3
    obtain ⟨A, hA, _⟩ := hB _ n hd (by simpa using r3)
    exact ⟨A, hA⟩

end Props
