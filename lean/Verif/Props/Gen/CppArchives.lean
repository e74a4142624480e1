import Verif.Spec.CppArchives
import Verif.Props.Gen.NativeReads

/-!
# C100: archives in C++
-/

namespace Props
open Py Gen Spec Model Model.Native _root_.Native

/-! ## What is written -/

/-- What is written for the range of a field. -/
def cppRangeEntry (f : Tree) : Option (Text × Nat × Nat) :=
  match f.kind with
  | .field (.basic b) (some r) (some o) => some (r, o, b.width)
  | .field (.enum _ b) (some r) (some o) => some (r, o, b.width)
  | _ => none

/-- What is written for a structure. -/
def cppStructText (p : Path) (n : Tree) : CppItem :=
  .structure p.dropLast n.name (byteSize (n.children.filterMap declaredField)) (n.fields.any fieldRanged) (n.fields.filterMap cppRangeEntry)

/-- What is written for the type of a resource. -/
def readerText (r : Tree) : CppReaderType :=
  match r.kind with
  | .resource .vector _ _ => .arrayView [colonPath (firstTarget r .structure)]
  | .resource .instance _ _ => .structures [colonPath (firstTarget r .structure)]
  | .resource (.multivector _) _ _ => .multiArrayView (colonPath (firstTarget r .builtinStructure) ::
      (childrenOf r (.ref .structure)).map fun ref => colonPath ref.targetPath)
  | .resource .archive _ _ => .archive (colonPath (firstTarget r .archive))
  | _ => .memoryDescriptor

/-- What is written for a resource in an archive. -/
def memberText (r : Tree) : CppResourceMember := ⟨cppAlias r.name, readerText r, r.name, r.kind.isOptional⟩

/-- What is written for a resource in a builder. -/
def writeText (n r : Tree) : CppWriteLine :=
  ⟨r.name, writerOf (readerText r), match r.kind with | .resource .vector _ _ | .resource (.multivector _) _ _ => true | _ => false,
    match r.kind with | .resource (.multivector _) _ _ => false | _ => true, r.name, cppResourceSchema n.name r.name⟩

/-- The lines for archives in an archive. -/
def loadLines (n : Tree) : List (Text × Text) := (nestedResources n).map fun r => ("m_".toList ++ r.name, r.name)

/-- The declarations for a node. -/
def cppDeclText (e : Path × Tree) : List CppItem :=
  match e.2.kind with
  | .structure _ => [cppStructText e.1 e.2]
  | .enumeration _ => [.enumeration e.1.dropLast e.2.name]
  | .constant _ _ => [.constant e.1.dropLast e.2.name]
  | .archive => [.archive e.1.dropLast e.2.name (e.2.plainResources.map memberText)
      ((simpleResources e.2 ++ nestedResources e.2).map fun r => (r.name, writerOf (readerText r)))]
  | _ => []

/-- The definitions for a node; `X` are the schemas. -/
def cppDefText (X : Path → Text) (e : Path × Tree) : List CppItem :=
  match e.2.kind with
  | .structure _ => [.schema e.1.dropLast (cppOwnSchema e.2.name) (cppRawLiteral (X e.1))]
  | .archive => .schema e.1.dropLast (cppOwnSchema e.2.name) (cppLiteral (X e.1)) ::
      (e.2.plainResources.map fun r => CppItem.schema e.1.dropLast (cppResourceSchema e.2.name r.name) (cppLiteral (X (e.1 ++ [r.name])))) ++
      [.initialize e.1.dropLast e.2.name e.2.name (cppOwnSchema e.2.name) ((simpleResources e.2).map (cppReadLine e.2)) (loadLines e.2),
       .builder e.1.dropLast e.2.name e.2.name (cppOwnSchema e.2.name) ((simpleResources e.2).map (writeText e.2)) (loadLines e.2)]
  | _ => []

/-- The whole program. -/
def cppProgramText (t : Tree) (X : Path → Text) (order : List Path) : List CppItem :=
  (cppNodes t order).flatMap cppDeclText ++ (cppNodes t order).flatMap (cppDefText X)

section
variable {source : Text} {t : Tree} (h : Compile source (.ok t)) (hf : Flat t)
include h hf

theorem scope_eq {p : Path} {n : Tree} (hn : t.descend p = some n) (hd : Spec.Kind.isDefinition n.kind = true) : namespacesOf t p = p.dropLast := by
  obtain ⟨ns, k, rfl, _, _, hns, _⟩ := (compile_compiled h).namespaces hf hn hd
  rw [hns, List.dropLast_concat]

omit hf in
theorem field_facts {p : Path} {n : Tree} {sz : Option Nat} (hn : t.descend p = some n) (hk : n.kind = .structure sz) :
    ∀ f ∈ n.fields, ∃ b rg o, RangeOk f.kind ∧ (f.kind = .field (.basic b) rg (some o) ∨ ∃ r, f.kind = .field (.enum r b) rg (some o)) := by
  have hc := compile_compiled h
  obtain ⟨h1, h2, h3⟩ := struct_facts h hn hk
  intro f hm
  obtain ⟨i, hi, hif⟩ := List.getElem_of_mem hm
  obtain ⟨f', e1, e2⟩ := h3 i _ (List.getElem?_eq_getElem (by omega))
  rw [List.getElem?_eq_getElem hi, hif] at e1
  cases e1
  obtain ⟨b, rg, _, _, _, hh⟩ := e2.typed
  refine ⟨b, rg, bitOffset (n.children.filterMap declaredField) i, hc.range _ _ e2.node, ?_⟩
  rcases hh with hh | ⟨ref, _, hh, _⟩
  · exact .inl hh
  · exact .inr ⟨_, hh⟩

theorem cpp_struct_ok {p : Path} {n : Tree} {sz : Option Nat} (hn : t.descend p = some n) (hk : n.kind = .structure sz) :
    cppStructItem t p n = .ok (cppStructText p n) ∧ (n.fields.any fieldRanged = true ↔ RangedAt t p) := by
  have hfield := field_facts h hn hk
  have hrange : ∀ f ∈ n.fields, cppFieldRange f = .ok (cppRangeEntry f) := by
    intro f hm
    obtain ⟨b, rg, o, hr, hh⟩ := hfield f hm
    rcases hh with hh | ⟨r, hh⟩
    all_goals
      rw [hh] at hr
      unfold cppFieldRange cppRangeEntry
      rw [hh]
      cases rg with
      | none => rfl
      | some rg =>
        cases rg with
        | nil => exact absurd hr (by rintro ⟨⟨_, h0, _⟩, _⟩; cases h0)
        | cons c rg => rfl
  constructor
  · unfold cppStructItem cppStructText
    rw [(struct_facts h hn hk).1, mapM_map hrange, scope_eq h hf hn (by rw [hk]; rfl)]
    show Except.ok _ = Except.ok _
    rw [List.filterMap_map]
    rfl
  · rw [List.any_eq_true]
    constructor
    · rintro ⟨f, hm, hr⟩
      refine ⟨n, hn, f, (List.mem_filter.mp hm).1, ?_⟩
      unfold fieldRanged at hr
      split at hr
      · rename_i hh; exact ⟨_, _, _, hh⟩
      · cases hr
    · rintro ⟨n', hn', f, hfm, ty, rg, o, hfk⟩
      rw [hn] at hn'; cases hn'
      have hff : f ∈ n.fields := List.mem_filter.mpr ⟨hfm, by rw [hfk]; rfl⟩
      refine ⟨f, hff, ?_⟩
      obtain ⟨_, _, _, hr, _⟩ := hfield f hff
      rw [hfk] at hr
      unfold fieldRanged
      rw [hfk]
      cases rg with
      | nil => exact absurd hr (by rintro ⟨⟨_, h0, _⟩, _⟩; cases h0)
      | cons c rg => rfl

omit hf in
theorem cpp_params {q : Path} {r : Tree} {k : ResKind} {o : Bool} {m : Option Nat} (hr : t.descend q = some r) (hrk : r.kind = .resource k o m) :
    cppTypeParams t (referencedStructures r) =
      .ok ((childrenOf r (.ref .builtinStructure) ++ childrenOf r (.ref .structure)).map fun ref => colonPath ref.targetPath) := by
  obtain ⟨_, _, _, h4⟩ := resource_refs h hr hrk
  unfold cppTypeParams referencedStructures
  rw [childrenLike_eq, childrenLike_eq]
  refine mapM_map fun ref hm => ?_
  rcases List.mem_append.mp hm with hm | hm
  · obtain ⟨_, _, _, g, _⟩ := h4 _ ref hm
    rw [g]; rfl
  · obtain ⟨_, _, _, g, _⟩ := h4 _ ref hm
    rw [g]; rfl

omit hf in
theorem reader_ok {q : Path} {r : Tree} {k : ResKind} {o : Bool} {m : Option Nat} (hr : t.descend q = some r) (hrk : r.kind = .resource k o m)
    (hkb : k ≠ .bound) : cppReaderType t r = .ok (readerText r) ∧ cppWriterType t r = .ok (writerOf (readerText r)) := by
  obtain ⟨h1, h2, h3, h4⟩ := resource_refs h hr hrk
  unfold cppReaderType cppWriterType readerText
  rw [cpp_params h hr hrk, hrk]
  cases k with
  | bound => exact absurd rfl hkb
  | rawData => exact ⟨rfl, rfl⟩
  | vector =>
    obtain ⟨ref, e1, e2, e3⟩ := h1 (.inl rfl)
    rw [e1, e2, e3]; exact ⟨rfl, rfl⟩
  | «instance» =>
    obtain ⟨ref, e1, e2, e3⟩ := h1 (.inr rfl)
    rw [e1, e2, e3]; exact ⟨rfl, rfl⟩
  | archive =>
    obtain ⟨ref, e1, e3⟩ := h3 rfl
    obtain ⟨_, _, _, g, _⟩ := h4 .archive ref (by rw [e1]; simp)
    simp only [childrenLike_eq, e1, e3]
    constructor
    · show (do let x ← refPath t ref; pure (CppReaderType.archive (doubleColons x)) : Gen.M _) = _
      rw [g]; rfl
    · show (do let x ← refPath t ref; pure (CppWriterType.builder (doubleColons x ++ "Builder".toList)) : Gen.M _) = _
      rw [g]; rfl
  | multivector w =>
    obtain ⟨ref, e1, e3, e4⟩ := h2 w rfl
    rw [e1, e3]; exact ⟨rfl, rfl⟩

omit h hf in
theorem simple_mem {n r : Tree} : r ∈ simpleResources n ↔ r ∈ n.plainResources ∧ isArchiveResource r = false := by
  unfold simpleResources
  rw [List.mem_filter]; simp

omit h hf in
theorem nested_mem {n r : Tree} : r ∈ nestedResources n ↔ r ∈ n.plainResources ∧ isArchiveResource r = true := by
  unfold nestedResources
  rw [List.mem_filter]

theorem cpp_decl_ok {e : Path × Tree} (he : t.descend e.1 = some e.2) : cppDeclaration t e = .ok (cppDeclText e) := by
  have hc := compile_compiled h
  obtain ⟨p, n⟩ := e
  simp only at he
  unfold cppDeclaration cppDeclText
  cases hk : n.kind with
  | «structure» sz =>
    simp only
    rw [(cpp_struct_ok h hf he hk).1]; rfl
  | enumeration b =>
    simp only
    rw [scope_eq h hf he (by rw [hk]; rfl)]; rfl
  | constant b v =>
    simp only
    rw [scope_eq h hf he (by rw [hk]; rfl)]; rfl
  | archive =>
    simp only
    unfold cppArchiveItem
    have hres : ∀ r ∈ n.plainResources, cppResourceMember t r = .ok (memberText r) ∧ cppWriterType t r = .ok (writerOf (readerText r)) := by
      intro r hr
      obtain ⟨h1, k, o, m, h2, h3⟩ := plain_resource hr
      have := reader_ok h (hc.child he h1) h2 h3
      refine ⟨?_, this.2⟩
      unfold cppResourceMember
      rw [this.1]; rfl
    rw [mapM_map fun r hr => (hres r hr).1]
    simp only [bind, Except.bind]
    rw [mapM_map (g := fun r => (r.name, writerOf (readerText r)))]
    · rw [scope_eq h hf he (by rw [hk]; rfl)]; rfl
    · intro r hr
      have : r ∈ n.plainResources := by
        rcases List.mem_append.mp hr with hr | hr
        · exact (simple_mem.mp hr).1
        · exact (nested_mem.mp hr).1
      rw [(hres r this).2]; rfl
  | _ => rfl

theorem cpp_def_ok {sch : Path → Gen.M Text} {X : Path → Text} {e : Path × Tree} (hsch : ∀ q ∈ cppSchemaPaths e, sch q = .ok (X q))
    (he : t.descend e.1 = some e.2) : cppDefinition t sch e = .ok (cppDefText X e) := by
  have hc := compile_compiled h
  obtain ⟨p, n⟩ := e
  simp only at he
  unfold cppDefinition cppDefText
  cases hk : n.kind with
  | «structure» sz =>
    simp only
    have hpaths : cppSchemaPaths (p, n) = [p] := by unfold cppSchemaPaths; rw [hk]
    rw [hsch p (by rw [hpaths]; simp), scope_eq h hf he (by rw [hk]; rfl)]; rfl
  | archive =>
    simp only
    have hpaths : cppSchemaPaths (p, n) = p :: n.plainResources.map fun r => p ++ [r.name] := by
      unfold cppSchemaPaths
      rw [hk]; rfl
    rw [hpaths] at hsch
    unfold cppArchiveDefinition
    rw [hsch p (by simp), scope_eq h hf he (by rw [hk]; rfl)]
    simp only [bind, Except.bind]
    rw [mapM_map (g := fun r => CppItem.schema p.dropLast (cppResourceSchema n.name r.name) (cppLiteral (X (p ++ [r.name]))))]
    · rw [mapM_map (g := writeText n)]
      · rfl
      · intro r hr
        obtain ⟨hr1, hr2⟩ := simple_mem.mp hr
        obtain ⟨h1, k, o, m, h2, h3⟩ := plain_resource hr1
        unfold cppWriteLine writeText
        rw [(reader_ok h (hc.child he h1) h2 h3).2]
        unfold cppStarts cppSets
        rw [h2]
        cases k with
        | bound => exact absurd rfl h3
        | archive => unfold isArchiveResource at hr2; rw [h2] at hr2; cases hr2
        | _ => rfl
    · intro r hr
      rw [hsch (p ++ [r.name]) (List.mem_cons_of_mem _ (List.mem_map.mpr ⟨r, hr, rfl⟩))]
      rfl
  | _ => rfl

end

/-! ## What is found under a name -/

theorem cppLiteral_value (x : Text) : cppLiteralValue (cppLiteral x) = some x := by
  unfold cppLiteralValue
  have h1 : rawString "R\"schema(".toList ")schema\"".toList (cppLiteral x ++ [';']) = none := rfl
  rw [h1, C58_cpp x []]; rfl

theorem cppRawLiteral_value {x : Text} (h : '"' ∉ x) (h' : '`' ∉ x) : cppLiteralValue (cppRawLiteral x) = some x := by
  unfold cppLiteralValue
  rw [(C58_raw x [';'] ⟨h, h'⟩).1]; rfl

/-- The constants with schemas for a node: their names, without what is behind, and where the schemas belong. -/
def schemaEntries (e : Path × Tree) : List (Text × Path) :=
  match e.2.kind with
  | .structure _ => [(e.2.name, e.1)]
  | .archive => (e.2.name, e.1) :: e.2.plainResources.map fun r => (e.2.name ++ "__".toList ++ r.name, e.1 ++ [r.name])
  | _ => []

theorem schemaEntries_names (e : Path × Tree) : (schemaEntries e).map (·.1) = schemaNames e.2 := by
  unfold schemaEntries schemaNames
  cases e.2.kind with
  | archive => simp [show e.2.plainResources = resourcesOf e.2 from plainResources_eq e.2]
  | _ => rfl

section
variable {source : Text} {t : Tree} (h : Compile source (.ok t)) (hf : Flat t) (X : Path → Text) {order : List Path}
  (hall : ∀ p m, t.descend p = some m → (∀ rk, m.kind ≠ .ref rk) → p ∈ order)
include h hf hall

omit h hf hall in
theorem cpp_mem {d : CppItem} : d ∈ cppProgramText t X order ↔ ∃ e : Path × Tree, t.descend e.1 = some e.2 ∧ e.1 ∈ order ∧
    (d ∈ cppDeclText e ∨ d ∈ cppDefText X e) := by
  unfold cppProgramText cppNodes
  simp only [List.mem_append, List.mem_flatMap, List.mem_filterMap, Option.map_eq_some_iff]
  constructor
  · rintro (⟨e, ⟨p, h1, n, h2, rfl⟩, h3⟩ | ⟨e, ⟨p, h1, n, h2, rfl⟩, h3⟩)
    · exact ⟨(p, n), h2, h1, .inl h3⟩
    · exact ⟨(p, n), h2, h1, .inr h3⟩
  · rintro ⟨⟨p, n⟩, h1, h2, h3 | h3⟩
    · exact .inl ⟨(p, n), ⟨p, h2, n, h1, rfl⟩, h3⟩
    · exact .inr ⟨(p, n), ⟨p, h2, n, h1, rfl⟩, h3⟩

omit hall in
theorem full_name {p : Path} {n : Tree} (hn : t.descend p = some n) (hd : Spec.Kind.isDefinition n.kind = true) : cppFullName p.dropLast n.name = colonPath p := by
  rw [cppFullName_eq, definition_path h hf hn hd]

omit hf hall in
theorem full_name_inj {p p' : Path} {n n' : Tree} (hn : t.descend p = some n) (hd : Spec.Kind.isDefinition n.kind = true) (hn' : t.descend p' = some n')
    (hd' : Spec.Kind.isDefinition n'.kind = true) (he : colonPath p' = colonPath p) : p' = p ∧ n' = n := by
  have hc := compile_compiled h
  have := colonPath_inj (fun x hx => idChar_colon (hc.names hn' (by intro rk hk; rw [hk] at hd'; cases hd') x hx).2)
    (fun x hx => idChar_colon (hc.names hn (by intro rk hk; rw [hk] at hd; cases hd) x hx).2) he
  subst this
  rw [hn] at hn'; cases hn'
  exact ⟨rfl, rfl⟩

/-- What items there are for a node. -/
theorem cpp_items {e : Path × Tree} {d : CppItem} (hd : d ∈ cppDeclText e ∨ d ∈ cppDefText X e) :
    (∃ sz, e.2.kind = .structure sz ∧ (d = cppStructText e.1 e.2 ∨ d = .schema e.1.dropLast (cppOwnSchema e.2.name) (cppRawLiteral (X e.1)))) ∨
    (∃ b, e.2.kind = .enumeration b ∧ d = .enumeration e.1.dropLast e.2.name) ∨
    (∃ b v, e.2.kind = .constant b v ∧ d = .constant e.1.dropLast e.2.name) ∨
    (e.2.kind = .archive ∧ (d = .archive e.1.dropLast e.2.name (e.2.plainResources.map memberText)
          ((simpleResources e.2 ++ nestedResources e.2).map fun r => (r.name, writerOf (readerText r))) ∨
      d = .schema e.1.dropLast (cppOwnSchema e.2.name) (cppLiteral (X e.1)) ∨
      (∃ r ∈ e.2.plainResources, d = .schema e.1.dropLast (cppResourceSchema e.2.name r.name) (cppLiteral (X (e.1 ++ [r.name])))) ∨
      d = .initialize e.1.dropLast e.2.name e.2.name (cppOwnSchema e.2.name) ((simpleResources e.2).map (cppReadLine e.2)) (loadLines e.2) ∨
      d = .builder e.1.dropLast e.2.name e.2.name (cppOwnSchema e.2.name) ((simpleResources e.2).map (writeText e.2)) (loadLines e.2))) := by
  unfold cppDeclText cppDefText at hd
  cases hk : e.2.kind with
  | «structure» sz =>
    simp only [hk, List.mem_singleton] at hd
    exact .inl ⟨sz, rfl, hd⟩
  | enumeration b =>
    simp only [hk, List.mem_singleton, List.not_mem_nil, or_false] at hd
    exact .inr (.inl ⟨b, rfl, hd⟩)
  | constant b v =>
    simp only [hk, List.mem_singleton, List.not_mem_nil, or_false] at hd
    exact .inr (.inr (.inl ⟨b, v, rfl, hd⟩))
  | archive =>
    refine .inr (.inr (.inr ⟨rfl, ?_⟩))
    simp only [hk, List.cons_append, List.mem_singleton, List.mem_cons, List.mem_append, List.mem_map, List.not_mem_nil, or_false] at hd
    rcases hd with hd | hd | ⟨r, hr, hd⟩ | hd | hd
    · exact .inl hd
    · exact .inr (.inl hd)
    · exact .inr (.inr (.inl ⟨r, hr, hd.symm⟩))
    · exact .inr (.inr (.inr (.inl hd)))
    · exact .inr (.inr (.inr (.inr hd)))
  | _ => simp [hk] at hd

theorem cpp_struct_at {p : Path} {n : Tree} {sz : Option Nat} (hn : t.descend p = some n) (hk : n.kind = .structure sz) :
    cppStructAt (cppProgramText t X order) (colonPath p) =
      some (byteSize (n.children.filterMap declaredField), n.fields.any fieldRanged, n.fields.filterMap cppRangeEntry) := by
  have hdef : Spec.Kind.isDefinition n.kind = true := by rw [hk]; rfl
  unfold cppStructAt
  refine findSome?_only ?_ ?_
  · refine ⟨cppStructText p n, (cpp_mem X).mpr ⟨(p, n), hn, hall p n hn (by rw [hk]; simp), .inl ?_⟩, ?_⟩
    · unfold cppDeclText
      simp only [hk]
      exact List.mem_singleton.mpr rfl
    · simp only [cppStructText, full_name h hf hn hdef, if_pos]
  · intro d hd y hy
    obtain ⟨⟨p', n'⟩, h1, _, h3⟩ := (cpp_mem X).mp hd
    rcases cpp_items h hf X hall h3 with ⟨sz', hk', rfl | rfl⟩ | ⟨_, _, rfl⟩ | ⟨_, _, _, rfl⟩ | ⟨_, rfl | rfl | ⟨_, _, rfl⟩ | rfl | rfl⟩
    · have hdef' : Spec.Kind.isDefinition n'.kind = true := by rw [hk']; rfl
      simp only [cppStructText, full_name h hf h1 hdef'] at hy
      split at hy
      · rename_i he
        obtain ⟨rfl, rfl⟩ := full_name_inj h hn hdef h1 hdef' he
        cases hy; rfl
      · cases hy
    all_goals cases hy

theorem cpp_archive_at {p : Path} {n : Tree} (hn : t.descend p = some n) (hk : n.kind = .archive) :
    cppArchiveAt (cppProgramText t X order) (colonPath p) = some (p.dropLast, n.plainResources.map memberText,
      (simpleResources n ++ nestedResources n).map fun r => (r.name, writerOf (readerText r))) ∧
    cppInitializeAt (cppProgramText t X order) (colonPath p) =
      some (n.name, cppOwnSchema n.name, (simpleResources n).map (cppReadLine n), loadLines n) ∧
    cppBuilderAt (cppProgramText t X order) (colonPath p) =
      some (n.name, cppOwnSchema n.name, (simpleResources n).map (writeText n), loadLines n) := by
  have hdef : Spec.Kind.isDefinition n.kind = true := by rw [hk]; rfl
  have hmem : ∀ d, d ∈ cppDeclText (p, n) ∨ d ∈ cppDefText X (p, n) → d ∈ cppProgramText t X order := fun d hd =>
    (cpp_mem X).mpr ⟨(p, n), hn, hall p n hn (by rw [hk]; simp), hd⟩
  refine ⟨?_, ?_, ?_⟩
  · unfold cppArchiveAt
    refine findSome?_only ⟨_, hmem _ (.inl (by unfold cppDeclText; simp only [hk]; exact List.mem_singleton.mpr rfl)), by
      simp only [full_name h hf hn hdef, if_pos]⟩ ?_
    intro d hd y hy
    obtain ⟨⟨p', n'⟩, h1, _, h3⟩ := (cpp_mem X).mp hd
    rcases cpp_items h hf X hall h3 with ⟨_, _, rfl | rfl⟩ | ⟨_, _, rfl⟩ | ⟨_, _, _, rfl⟩ | ⟨hk', rfl | rfl | ⟨_, _, rfl⟩ | rfl | rfl⟩
    case inr.inr.inr.inl =>
      have hdef' : Spec.Kind.isDefinition n'.kind = true := by rw [hk']; rfl
      simp only [full_name h hf h1 hdef'] at hy
      split at hy
      · rename_i he
        obtain ⟨rfl, rfl⟩ := full_name_inj h hn hdef h1 hdef' he
        cases hy; rfl
      · cases hy
    all_goals cases hy
  · unfold cppInitializeAt
    refine findSome?_only ⟨.initialize p.dropLast n.name n.name (cppOwnSchema n.name) ((simpleResources n).map (cppReadLine n)) (loadLines n),
      hmem _ (.inr (by unfold cppDefText; simp only [hk]; simp)), by simp only [full_name h hf hn hdef, if_pos]⟩ ?_
    intro d hd y hy
    obtain ⟨⟨p', n'⟩, h1, _, h3⟩ := (cpp_mem X).mp hd
    rcases cpp_items h hf X hall h3 with ⟨_, _, rfl | rfl⟩ | ⟨_, _, rfl⟩ | ⟨_, _, _, rfl⟩ | ⟨hk', rfl | rfl | ⟨_, _, rfl⟩ | rfl | rfl⟩
    case inr.inr.inr.inr.inr.inr.inl =>
      have hdef' : Spec.Kind.isDefinition n'.kind = true := by rw [hk']; rfl
      simp only [full_name h hf h1 hdef'] at hy
      split at hy
      · rename_i he
        obtain ⟨rfl, rfl⟩ := full_name_inj h hn hdef h1 hdef' he
        cases hy; rfl
      · cases hy
    all_goals cases hy
  · unfold cppBuilderAt
    refine findSome?_only ⟨.builder p.dropLast n.name n.name (cppOwnSchema n.name) ((simpleResources n).map (writeText n)) (loadLines n),
      hmem _ (.inr (by unfold cppDefText; simp only [hk]; simp)), by simp only [full_name h hf hn hdef, if_pos]⟩ ?_
    intro d hd y hy
    obtain ⟨⟨p', n'⟩, h1, _, h3⟩ := (cpp_mem X).mp hd
    rcases cpp_items h hf X hall h3 with ⟨_, _, rfl | rfl⟩ | ⟨_, _, rfl⟩ | ⟨_, _, _, rfl⟩ | ⟨hk', rfl | rfl | ⟨_, _, rfl⟩ | rfl | rfl⟩
    case inr.inr.inr.inr.inr.inr.inr =>
      have hdef' : Spec.Kind.isDefinition n'.kind = true := by rw [hk']; rfl
      simp only [full_name h hf h1 hdef'] at hy
      split at hy
      · rename_i he
        obtain ⟨rfl, rfl⟩ := full_name_inj h hn hdef h1 hdef' he
        cases hy; rfl
      · cases hy
    all_goals cases hy

/-- Every constant with a schema is about a node. -/
theorem cpp_schema_mem (hX : ∀ q m, t.descend q = some m → Printable m.kind = true → SchemaChars (X q)) {scope : Path} {name lit : Text}
    (hd : CppItem.schema scope name lit ∈ cppProgramText t X order) :
    ∃ ns c m x q, t.descend ns = some m ∧ m.kind = .namespace ∧ c ∈ m.children ∧ t.descend (ns ++ [c.name]) = some c ∧ scope = ns ∧
      (x, q) ∈ schemaEntries (ns ++ [c.name], c) ∧ name = x ++ "__schema__".toList ∧ cppLiteralValue lit = some (X q) := by
  have hc := compile_compiled h
  obtain ⟨⟨p, n⟩, h1, _, h3⟩ := (cpp_mem X).mp hd
  simp only at h1
  have hpar : hasItem n.kind = true → Spec.Kind.isDefinition n.kind = true → ∃ ns m, p = ns ++ [n.name] ∧ t.descend ns = some m ∧ m.kind = .namespace ∧ n ∈ m.children := by
    intro hi hdef
    obtain ⟨ns, m, g1, g2, g3, g4⟩ := item_parent h hf h1 hi
    refine ⟨ns, m, g1, g2, ?_, g3⟩
    rcases g4 with g4 | ⟨_, g4⟩
    · exact g4
    · rw [g4] at hdef; cases hdef
  rcases cpp_items h hf X hall h3 with ⟨_, hk, he | he⟩ | ⟨_, _, he⟩ | ⟨_, _, _, he⟩ | ⟨hk, he | he | ⟨r, hr, he⟩ | he | he⟩
  case inl.inr =>
    cases he
    simp only at hk
    obtain ⟨ns, m, rfl, g1, g2, g3⟩ := hpar (by rw [hk]; rfl) (by rw [hk]; rfl)
    have hx := hX _ n h1 (by rw [hk]; rfl)
    refine ⟨ns, n, m, n.name, _, g1, g2, g3, h1, List.dropLast_concat, ?_, rfl,
      cppRawLiteral_value (fun hq => absurd (hx _ hq) (by decide)) (fun hq => absurd (hx _ hq) (by decide))⟩
    unfold schemaEntries
    simp only [hk]
    exact List.mem_singleton.mpr rfl
  case inr.inr.inr.inr.inl =>
    cases he
    simp only at hk
    obtain ⟨ns, m, rfl, g1, g2, g3⟩ := hpar (by rw [hk]; rfl) (by rw [hk]; rfl)
    refine ⟨ns, n, m, n.name, _, g1, g2, g3, h1, List.dropLast_concat, ?_, rfl, cppLiteral_value _⟩
    unfold schemaEntries
    simp only [hk]
    exact List.mem_cons_self
  case inr.inr.inr.inr.inr.inl =>
    cases he
    simp only at hk hr
    obtain ⟨ns, m, rfl, g1, g2, g3⟩ := hpar (by rw [hk]; rfl) (by rw [hk]; rfl)
    refine ⟨ns, n, m, n.name ++ "__".toList ++ r.name, _, g1, g2, g3, h1, List.dropLast_concat, ?_, rfl, cppLiteral_value _⟩
    unfold schemaEntries
    simp only [hk]
    exact List.mem_cons_of_mem _ (List.mem_map.mpr ⟨r, hr, rfl⟩)
  all_goals (first | cases he | (unfold cppStructText at he; cases he))

omit hf hall in
/-- Different schemas are kept under different names. -/
theorem entries_unique (hr : CppArchivesNameable t) {ns : Path} {m c c' : Tree} (hm : t.descend ns = some m) (hmk : m.kind = .namespace) (hc : c ∈ m.children)
    (hc' : c' ∈ m.children) {x : Text} {q q' : Path} (hx : (x, q) ∈ schemaEntries (ns ++ [c.name], c)) (hx' : (x, q') ∈ schemaEntries (ns ++ [c'.name], c')) :
    c = c' ∧ q = q' := by
  have hn := hr.schemas ns m hm hmk
  obtain ⟨h1, h2⟩ := List.nodup_flatMap.mp hn
  have hxc : x ∈ schemaNames c := by rw [← schemaEntries_names (ns ++ [c.name], c)]; exact List.mem_map_of_mem (f := (·.1)) hx
  have hxc' : x ∈ schemaNames c' := by rw [← schemaEntries_names (ns ++ [c'.name], c')]; exact List.mem_map_of_mem (f := (·.1)) hx'
  have hcc : c = c' := by
    by_contra hne
    have : List.Disjoint (schemaNames c) (schemaNames c') := @List.Pairwise.forall _ _ _ ⟨fun _ _ hd => List.Disjoint.symm hd⟩ h2 _ hc _ hc' hne
    exact this hxc hxc'
  subst hcc
  refine ⟨rfl, ?_⟩
  have := h1 c hc
  rw [← schemaEntries_names (ns ++ [c.name], c)] at this
  have := List.inj_on_of_nodup_map this hx hx' rfl
  exact (Prod.mk.inj this).2

theorem cpp_schema_at (hr : CppArchivesNameable t) (hX : ∀ q m, t.descend q = some m → Printable m.kind = true → SchemaChars (X q)) {p : Path} {n : Tree}
    (hn : t.descend p = some n) (hk : n.kind = .archive) :
    cppSchemaAt (cppProgramText t X order) p.dropLast (cppOwnSchema n.name) = some (X p) ∧
    ∀ r ∈ n.plainResources, cppSchemaAt (cppProgramText t X order) p.dropLast (cppResourceSchema n.name r.name) = some (X (p ++ [r.name])) := by
  have hmem : ∀ d, d ∈ cppDeclText (p, n) ∨ d ∈ cppDefText X (p, n) → d ∈ cppProgramText t X order := fun d hd =>
    (cpp_mem X).mpr ⟨(p, n), hn, hall p n hn (by rw [hk]; simp), hd⟩
  have key : ∀ x q lit, CppItem.schema p.dropLast (x ++ "__schema__".toList) lit ∈ cppDefText X (p, n) → cppLiteralValue lit = some (X q) →
      (x, q) ∈ schemaEntries (p, n) → cppSchemaAt (cppProgramText t X order) p.dropLast (x ++ "__schema__".toList) = some (X q) := by
    intro x q lit h1 h2 h3
    unfold cppSchemaAt
    refine findSome?_only ⟨_, hmem _ (.inr h1), by simp only [and_self, if_pos, h2]⟩ ?_
    intro d hd y hy
    cases d with
    | schema s name lit' =>
      simp only at hy
      split at hy
      · rename_i he
        obtain ⟨rfl, rfl⟩ := he
        obtain ⟨ns, c, m, x', q', g1, g2, g3, g4, g5, g6, g7, g8⟩ := cpp_schema_mem h hf X hall hX hd
        obtain ⟨ns', m', rfl, f1, f2, f3⟩ := archive_parent h hf hn hk
        rw [List.dropLast_concat] at g5
        subst g5
        rw [f1] at g1; cases g1
        have := List.append_cancel_right g7
        subst this
        obtain ⟨_, rfl⟩ := entries_unique h hr f1 f2 f3 g3 h3 g6
        rw [g8] at hy
        cases hy; rfl
      · cases hy
    | _ => cases hy
  constructor
  · refine key n.name p (cppLiteral (X p)) ?_ (cppLiteral_value _) ?_
    · unfold cppDefText
      simp only [hk]
      exact List.mem_append_left _ List.mem_cons_self
    · unfold schemaEntries
      simp only [hk]
      exact List.mem_cons_self
  · intro r hrm
    refine key (n.name ++ "__".toList ++ r.name) (p ++ [r.name]) (cppLiteral (X (p ++ [r.name]))) ?_ (cppLiteral_value _) ?_
    · unfold cppDefText
      simp only [hk]
      exact List.mem_append_left _ (List.mem_cons_of_mem _ (List.mem_map.mpr ⟨r, hrm, rfl⟩))
    · unfold schemaEntries
      simp only [hk]
      exact List.mem_cons_of_mem _ (List.mem_map.mpr ⟨r, hrm, rfl⟩)

end

/-! ## What `open` reads -/

theorem m_inj {a b : Text} (h : "m_".toList ++ a = "m_".toList ++ b) : a = b := List.append_cancel_left h

section
variable {source : Text} {blocks : List PBlock} {t : Tree} (hs : parseSource source = .ok blocks) (h : Compile source (.ok t)) (hf : Flat t) (hb : NoBuiltin t)
  (hno : ∀ b ∈ blocks, "_builtin".toList ∉ splitDot b.name) (hr : CppArchivesNameable t) {X : Path → Text} {order : List Path}
  (hall : ∀ p m, t.descend p = some m → (∀ rk, m.kind ≠ .ref rk) → p ∈ order)
include h

/-- The names of resources are different. -/
theorem resource_names {p : Path} {n : Tree} (hn : t.descend p = some n) {r r' : Tree} (hrm : r ∈ n.plainResources) (hrm' : r' ∈ n.plainResources)
    (he : r.name = r'.name) : r = r' := by
  have hc := compile_compiled h
  have h1 := (plain_resource hrm).1
  have h2 : r' ∈ n.children.filter fun d => d.name = r.name := List.mem_filter.mpr ⟨(plain_resource hrm').1, by simp [he]⟩
  rw [hc.uniqueChild hn h1, List.mem_singleton] at h2
  exact h2.symm

theorem read_of {p : Path} {n : Tree} (hn : t.descend p = some n) {r : Tree} (hrm : r ∈ simpleResources n) :
    cppReadOf ((simpleResources n).map (cppReadLine n)) r.name = some (cppReadLine n r) := by
  unfold cppReadOf
  have : ∀ l : List Tree, r ∈ l → (∀ r' ∈ l, r' ∈ n.plainResources) →
      (l.map (cppReadLine n)).find? (fun l => l.member = "m_".toList ++ r.name) = some (cppReadLine n r) := by
    intro l
    induction l with
    | nil => intro hm; cases hm
    | cons a l ih =>
      intro hm hl
      rw [List.map_cons, List.find?_cons]
      by_cases ha : a = r
      · subst ha
        simp [cppReadLine]
      · have : (cppReadLine n a).member ≠ "m_".toList ++ r.name := by
          intro he
          exact ha (resource_names h hn (hl a (by simp)) (simple_mem.mp hrm).1 (m_inj he))
        rw [decide_eq_false this]
        exact ih ((List.mem_cons.mp hm).resolve_left (Ne.symm ha)) fun r' hm' => hl r' (by simp [hm'])
  exact this _ hrm fun r' hm => (simple_mem.mp hm).1

theorem load_of {p : Path} {n : Tree} (hn : t.descend p = some n) {r : Tree} (hrm : r ∈ nestedResources n) :
    (loadLines n).lookup ("m_".toList ++ r.name) = some r.name := by
  unfold loadLines
  have : ∀ l : List Tree, r ∈ l → (∀ r' ∈ l, r' ∈ n.plainResources) →
      (l.map fun r => ("m_".toList ++ r.name, r.name)).lookup ("m_".toList ++ r.name) = some r.name := by
    intro l
    induction l with
    | nil => intro hm; cases hm
    | cons a l ih =>
      intro hm hl
      rw [List.map_cons, List.lookup_cons]
      by_cases ha : a = r
      · subst ha
        simp
      · have : "m_".toList ++ r.name ≠ "m_".toList ++ a.name := by
          intro he
          exact ha (resource_names h hn (hl a (by simp)) (nested_mem.mp hrm).1 (m_inj he.symm))
        have : ("m_".toList ++ r.name == "m_".toList ++ a.name) = false := by simpa using this
        rw [this]
        exact ih ((List.mem_cons.mp hm).resolve_left (Ne.symm ha)) fun r' hm' => hl r' (by simp [hm'])
  exact this _ hrm fun r' hm => (nested_mem.mp hm).1

include hf hall

include hs hno in
theorem cpp_index_width {q : Path} {r : Tree} {w : Nat} {o : Bool} {m : Option Nat} (hrd : t.descend q = some r) (hrk : r.kind = .resource (.multivector w) o m) :
    cppIndexWidth (cppProgramText t X order) (colonPath (indexTypePath q w)) = some (if w = 0 then 64 else w) := by
  obtain ⟨x, f, h1, h2, h3, h4, h5⟩ := index_structure hs h hno hrd hrk
  have hsz : byteSize (x.children.filterMap declaredField) = ((if w = 0 then 64 else w) + 7) / 8 := by
    have := (struct_facts h h1 h2).1
    rw [h2] at this
    unfold Kind.sizeInBytes at this
    simpa using (Except.ok.inj this).symm
  unfold cppIndexWidth
  rw [cpp_struct_at h hf X hall h1 h2, h3]
  have h6 : [f].any fieldRanged = true := by
    simp only [List.any_cons, List.any_nil, Bool.or_false]
    unfold fieldRanged
    rw [h5]; rfl
  have h7 : [f].filterMap cppRangeEntry = [("range".toList, 0, if w = 0 then 64 else w)] := by
    unfold cppRangeEntry
    simp only [List.filterMap_cons, h5, List.filterMap_nil]
  rw [h6, h7]
  simp only [List.lookup, beq_self_eq_true, hsz, if_pos]

theorem cpp_sizes {q : Path} {r : Tree} {k : ResKind} {o : Bool} {m : Option Nat} (hrd : t.descend q = some r) (hrk : r.kind = .resource k o m) :
    ∃ decls, TypesAt t (childrenOf r (.ref .structure)) decls ∧
      cppSizes (cppProgramText t X order) ((childrenOf r (.ref .structure)).map fun ref => colonPath ref.targetPath) = some (decls.map fun d => byteSize d.2) := by
  obtain ⟨_, _, _, h4⟩ := resource_refs h hrd hrk
  have key : ∀ l : List Tree, (∀ ref ∈ l, ref ∈ childrenOf r (.ref .structure)) → ∃ decls, TypesAt t l decls ∧
      cppSizes (cppProgramText t X order) (l.map fun ref => colonPath ref.targetPath) = some (decls.map fun d => byteSize d.2) := by
    intro l
    induction l with
    | nil => exact fun _ => ⟨[], .nil, rfl⟩
    | cons ref l ih =>
      intro hl
      obtain ⟨decls, e1, e2⟩ := ih (fun ref' hm => hl ref' (by simp [hm]))
      obtain ⟨_, _, _, _, x, h8, sz, h9⟩ := h4 .structure ref (hl ref (by simp))
      refine ⟨_, .cons ⟨x, sz, h8, h9, rfl⟩ e1, ?_⟩
      unfold cppSizes at e2 ⊢
      rw [List.map_cons, List.mapM_cons, e2, cpp_struct_at h hf X hall h8 h9]
      rfl
  exact key _ fun _ hm => hm

include hr hs hno in
/-- What is read for a resource, if archives in it can be opened. -/
theorem cpp_resource_reads (hX : ∀ q m, t.descend q = some m → Printable m.kind = true → Schema t q (.ok (X q)) ∧ SchemaChars (X q)) {p : Path} {n : Tree}
    (hn : t.descend p = some n) (hk : n.kind = .archive)
    (hsub : ∀ r ∈ n.plainResources, ∀ ref ∈ childrenOf r (.ref .archive), ∃ name x rs, CppOpens (cppProgramText t X order) (colonPath ref.targetPath) name x rs ∧
      RustArchiveAt t ref.targetPath name x rs) {r : Tree} (hrm : r ∈ n.plainResources) :
    ∃ x, CppReads (cppProgramText t X order) p.dropLast ((simpleResources n).map (cppReadLine n)) (loadLines n) (memberText r) x ∧
      RustResourceAt t (p ++ [r.name]) r x := by
  have hc := compile_compiled h
  obtain ⟨g1, k, o, m, hrk, hkb⟩ := plain_resource hrm
  have hrd := hc.child hn g1
  have hsc : cppSchemaAt (cppProgramText t X order) p.dropLast (cppReadLine n r).schema = some (X (p ++ [r.name])) :=
    (cpp_schema_at h hf X hall hr (fun q m hq hp => (hX q m hq hp).2) hn hk).2 r hrm
  have hxs := (hX _ r hrd (by rw [hrk]; rfl)).1
  obtain ⟨h1, h2, h3, h4⟩ := resource_refs h hrd hrk
  have ho : (memberText r).optional = o := by
    show r.kind.isOptional = o
    rw [hrk]; rfl
  have hlim : k ≠ .archive → cppReadOf ((simpleResources n).map (cppReadLine n)) (memberText r).name = some (cppReadLine n r) := by
    intro hka
    refine read_of h hn (simple_mem.mpr ⟨hrm, ?_⟩)
    unfold isArchiveResource
    rw [hrk]
    cases k <;> first | rfl | exact absurd rfl hka
  have hm : cppLimit (memberText r).optional (cppReadLine n r).limit = some (limitOf m) := by
    rw [ho]
    unfold cppReadLine limitOf
    simp only [hrk, Kind.maxSize, Kind.isOptional]
    cases m with
    | none => rfl
    | some m =>
      cases m with
      | zero => rfl
      | succ m =>
        have := (hr.limits _ r k o (m + 1) hrd hrk).2.2
        simp only [cppLimit, true_and]
        rw [if_pos this]
        rfl
  have hcon : (memberText r).type = readerText r := rfl
  unfold readerText at hcon
  rw [hrk] at hcon
  cases k with
  | bound => exact absurd rfl hkb
  | rawData =>
    refine ⟨_, .rawData hcon (hlim (by simp)) hsc hm, ?_⟩
    rw [ho]
    exact .rawData hrk hxs
  | vector =>
    obtain ⟨ref, e1, e2, e3⟩ := h1 (.inl rfl)
    obtain ⟨_, _, _, _, x, h8, sz, h9⟩ := h4 .structure ref (by rw [e1]; simp)
    simp only [e3] at hcon
    refine ⟨_, .vector hcon (cpp_struct_at h hf X hall h8 h9) (hlim (by simp)) hsc hm, ?_⟩
    rw [ho]
    have : x.fields.any fieldRanged = @decide (RangedAt t ref.targetPath) (Classical.propDecidable _) := by
      rw [Bool.eq_iff_iff]
      simp only [decide_eq_true_eq, (cpp_struct_ok h hf h8 h9).2]
    rw [this]
    exact .vector hrk e1 ⟨x, sz, h8, h9, rfl⟩ hxs
  | «instance» =>
    obtain ⟨ref, e1, e2, e3⟩ := h1 (.inr rfl)
    obtain ⟨_, _, _, _, x, h8, sz, h9⟩ := h4 .structure ref (by rw [e1]; simp)
    simp only [e3] at hcon
    have hmn : m = none := by
      cases m with
      | none => rfl
      | some m => exact absurd rfl (hr.limits _ r _ o m hrd hrk).1
    subst hmn
    refine ⟨_, .instance hcon (cpp_struct_at h hf X hall h8 h9) (hlim (by simp)) hsc ?_, ?_⟩
    · unfold cppReadLine
      simp only [hrk, Kind.maxSize]
    · rw [ho]
      exact .instance hrk e1 ⟨x, sz, h8, h9, rfl⟩ hxs
  | multivector w =>
    obtain ⟨ref, e1, e3, e4⟩ := h2 w rfl
    obtain ⟨decls, _, e5⟩ := cpp_sizes h hf (X := X) hall hrd hrk
    simp only [e3, e4] at hcon
    refine ⟨_, .multivector hcon (cpp_index_width hs h hf hno hall hrd hrk) e5 (hlim (by simp)) hsc hm, ?_⟩
    rw [ho]
    exact .multivector hrk hxs
  | archive =>
    obtain ⟨ref, e1, e3⟩ := h3 rfl
    obtain ⟨name, xs, rs, hop, hat⟩ := hsub r hrm ref (by rw [e1]; simp)
    simp only [e3] at hcon
    have hmn : m = none := by
      cases m with
      | none => rfl
      | some m => exact absurd rfl (hr.limits _ r _ o m hrd hrk).2.1
    subst hmn
    refine ⟨_, .archive hcon (load_of h hn (nested_mem.mpr ⟨hrm, ?_⟩)) hop, ?_⟩
    · unfold isArchiveResource
      rw [hrk]
    · rw [ho]
      exact .archive hrk e1 hat

include hr hs hno in
theorem cpp_archive_step (hX : ∀ q m, t.descend q = some m → Printable m.kind = true → Schema t q (.ok (X q)) ∧ SchemaChars (X q)) {p : Path} {n : Tree}
    (hn : t.descend p = some n) (hk : n.kind = .archive)
    (hsub : ∀ r ∈ n.plainResources, ∀ ref ∈ childrenOf r (.ref .archive), ∃ name x rs, CppOpens (cppProgramText t X order) (colonPath ref.targetPath) name x rs ∧
      RustArchiveAt t ref.targetPath name x rs) : ∃ name x rs, CppOpens (cppProgramText t X order) (colonPath p) name x rs ∧ RustArchiveAt t p name x rs := by
  have hall' : ∀ l : List Tree, (∀ r ∈ l, r ∈ n.plainResources) →
      ∃ rs, CppReadsAll (cppProgramText t X order) p.dropLast ((simpleResources n).map (cppReadLine n)) (loadLines n) (l.map memberText) rs ∧
        RustResourcesAt t p l rs := by
    intro l
    induction l with
    | nil => exact fun _ => ⟨[], .nil, .nil⟩
    | cons r l ih =>
      intro hl
      obtain ⟨rs, e1, e2⟩ := ih fun r' hm => hl r' (by simp [hm])
      obtain ⟨x, e3, e4⟩ := cpp_resource_reads hs h hf hno hr hall hX hn hk hsub (hl r (by simp))
      exact ⟨x :: rs, .cons e3 e1, .cons e4 e2⟩
  obtain ⟨rs, e1, e2⟩ := hall' n.plainResources fun _ hm => hm
  rw [plainResources_eq] at e2
  have hxs := (hX _ n hn (by rw [hk]; rfl)).1
  obtain ⟨a1, a2, _⟩ := cpp_archive_at h hf X hall hn hk
  refine ⟨_, _, rs, .mk a1 a2 (cpp_schema_at h hf X hall hr (fun q m hq hp => (hX q m hq hp).2) hn hk).1 ?_ e1, .mk hn hk hxs e2⟩
  intro y hy
  simp only [loadLines, List.map_map, List.mem_append, List.mem_map, Function.comp_apply] at hy ⊢
  rcases hy with ⟨r, hrm, rfl⟩ | ⟨r, hrm, rfl⟩
  · exact ⟨r, (simple_mem.mp hrm).1, rfl⟩
  · exact ⟨r, (nested_mem.mp hrm).1, rfl⟩

include hr hs hno in
/-- Every archive can be opened. -/
theorem cpp_archive_opens (hX : ∀ q m, t.descend q = some m → Printable m.kind = true → Schema t q (.ok (X q)) ∧ SchemaChars (X q)) {p : Path} {n : Tree}
    (hn : t.descend p = some n) (hk : n.kind = .archive) :
    ∃ name x rs, CppOpens (cppProgramText t X order) (colonPath p) name x rs ∧ RustArchiveAt t p name x rs := by
  have hc := compile_compiled h
  obtain ⟨_, events, _, hnd, hall2, hbefore⟩ := order_exists h
  have key : ∀ (l done : List Path), dependencyOrder events = done ++ l →
      (∀ q ∈ done, ∀ m, t.descend q = some m → m.kind = .archive →
        ∃ name x rs, CppOpens (cppProgramText t X order) (colonPath q) name x rs ∧ RustArchiveAt t q name x rs) →
      ∀ q ∈ done ++ l, ∀ m, t.descend q = some m → m.kind = .archive →
        ∃ name x rs, CppOpens (cppProgramText t X order) (colonPath q) name x rs ∧ RustArchiveAt t q name x rs := by
    intro l
    induction l with
    | nil => intro done _ hd q hq; rw [List.append_nil] at hq; exact hd q hq
    | cons a l ih =>
      intro done he hd
      have := ih (done ++ [a]) (by rw [he]; simp) (by
        intro q hq m hm hmk
        rcases List.mem_append.mp hq with hq | hq
        · exact hd q hq m hm hmk
        · rw [List.mem_singleton] at hq
          subst hq
          refine cpp_archive_step hs h hf hno hr hall hX hm hmk ?_
          intro r hrm ref href
          obtain ⟨g1, k, o, mx, hrk, hkb⟩ := plain_resource hrm
          have hrd := hc.child hm g1
          obtain ⟨_, _, _, h4⟩ := resource_refs h hrd hrk
          obtain ⟨f1, f2, _, _, x, f3, f4⟩ := h4 .archive ref href
          have hw := walk_resource hc hm g1 (by intro k hk; rw [hrk] at hk; cases hk) f1 f2 (by rfl)
          have hb' := hbefore q 1 ref.targetPath (by rw [he]; simp) hw
          rw [he] at hb' hnd
          exact hd _ (before_mem hnd hb') x f3 f4)
      intro q hq
      exact this q (by simpa using hq)
  exact key (dependencyOrder events) [] rfl (by simp) p (hall2 p n hn (by rw [hk]; simp)) n hn hk

/-- The builder writes what the archive reads. -/
theorem cpp_agree {p : Path} {n : Tree} (hn : t.descend p = some n) (hk : n.kind = .archive) : CppAgree (cppProgramText t X order) (colonPath p) := by
  obtain ⟨a1, a2, a3⟩ := cpp_archive_at h hf X hall hn hk
  refine ⟨_, _, _, _, _, _, _, _, a1, a2, a3, ?_, ?_, ?_⟩
  · intro b
    simp only [List.mem_map, List.mem_append, exists_exists_and_eq_and]
    constructor
    · rintro ⟨r, hr | hr, rfl⟩
      · exact ⟨r, (simple_mem.mp hr).1, rfl⟩
      · exact ⟨r, (nested_mem.mp hr).1, rfl⟩
    · rintro ⟨r, hr, rfl⟩
      cases ha : isArchiveResource r with
      | false => exact ⟨r, .inl (simple_mem.mpr ⟨hr, ha⟩), rfl⟩
      | true => exact ⟨r, .inr (nested_mem.mpr ⟨hr, ha⟩), rfl⟩
  · intro l hl
    obtain ⟨r, hrm, rfl⟩ := List.mem_map.mp hl
    exact ⟨writeText n r, List.mem_map_of_mem hrm, rfl, rfl, rfl⟩
  · intro w hw
    obtain ⟨r, hrm, rfl⟩ := List.mem_map.mp hw
    refine ⟨List.mem_map.mpr ⟨r, List.mem_append_left _ hrm, rfl⟩, ⟨cppReadLine n r, List.mem_map_of_mem hrm, rfl, rfl, rfl⟩, ?_⟩
    obtain ⟨_, k, o, m, hrk, hkb⟩ := plain_resource (simple_mem.mp hrm).1
    unfold writeText readerText
    simp only [hrk]
    cases k <;> simp [writerOf]

end

/-! ## Names are different -/

section
variable {source : Text} {t : Tree} (h : Compile source (.ok t)) (hf : Flat t) (X : Path → Text) {order : List Path}
  (hall : ∀ p m, t.descend p = some m → (∀ rk, m.kind ≠ .ref rk) → p ∈ order)
include h hf

/-- The names of declarations for a node. -/
theorem decl_names {e : Path × Tree} : (cppDeclText e).flatMap cppNames =
    if Spec.Kind.isDefinition e.2.kind then (spaceNames e.2).map fun x => e.1.dropLast ++ [x] else [] := by
  unfold cppDeclText spaceNames
  cases hk : e.2.kind <;> simp [cppNames, cppStructText, Spec.Kind.isDefinition]

/-- The names of definitions for a node. -/
theorem def_names {e : Path × Tree} : (cppDefText X e).flatMap cppNames =
    (schemaNames e.2).map fun x => e.1.dropLast ++ ["internal".toList, x ++ "__schema__".toList] := by
  unfold cppDefText
  cases hk : e.2.kind with
  | archive =>
    have : ∀ l : List Tree, (l.map fun r => CppItem.schema e.1.dropLast (cppResourceSchema e.2.name r.name) (cppLiteral (X (e.1 ++ [r.name])))).flatMap cppNames =
        (l.map fun r => e.2.name ++ "__".toList ++ r.name).map fun x => e.1.dropLast ++ ["internal".toList, x ++ "__schema__".toList] := by
      intro l
      induction l with
      | nil => rfl
      | cons r l ih => rw [List.map_cons, List.flatMap_cons, ih]; rfl
    simp only [List.flatMap_append, List.flatMap_cons, List.flatMap_nil, List.append_nil, this]
    unfold schemaNames
    simp [hk, cppNames, cppOwnSchema, show e.2.plainResources = resourcesOf e.2 from plainResources_eq e.2]
  | «structure» sz => unfold schemaNames; simp [hk, cppNames, cppOwnSchema]
  | _ => unfold schemaNames; simp [hk]

/-- The parent of a definition. -/
theorem definition_parent {p : Path} {n : Tree} (hn : t.descend p = some n) (hd : Spec.Kind.isDefinition n.kind = true) :
    ∃ ns m, p = ns ++ [n.name] ∧ t.descend ns = some m ∧ m.kind = .namespace ∧ n ∈ m.children := by
  have hc := compile_compiled h
  obtain ⟨ns, k, rfl, rfl, _⟩ := hc.namespaces hf hn hd
  obtain ⟨m, h1, h2, h3, _⟩ := hc.parents ns n.name n hn
  exact ⟨ns, m, rfl, h1, h3 hd, h2⟩

/-- A name of a declaration: in which namespace, for which node. -/
theorem decl_name_parent {e : Path × Tree} (he : t.descend e.1 = some e.2) {x : Path} (hx : x ∈ (cppDeclText e).flatMap cppNames) :
    ∃ ns m y, e.1 = ns ++ [e.2.name] ∧ t.descend ns = some m ∧ m.kind = .namespace ∧ e.2 ∈ m.children ∧ y ∈ spaceNames e.2 ∧ x = ns ++ [y] ∧
      Spec.Kind.isDefinition e.2.kind = true := by
  rw [decl_names h hf] at hx
  split at hx
  · rename_i hd
    obtain ⟨ns, m, h1, h2, h3, h4⟩ := definition_parent h hf he hd
    obtain ⟨y, hy, rfl⟩ := List.mem_map.mp hx
    exact ⟨ns, m, y, h1, h2, h3, h4, hy, by rw [h1, List.dropLast_concat], hd⟩
  · cases hx

/-- A name of a definition: in which namespace, for which node. -/
theorem def_name_parent {e : Path × Tree} (he : t.descend e.1 = some e.2) {x : Path} (hx : x ∈ (cppDefText X e).flatMap cppNames) :
    ∃ ns m y, e.1 = ns ++ [e.2.name] ∧ t.descend ns = some m ∧ m.kind = .namespace ∧ e.2 ∈ m.children ∧ y ∈ schemaNames e.2 ∧
      x = ns ++ ["internal".toList, y ++ "__schema__".toList] := by
  rw [def_names h hf] at hx
  obtain ⟨y, hy, rfl⟩ := List.mem_map.mp hx
  have hd : Spec.Kind.isDefinition e.2.kind = true := by
    unfold schemaNames at hy
    cases hk : e.2.kind <;> simp only [hk, List.not_mem_nil] at hy <;> rfl
  obtain ⟨ns, m, h1, h2, h3, h4⟩ := definition_parent h hf he hd
  exact ⟨ns, m, y, h1, h2, h3, h4, hy, by rw [h1, List.dropLast_concat]⟩

omit h hf in
/-- Two children of a namespace define different names. -/
theorem space_child (hr : CppArchivesNameable t) {ns : Path} {m c c' : Tree} (hm : t.descend ns = some m) (hmk : m.kind = .namespace) (hc : c ∈ m.children)
    (hc' : c' ∈ m.children) {x : Text} (hx : x ∈ spaceNames c) (hx' : x ∈ spaceNames c') : c = c' := by
  have hn := (List.nodup_cons.mp (List.nodup_cons.mp (hr.types ns m hm hmk)).2).2
  obtain ⟨_, h2⟩ := List.nodup_flatMap.mp hn
  by_contra hne
  have : List.Disjoint (spaceNames c) (spaceNames c') := @List.Pairwise.forall _ _ _ ⟨fun _ _ hd => List.Disjoint.symm hd⟩ h2 _ hc _ hc' hne
  exact this hx hx'

omit h hf in
theorem space_reserved (hr : CppArchivesNameable t) {ns : Path} {m c : Tree} (hm : t.descend ns = some m) (hmk : m.kind = .namespace) (hc : c ∈ m.children)
    {x : Text} (hx : x ∈ spaceNames c) : x ≠ "internal".toList ∧ x ≠ "to_string".toList := by
  obtain ⟨h1, h2⟩ := List.nodup_cons.mp (hr.types ns m hm hmk)
  have hm' : x ∈ m.children.flatMap spaceNames := List.mem_flatMap.mpr ⟨c, hc, hx⟩
  constructor
  · rintro rfl
    exact h1 (List.mem_cons_of_mem _ hm')
  · rintro rfl
    exact (List.nodup_cons.mp h2).1 hm'

/-- A namespace inside of a namespace is one of the schema, with its own name. -/
theorem space_node (hr : CppArchivesNameable t) {a ns : Path} {m : Tree} {y : Text} (ha : isNamespaceAt t a = true) (hm : t.descend ns = some m)
    (hmk : m.kind = .namespace) {rest : Path} (he : a = ns ++ y :: rest) :
    ∃ c ∈ m.children, c.kind = .namespace ∧ c.name = y := by
  unfold isNamespaceAt at ha
  cases hd : t.descend a with
  | none => rw [hd] at ha; cases ha
  | some na =>
    rw [hd] at ha
    have hak : na.kind = .namespace := by simpa [Tree.isNamespace] using ha
    have := flat_prefix hf hd hak (ns.length + 1) (by omega) (by rw [he]; simp)
    have ht : a.take (ns.length + 1) = ns ++ [y] := by
      rw [he, List.take_append, List.take_of_length_le (by omega)]
      simp
    rw [ht] at this
    unfold isNamespaceAt at this
    cases hc : t.descend (ns ++ [y]) with
    | none => rw [hc] at this; cases this
    | some c =>
      rw [hc] at this
      obtain ⟨m', h1, h2, h3⟩ := descend_parent hc
      rw [hm] at h1; cases h1
      exact ⟨c, h2, by simpa [Tree.isNamespace] using this, h3⟩

/-- No namespace of the schema has the name of something in it. -/
theorem space_not_name (hr : CppArchivesNameable t) {a ns : Path} {m c : Tree} {y : Text} (ha : isNamespaceAt t a = true) (hm : t.descend ns = some m)
    (hmk : m.kind = .namespace) (hc : c ∈ m.children) (hcd : Spec.Kind.isDefinition c.kind = true) (hy : y ∈ spaceNames c) : a ≠ ns ++ [y] := by
  intro he
  obtain ⟨c', h1, h2, h3⟩ := space_node h hf hr ha hm hmk he
  have := space_child hr hm hmk hc h1 hy (by unfold spaceNames; simp [h2, h3])
  subst this
  rw [h2] at hcd; cases hcd

/-- No namespace of the schema is, or is in, `internal`. -/
theorem space_not_internal (hr : CppArchivesNameable t) {a ns : Path} {m : Tree} (ha : isNamespaceAt t a = true) (hm : t.descend ns = some m)
    (hmk : m.kind = .namespace) {rest : Path} : a ≠ ns ++ "internal".toList :: rest := by
  intro he
  obtain ⟨c, h1, h2, h3⟩ := space_node h hf hr ha hm hmk he
  exact (space_reserved hr hm hmk h1 (x := c.name) (by unfold spaceNames; simp [h2])).1 h3

theorem space_not_to_string (hr : CppArchivesNameable t) {a ns : Path} {m : Tree} (ha : isNamespaceAt t a = true) (hm : t.descend ns = some m)
    (hmk : m.kind = .namespace) {rest : Path} : a ≠ ns ++ "to_string".toList :: rest := by
  intro he
  obtain ⟨c, h1, h2, h3⟩ := space_node h hf hr ha hm hmk he
  exact (space_reserved hr hm hmk h1 (x := c.name) (by unfold spaceNames; simp [h2])).2 h3

omit h hf in
theorem cpp_nodes_mem {e : Path × Tree} : e ∈ cppNodes t order ↔ e.1 ∈ order ∧ t.descend e.1 = some e.2 := by
  obtain ⟨p, n⟩ := e
  unfold cppNodes
  simp only [List.mem_filterMap, Option.map_eq_some_iff]
  constructor
  · rintro ⟨q, h1, m, h2, h3⟩
    cases h3
    exact ⟨h1, h2⟩
  · rintro ⟨h1, h2⟩
    exact ⟨p, h1, n, h2, rfl⟩

omit h hf in
theorem cpp_nodes_paths : ∀ order : List Path, ((cppNodes t order).map (·.1)).Sublist order := by
  intro order
  induction order with
  | nil => exact List.Sublist.refl _
  | cons p order ih =>
    have hc : cppNodes t (p :: order) = (match t.descend p with | some n => [(p, n)] | none => []) ++ cppNodes t order := by
      unfold cppNodes
      rw [List.filterMap_cons]
      cases t.descend p <;> rfl
    rw [hc]
    cases t.descend p with
    | none => exact ih.trans (List.sublist_cons_self _ _)
    | some n => exact ih.cons_cons _

omit h hf in
theorem cpp_nodes_split {l1 l2 : List (Path × Tree)} {e : Path × Tree} : ∀ {order : List Path}, cppNodes t order = l1 ++ e :: l2 →
    ∃ o1 o2, order = o1 ++ e.1 :: o2 ∧ cppNodes t o1 = l1 := by
  intro order he
  unfold cppNodes at he
  obtain ⟨o1, o2, rfl, h1, h2⟩ := List.filterMap_eq_append_iff.mp he
  obtain ⟨o3, p, o4, rfl, h3, h4, h5⟩ := List.filterMap_eq_cons_iff.mp h2
  obtain ⟨n, _, rfl⟩ := Option.map_eq_some_iff.mp h4
  refine ⟨o1 ++ o3, o4, by simp, ?_⟩
  unfold cppNodes
  rw [List.filterMap_append, h1, List.filterMap_eq_nil_iff.mpr h3, List.append_nil]

theorem cpp_names_nodup (hr : CppArchivesNameable t) (hnd : order.Nodup) : ((cppProgramText t X order).flatMap cppNames).Nodup := by
  have hpaths : (cppNodes t order).Pairwise fun e e' => e.1 ≠ e'.1 := by
    have := (cpp_nodes_paths (t := t) order).nodup hnd
    unfold List.Nodup at this
    rwa [List.pairwise_map] at this
  unfold cppProgramText
  rw [List.flatMap_append, List.flatMap_assoc, List.flatMap_assoc, List.nodup_append]
  refine ⟨?_, ?_, ?_⟩
  · rw [List.nodup_flatMap]
    constructor
    · intro e he
      rw [decl_names h hf]
      split
      · rename_i hd
        obtain ⟨ns, m, h1, h2, h3, h4⟩ := definition_parent h hf (cpp_nodes_mem.mp he).2 hd
        refine List.Nodup.map (fun a b hab => by simpa using hab) ?_
        exact (List.nodup_flatMap.mp (List.nodup_cons.mp (List.nodup_cons.mp (hr.types ns m h2 h3)).2).2).1 _ h4
      · exact List.nodup_nil
    · refine hpaths.imp_of_mem fun {e e'} he he' hne x hx hx' => ?_
      obtain ⟨ns, m, y, h1, h2, h3, h4, h5, h6, _⟩ := decl_name_parent h hf (cpp_nodes_mem.mp he).2 hx
      obtain ⟨ns', m', y', h1', h2', h3', h4', h5', h6', _⟩ := decl_name_parent h hf (cpp_nodes_mem.mp he').2 hx'
      rw [h6] at h6'
      obtain ⟨rfl, hy⟩ := List.append_inj' h6' rfl
      injection hy with hy
      subst hy
      rw [h2] at h2'; cases h2'
      have := space_child hr h2 h3 h4 h4' h5 h5'
      rw [this] at h1
      exact hne (h1.trans h1'.symm)
  · rw [List.nodup_flatMap]
    constructor
    · intro e he
      rw [def_names h hf]
      by_cases hd : Spec.Kind.isDefinition e.2.kind = true
      · obtain ⟨ns, m, h1, h2, h3, h4⟩ := definition_parent h hf (cpp_nodes_mem.mp he).2 hd
        refine List.Nodup.map (fun a b hab => by simpa using hab) ?_
        exact (List.nodup_flatMap.mp (hr.schemas ns m h2 h3)).1 _ h4
      · unfold schemaNames
        cases hk : e.2.kind <;> rw [hk] at hd <;> first | exact List.nodup_nil | exact absurd rfl hd
    · refine hpaths.imp_of_mem fun {e e'} he he' hne x hx hx' => ?_
      obtain ⟨ns, m, y, h1, h2, h3, h4, h5, h6⟩ := def_name_parent h hf X (cpp_nodes_mem.mp he).2 hx
      obtain ⟨ns', m', y', h1', h2', h3', h4', h5', h6'⟩ := def_name_parent h hf X (cpp_nodes_mem.mp he').2 hx'
      rw [h6] at h6'
      obtain ⟨rfl, hy⟩ := List.append_inj' h6' rfl
      simp only [List.cons.injEq, and_true, true_and] at hy
      have hy := List.append_cancel_right hy
      subst hy
      rw [h2] at h2'; cases h2'
      have : e.2 = e'.2 := by
        by_contra hcc
        have : List.Disjoint (schemaNames e.2) (schemaNames e'.2) :=
          @List.Pairwise.forall _ _ _ ⟨fun _ _ hd => List.Disjoint.symm hd⟩ (List.nodup_flatMap.mp (hr.schemas _ m h2 h3)).2 _ h4 _ h4' hcc
        exact this h5 h5'
      rw [this] at h1
      exact hne (h1.trans h1'.symm)
  · intro x hx x' hx' hxx
    subst hxx
    obtain ⟨e, he, hx⟩ := List.mem_flatMap.mp hx
    obtain ⟨e', he', hx'⟩ := List.mem_flatMap.mp hx'
    obtain ⟨ns, m, y, h1, h2, h3, h4, h5, h6, _⟩ := decl_name_parent h hf (cpp_nodes_mem.mp he).2 hx
    obtain ⟨ns', m', y', h1', h2', h3', h4', h5', h6'⟩ := def_name_parent h hf X (cpp_nodes_mem.mp he').2 hx'
    have : ns' ++ ["internal".toList, y' ++ "__schema__".toList] = (ns' ++ ["internal".toList]) ++ [y' ++ "__schema__".toList] := by simp
    rw [h6, this] at h6'
    obtain ⟨hns, _⟩ := List.append_inj' h6' rfl
    refine space_not_internal h hf hr (a := ns) (by unfold isNamespaceAt; rw [h2]; simp [Tree.isNamespace, h3]) h2' h3' (rest := []) hns

/-- Where names are. -/
theorem cpp_name_cases {x : Path} (hx : x ∈ (cppProgramText t X order).flatMap cppNames) : ∃ ns m, t.descend ns = some m ∧ m.kind = .namespace ∧
    ((∃ c ∈ m.children, Spec.Kind.isDefinition c.kind = true ∧ ∃ y ∈ spaceNames c, x = ns ++ [y]) ∨ ∃ z, x = ns ++ ["internal".toList, z]) := by
  unfold cppProgramText at hx
  rw [List.flatMap_append, List.flatMap_assoc, List.flatMap_assoc] at hx
  rcases List.mem_append.mp hx with hx | hx
  · obtain ⟨e, he, hx⟩ := List.mem_flatMap.mp hx
    obtain ⟨ns, m, y, h1, h2, h3, h4, h5, h6, h7⟩ := decl_name_parent h hf (cpp_nodes_mem.mp he).2 hx
    exact ⟨ns, m, h2, h3, .inl ⟨_, h4, h7, y, h5, h6⟩⟩
  · obtain ⟨e, he, hx⟩ := List.mem_flatMap.mp hx
    obtain ⟨ns, m, y, h1, h2, h3, h4, h5, h6⟩ := def_name_parent h hf X (cpp_nodes_mem.mp he).2 hx
    exact ⟨ns, m, h2, h3, .inr ⟨_, h6⟩⟩

omit h in
theorem inits_space {ns : Path} {m : Tree} (hm : t.descend ns = some m) (hmk : m.kind = .namespace) {x : Path} (hx : x <+: ns) : x = [] ∨ isNamespaceAt t x = true := by
  rcases Nat.eq_zero_or_pos x.length with h0 | h0
  · exact .inl (List.length_eq_zero_iff.mp h0)
  · right
    have := flat_prefix hf hm hmk x.length h0 hx.length_le
    rwa [← List.prefix_iff_eq_take.mp hx] at this

include hall in
/-- What namespaces there are. -/
theorem cpp_space_cases {x : Path} (hx : x ∈ (cppProgramText t X order).flatMap cppSpaces) :
    x = [] ∨ isNamespaceAt t x = true ∨ ∃ ns m, t.descend ns = some m ∧ m.kind = .namespace ∧ x = ns ++ ["internal".toList] := by
  obtain ⟨d, hd, hx⟩ := List.mem_flatMap.mp hx
  obtain ⟨⟨p, n⟩, h1, _, h3⟩ := (cpp_mem X).mp hd
  simp only at h1
  have plain : Spec.Kind.isDefinition n.kind = true → x ∈ p.dropLast.inits → x = [] ∨ isNamespaceAt t x = true ∨
      ∃ ns m, t.descend ns = some m ∧ m.kind = .namespace ∧ x = ns ++ ["internal".toList] := by
    intro hdef hx
    obtain ⟨ns, m, rfl, g1, g2, _⟩ := definition_parent h hf h1 hdef
    rw [List.dropLast_concat, List.mem_inits] at hx
    rcases inits_space hf g1 g2 hx with hx | hx
    · exact .inl hx
    · exact .inr (.inl hx)
  have inner : Spec.Kind.isDefinition n.kind = true → x ∈ (p.dropLast ++ ["internal".toList]).inits → x = [] ∨ isNamespaceAt t x = true ∨
      ∃ ns m, t.descend ns = some m ∧ m.kind = .namespace ∧ x = ns ++ ["internal".toList] := by
    intro hdef hx
    rw [List.mem_inits, List.prefix_concat_iff] at hx
    rcases hx with rfl | hx
    · obtain ⟨ns, m, rfl, g1, g2, _⟩ := definition_parent h hf h1 hdef
      rw [List.dropLast_concat]
      exact .inr (.inr ⟨ns, m, g1, g2, rfl⟩)
    · exact plain hdef ((List.mem_inits _ _).mpr hx)
  rcases cpp_items h hf X hall h3 with ⟨_, hk, rfl | rfl⟩ | ⟨_, hk, rfl⟩ | ⟨_, _, hk, rfl⟩ | ⟨hk, rfl | rfl | ⟨_, _, rfl⟩ | rfl | rfl⟩
  · exact plain (by simp only at hk; rw [hk]; rfl) hx
  · exact inner (by simp only at hk; rw [hk]; rfl) hx
  · exact plain (by simp only at hk; rw [hk]; rfl) hx
  · exact plain (by simp only at hk; rw [hk]; rfl) hx
  · exact plain (by simp only at hk; rw [hk]; rfl) hx
  · exact inner (by simp only at hk; rw [hk]; rfl) hx
  · exact inner (by simp only at hk; rw [hk]; rfl) hx
  · exact plain (by simp only at hk; rw [hk]; rfl) hx
  · exact plain (by simp only at hk; rw [hk]; rfl) hx

include hall in
theorem cpp_function_cases {x : Path} (hx : x ∈ (cppProgramText t X order).flatMap cppFunctions) :
    ∃ ns m, t.descend ns = some m ∧ m.kind = .namespace ∧ x = ns ++ ["to_string".toList] := by
  obtain ⟨d, hd, hx⟩ := List.mem_flatMap.mp hx
  obtain ⟨⟨p, n⟩, h1, _, h3⟩ := (cpp_mem X).mp hd
  simp only at h1
  rcases cpp_items h hf X hall h3 with ⟨_, hk, rfl | rfl⟩ | ⟨_, hk, rfl⟩ | ⟨_, _, hk, rfl⟩ | ⟨hk, rfl | rfl | ⟨_, _, rfl⟩ | rfl | rfl⟩
  case inr.inl =>
    simp only at hk
    obtain ⟨ns, m, rfl, g1, g2, _⟩ := definition_parent h hf h1 (by rw [hk]; rfl)
    simp only [cppFunctions, List.mem_singleton, List.dropLast_concat] at hx
    exact ⟨ns, m, g1, g2, hx⟩
  all_goals cases hx

include hall in
theorem cpp_distinct (hr : CppArchivesNameable t) (hnd : order.Nodup) : CppDistinct (cppProgramText t X order) := by
  have hspace : ∀ {ns : Path} {m : Tree}, t.descend ns = some m → m.kind = .namespace → isNamespaceAt t ns = true := by
    intro ns m h1 h2
    unfold isNamespaceAt; rw [h1]; simp [Tree.isNamespace, h2]
  refine ⟨cpp_names_nodup h hf X hr hnd, ?_, ?_⟩
  · intro x hx hx'
    obtain ⟨ns, m, h1, h2, h3⟩ := cpp_name_cases h hf X hx'
    rcases cpp_space_cases h hf X hall hx with rfl | hsp | ⟨ns', m', g1, g2, rfl⟩
    · rcases h3 with ⟨_, _, _, _, _, h4⟩ | ⟨_, h4⟩ <;> simp at h4
    · rcases h3 with ⟨c, h4, h5, y, h6, rfl⟩ | ⟨z, rfl⟩
      · exact space_not_name h hf hr hsp h1 h2 h4 h5 h6 rfl
      · exact space_not_internal h hf hr hsp h1 h2 rfl
    · rcases h3 with ⟨c, h4, h5, y, h6, h7⟩ | ⟨z, h7⟩
      · obtain ⟨rfl, h8⟩ := List.append_inj' h7 rfl
        injection h8 with h8
        subst h8
        rw [h1] at g1; cases g1
        exact (space_reserved hr h1 h2 h4 h6).1 rfl
      · have : ns ++ ["internal".toList, z] = (ns ++ ["internal".toList]) ++ [z] := by simp
        rw [this] at h7
        obtain ⟨h8, _⟩ := List.append_inj' h7 rfl
        exact space_not_internal h hf hr (hspace g1 g2) h1 h2 (rest := []) h8
  · intro x hx
    obtain ⟨ns', m', g1, g2, rfl⟩ := cpp_function_cases h hf X hall hx
    constructor
    · intro hx'
      obtain ⟨ns, m, h1, h2, h3⟩ := cpp_name_cases h hf X hx'
      rcases h3 with ⟨c, h4, h5, y, h6, h7⟩ | ⟨z, h7⟩
      · obtain ⟨rfl, h8⟩ := List.append_inj' h7 rfl
        injection h8 with h8
        subst h8
        rw [h1] at g1; cases g1
        exact (space_reserved hr h1 h2 h4 h6).2 rfl
      · have : ns ++ ["internal".toList, z] = (ns ++ ["internal".toList]) ++ [z] := by simp
        rw [this] at h7
        obtain ⟨h8, _⟩ := List.append_inj' h7 rfl
        exact space_not_internal h hf hr (hspace g1 g2) h1 h2 (rest := []) h8
    · intro hx'
      rcases cpp_space_cases h hf X hall hx' with h7 | hsp | ⟨ns, m, h1, h2, h7⟩
      · simp at h7
      · exact space_not_to_string h hf hr hsp g1 g2 (rest := []) rfl
      · obtain ⟨_, h8⟩ := List.append_inj' h7 rfl
        injection h8 with h8
        exact absurd h8 (by decide)

end

/-! ## Types are declared before they are used -/

theorem flatMap_split {α β : Type _} {g : α → List β} {l : List α} {before after : List β} {x : β} (h : l.flatMap g = before ++ x :: after) :
    ∃ l1 e l2, l = l1 ++ e :: l2 ∧ x ∈ g e ∧ ∀ y ∈ l1.flatMap g, y ∈ before := by
  induction l generalizing before with
  | nil => simp at h
  | cons a l ih =>
    rw [List.flatMap_cons] at h
    rcases List.append_eq_append_iff.mp h with ⟨c, h1, h2⟩ | ⟨c, h1, h2⟩
    · obtain ⟨l1, e, l2, e1, e2, e3⟩ := ih h2
      refine ⟨a :: l1, e, l2, by rw [e1]; rfl, e2, fun y hy => ?_⟩
      rw [List.flatMap_cons] at hy
      rw [h1]
      rcases List.mem_append.mp hy with hy | hy
      · exact List.mem_append_left _ hy
      · exact List.mem_append_right _ (e3 y hy)
    · cases c with
      | nil =>
        obtain ⟨l1, e, l2, e1, e2, e3⟩ := ih (before := []) h2.symm
        refine ⟨a :: l1, e, l2, by rw [e1]; rfl, e2, fun y hy => ?_⟩
        rw [List.flatMap_cons] at hy
        rcases List.mem_append.mp hy with hy | hy
        · rw [h1, List.append_nil] at hy; exact hy
        · exact absurd (e3 y hy) (by simp)
      | cons z c =>
        rw [List.cons_append] at h2
        injection h2 with h2 h3
        subst h2
        exact ⟨[], a, l, rfl, by rw [h1]; simp, by simp⟩

section
variable {source : Text} {t : Tree} (h : Compile source (.ok t)) (hf : Flat t) (X : Path → Text) {order : List Path} (hnd : order.Nodup)
  (hall : ∀ p m, t.descend p = some m → (∀ rk, m.kind ≠ .ref rk) → p ∈ order)
  (hbefore : ∀ p k q, p ∈ order → Walk (depChildren t) (k + 1) p q → Before order q p)
include h hf

/-- The type that is declared for a node. -/
theorem declared_type {q : Path} {x : Tree} (hx : t.descend q = some x) (hk : (∃ sz, x.kind = .structure sz) ∨ x.kind = .archive) :
    colonPath q ∈ (cppDeclText (q, x)).flatMap cppTypes ∧ (x.kind = .archive → colonPath q ++ "Builder".toList ∈ (cppDeclText (q, x)).flatMap cppTypes) := by
  have hdef : Spec.Kind.isDefinition x.kind = true := by
    rcases hk with ⟨sz, hk⟩ | hk <;> rw [hk] <;> rfl
  have hfull := full_name h hf hx hdef
  unfold cppDeclText
  rcases hk with ⟨sz, hk⟩ | hk
  · simp [hk, cppTypes, cppStructText, hfull]
  · have : cppFullName q.dropLast (x.name ++ "Builder".toList) = colonPath q ++ "Builder".toList := by
      rw [← hfull]
      unfold cppFullName
      simp
    simp only [hk, List.flatMap_cons, List.flatMap_nil, List.append_nil, cppTypes, hfull, this]
    simp

/-- What an archive uses: types of nodes that its resources refer to. -/
theorem resource_uses {p : Path} {n : Tree} (hn : t.descend p = some n) {r : Tree} (hrm : r ∈ n.plainResources) {y : Text}
    (hy : y ∈ cppReaderUses (readerText r) ∨ y ∈ cppWriterUses (writerOf (readerText r))) :
    ∃ q x, Walk (depChildren t) 2 p q ∧ t.descend q = some x ∧ ((∃ sz, x.kind = .structure sz) ∨ x.kind = .archive) ∧ y ∈ (cppDeclText (q, x)).flatMap cppTypes := by
  have hc := compile_compiled h
  obtain ⟨g1, k, o, m, hrk, hkb⟩ := plain_resource hrm
  have hrd := hc.child hn g1
  obtain ⟨h1, h2, h3, h4⟩ := resource_refs h hrd hrk
  have hnr : ∀ k, r.kind ≠ .ref k := by intro k hk; rw [hrk] at hk; cases hk
  have hstruct : ∀ ref ∈ childrenOf r (.ref .structure), ∃ q x, Walk (depChildren t) 2 p q ∧ t.descend q = some x ∧
      ((∃ sz, x.kind = .structure sz) ∨ x.kind = .archive) ∧ colonPath ref.targetPath ∈ (cppDeclText (q, x)).flatMap cppTypes := by
    intro ref hm
    obtain ⟨f1, f2, _, _, x, f3, f4⟩ := h4 _ ref hm
    exact ⟨_, x, walk_resource hc hn g1 hnr f1 f2 (by rfl), f3, .inl f4, (declared_type h hf f3 (.inl f4)).1⟩
  have hindex : ∀ ref ∈ childrenOf r (.ref .builtinStructure), ∃ q x, Walk (depChildren t) 2 p q ∧ t.descend q = some x ∧
      ((∃ sz, x.kind = .structure sz) ∨ x.kind = .archive) ∧ colonPath ref.targetPath ∈ (cppDeclText (q, x)).flatMap cppTypes := by
    intro ref hm
    obtain ⟨f1, f2, _, _, x, f3, f4⟩ := h4 _ ref hm
    exact ⟨_, x, walk_resource hc hn g1 hnr f1 f2 (by rfl), f3, .inl f4, (declared_type h hf f3 (.inl f4)).1⟩
  unfold readerText at hy
  rw [hrk] at hy
  cases k with
  | bound => exact absurd rfl hkb
  | rawData => simp [cppReaderUses, cppWriterUses, writerOf] at hy
  | vector =>
    obtain ⟨ref, e1, e2, e3⟩ := h1 (.inl rfl)
    simp only [cppReaderUses, cppWriterUses, writerOf, List.mem_singleton, or_self, e3] at hy
    subst hy
    exact hstruct ref (by rw [e1]; simp)
  | «instance» =>
    obtain ⟨ref, e1, e2, e3⟩ := h1 (.inr rfl)
    simp only [cppReaderUses, cppWriterUses, writerOf, List.mem_singleton, or_self, e3] at hy
    subst hy
    exact hstruct ref (by rw [e1]; simp)
  | multivector w =>
    obtain ⟨ref, e1, e3, e4⟩ := h2 w rfl
    simp only [cppReaderUses, cppWriterUses, writerOf, List.mem_cons, List.mem_map, or_self, e3] at hy
    rcases hy with rfl | ⟨ref', hm, rfl⟩
    · exact hindex ref (by rw [e1]; simp)
    · exact hstruct ref' hm
  | archive =>
    obtain ⟨ref, e1, e3⟩ := h3 rfl
    obtain ⟨f1, f2, _, _, x, f3, f4⟩ := h4 .archive ref (by rw [e1]; simp)
    have f4 : x.kind = .archive := f4
    simp only [cppReaderUses, cppWriterUses, writerOf, List.mem_singleton, e3] at hy
    refine ⟨_, x, walk_resource hc hn g1 hnr f1 f2 (by rfl), f3, .inr f4, ?_⟩
    rcases hy with rfl | rfl
    · exact (declared_type h hf f3 (.inr f4)).1
    · exact (declared_type h hf f3 (.inr f4)).2 f4

include hnd hall hbefore

theorem cpp_declared : CppDeclared (cppProgramText t X order) := by
  intro before item after he y hy
  have huse : ∀ e : Path × Tree, t.descend e.1 = some e.2 → item ∈ cppDeclText e ∨ item ∈ cppDefText X e → ∃ q x, Walk (depChildren t) 2 e.1 q ∧ t.descend q = some x ∧
      ((∃ sz, x.kind = .structure sz) ∨ x.kind = .archive) ∧ y ∈ (cppDeclText (q, x)).flatMap cppTypes := by
    rintro ⟨p, n⟩ hn hi
    simp only at hn
    rcases cpp_items h hf X hall hi with ⟨_, hk, rfl | rfl⟩ | ⟨_, hk, rfl⟩ | ⟨_, _, hk, rfl⟩ | ⟨hk, rfl | rfl | ⟨_, _, rfl⟩ | rfl | rfl⟩
    case inr.inr.inr.inl =>
      simp only [cppUses, List.mem_append, List.mem_flatMap, List.mem_map, exists_exists_and_eq_and] at hy
      rcases hy with ⟨r, hr, hy⟩ | ⟨r, hr, hy⟩
      · exact resource_uses h hf hn hr (.inl hy)
      · refine resource_uses h hf hn ?_ (.inr hy)
        rcases hr with hr | hr
        · exact (simple_mem.mp hr).1
        · exact (nested_mem.mp hr).1
    case inr.inr.inr.inr.inr.inr.inr =>
      simp only [cppUses, List.mem_flatMap, List.mem_map, exists_exists_and_eq_and] at hy
      obtain ⟨r, hr, hy⟩ := hy
      exact resource_uses h hf hn (simple_mem.mp hr).1 (.inr hy)
    all_goals cases hy
  have hdecl : ∀ {q : Path} {x : Tree} {l : List (Path × Tree)}, y ∈ (cppDeclText (q, x)).flatMap cppTypes → (q, x) ∈ l → ∃ d ∈ l.flatMap cppDeclText, y ∈ cppTypes d := by
    intro q x l hy hm
    obtain ⟨d, hd, hyd⟩ := List.mem_flatMap.mp hy
    exact ⟨d, List.mem_flatMap.mpr ⟨_, hm, hd⟩, hyd⟩
  unfold cppProgramText at he
  rcases List.append_eq_append_iff.mp he with ⟨c, h1, h2⟩ | ⟨c, h1, h2⟩
  · obtain ⟨l1, e, l2, e1, e2, _⟩ := flatMap_split h2
    have hem : e ∈ cppNodes t order := by rw [e1]; simp
    obtain ⟨q, x, g1, g2, g3, g4⟩ := huse e (cpp_nodes_mem.mp hem).2 (.inr e2)
    have hq : q ∈ order := hall q x g2 (by rcases g3 with ⟨sz, g3⟩ | g3 <;> rw [g3] <;> simp)
    obtain ⟨d, hd, hyd⟩ := hdecl g4 (cpp_nodes_mem.mpr ⟨hq, g2⟩)
    rw [h1]
    exact List.mem_flatMap.mpr ⟨d, List.mem_append_left _ hd, hyd⟩
  · cases c with
    | nil =>
      obtain ⟨l1, e, l2, e1, e2, _⟩ := flatMap_split (before := []) h2.symm
      have hem : e ∈ cppNodes t order := by rw [e1]; simp
      obtain ⟨q, x, g1, g2, g3, g4⟩ := huse e (cpp_nodes_mem.mp hem).2 (.inr e2)
      have hq : q ∈ order := hall q x g2 (by rcases g3 with ⟨sz, g3⟩ | g3 <;> rw [g3] <;> simp)
      obtain ⟨d, hd, hyd⟩ := hdecl g4 (cpp_nodes_mem.mpr ⟨hq, g2⟩)
      rw [h1, List.append_nil] at hd
      exact List.mem_flatMap.mpr ⟨d, hd, hyd⟩
    | cons z c =>
      rw [List.cons_append] at h2
      injection h2 with h2 h3
      subst h2
      obtain ⟨l1, e, l2, e1, e2, e3⟩ := flatMap_split h1
      have hem : e ∈ cppNodes t order := by rw [e1]; simp
      obtain ⟨q, x, g1, g2, g3, g4⟩ := huse e (cpp_nodes_mem.mp hem).2 (.inl e2)
      have hq : q ∈ order := hall q x g2 (by rcases g3 with ⟨sz, g3⟩ | g3 <;> rw [g3] <;> simp)
      have hbef := hbefore e.1 1 q (cpp_nodes_mem.mp hem).1 g1
      have hql : (q, x) ∈ l1 := by
        obtain ⟨o1, o2, ho, rfl⟩ := cpp_nodes_split e1
        rw [ho] at hbef hnd
        exact cpp_nodes_mem.mpr ⟨before_mem hnd hbef, g2⟩
      obtain ⟨d, hd, hyd⟩ := hdecl g4 hql
      exact List.mem_flatMap.mpr ⟨d, e3 d hd, hyd⟩

end

/-! ## The program -/

section
variable {source : Text} {t : Tree} (h : Compile source (.ok t)) (hf : Flat t) (hb : NoBuiltin t)
include h hf hb

/-- The generator writes one program. -/
theorem cpp_program_exists : ∃ (Y : Path → Text) (order : List Path), CppArchives t (.ok (cppProgramText t Y order)) ∧
    (∀ out, CppArchives t out → out = .ok (cppProgramText t Y order)) ∧
    (∀ q m, t.descend q = some m → Printable m.kind = true → Schema t q (.ok (Y q)) ∧ SchemaChars (Y q)) ∧ order.Nodup ∧
    (∀ p m, t.descend p = some m → (∀ rk, m.kind ≠ .ref rk) → p ∈ order) ∧
    ∀ p k q, p ∈ order → Walk (depChildren t) (k + 1) p q → Before order q p := by
  have hc := compile_compiled h
  obtain ⟨N0, events, hrun0, hnd, hall, hbefore⟩ := order_exists h
  let L := (t.iter []).map (·.1)
  have hmemL : ∀ {p : Path} {m : Tree}, t.descend p = some m → p ∈ L := by
    intro p m hm
    simp only [L, List.mem_map, Prod.exists, exists_and_right, exists_eq_right, iter_descend hc.lk.good]
    exact ⟨m, hm⟩
  obtain ⟨N1, hn1⟩ := common_bound (P := fun q n => ∀ m, t.descend q = some m → Printable m.kind = true → ∃ x, schemaN t q n = some (.ok x))
    (by
      intro q n m hP hnm u hu hp
      obtain ⟨x, hx⟩ := hP u hu hp
      exact ⟨x, schemaN_mono hx hnm⟩) L (by
      intro q _
      by_cases hq : ∃ m, t.descend q = some m ∧ Printable m.kind = true
      · obtain ⟨m, hm, hp⟩ := hq
        have hp' := hp
        unfold Printable at hp'
        rw [Bool.or_eq_true] at hp'
        obtain ⟨x, ⟨n, hx⟩, _⟩ := C56_schema h hf hb hm hp'
        exact ⟨n, fun _ _ _ => ⟨x, hx⟩⟩
      · exact ⟨0, fun m hm hp => absurd ⟨m, hm, hp⟩ hq⟩)
  let N := max N0 N1
  let sch : Nat → Path → Gen.M Text := fun N q => (schemaN t q N).getD (throw .runtimeError)
  let Y : Path → Text := fun q => match sch N1 q with | .ok x => x | .error _ => []
  have hget : ∀ M, N1 ≤ M → ∀ q m, t.descend q = some m → Printable m.kind = true → schemaN t q M = some (.ok (Y q)) := by
    intro M hM q m hm hp
    obtain ⟨x, hx⟩ := hn1 q (hmemL hm) m hm hp
    have : Y q = x := by simp only [Y, sch]; rw [hx]; rfl
    rw [this]
    exact schemaN_mono hx hM
  have hpaths : ∀ e ∈ cppNodes t (dependencyOrder events), ∀ q ∈ cppSchemaPaths e, ∃ m, t.descend q = some m ∧ Printable m.kind = true := by
    intro e he q hq
    have hd := (cpp_nodes_mem.mp he).2
    unfold cppSchemaPaths at hq
    split at hq
    · rename_i hk
      rw [List.mem_singleton] at hq
      subst hq
      exact ⟨e.2, hd, by rw [hk]; rfl⟩
    · rename_i hk
      unfold schemaPaths at hq
      rcases List.mem_cons.mp hq with rfl | hq
      · exact ⟨e.2, hd, by rw [hk]; rfl⟩
      · obtain ⟨r, hr, rfl⟩ := List.mem_map.mp hq
        obtain ⟨g1, k, o, m, g2, _⟩ := plain_resource hr
        exact ⟨r, hc.child hd g1, by rw [g2]; rfl⟩
    · cases hq
  have hrun : ∀ M, Dfs.run (depChildren t) M (Dfs.init []) = some (.ok events) →
      (∀ e ∈ cppNodes t (dependencyOrder events), ∀ q ∈ cppSchemaPaths e, schemaN t q M = some (.ok (Y q))) →
      cppArchivesN t M = some (.ok (cppProgramText t Y (dependencyOrder events))) := by
    intro M hev hM
    unfold cppArchivesN
    rw [hev]
    simp only
    rw [if_pos]
    · rw [mapM_map (g := cppDeclText) fun e he => cpp_decl_ok h hf (cpp_nodes_mem.mp he).2]
      simp only [bind, Except.bind]
      rw [mapM_map (g := cppDefText Y) fun e he => cpp_def_ok h hf (fun q hq => by rw [hM e he q hq]; rfl) (cpp_nodes_mem.mp he).2]
      show some (Except.ok _) = _
      unfold cppProgramText
      rw [List.flatMap_def, List.flatMap_def]
    · rw [List.all_eq_true]
      intro q hq
      obtain ⟨e, he, hq⟩ := List.mem_flatMap.mp hq
      rw [hM e he q hq]; rfl
  refine ⟨Y, dependencyOrder events, ⟨N, hrun N (dfs_run_mono _ hrun0 (Nat.le_max_left _ _)) fun e he q hq => ?_⟩, ?_, ?_, hnd, hall, hbefore⟩
  · obtain ⟨m, hm, hp⟩ := hpaths e he q hq
    exact hget N (Nat.le_max_right _ _) q m hm hp
  · rintro out ⟨M, hM⟩
    have hev : Dfs.run (depChildren t) M (Dfs.init []) = some (.ok events) := by
      unfold cppArchivesN at hM
      cases hd : Dfs.run (depChildren t) M (Dfs.init []) with
      | none => rw [hd] at hM; cases hM
      | some z =>
        have h1 := dfs_run_mono _ hd (Nat.le_max_right N0 M)
        rw [dfs_run_mono _ hrun0 (Nat.le_max_left N0 M)] at h1
        exact h1.symm
    have hall : ∀ e ∈ cppNodes t (dependencyOrder events), ∀ q ∈ cppSchemaPaths e, schemaN t q M = some (.ok (Y q)) := by
      intro e he q hq
      obtain ⟨m, hm, hp⟩ := hpaths e he q hq
      unfold cppArchivesN at hM
      rw [hev] at hM
      simp only at hM
      split at hM
      · rename_i hall
        rw [List.all_eq_true] at hall
        have := hall q (List.mem_flatMap.mpr ⟨e, he, hq⟩)
        obtain ⟨z, hz⟩ := Option.isSome_iff_exists.mp this
        have h1 := schemaN_mono hz (Nat.le_max_right N1 M)
        rw [hget _ (Nat.le_max_left N1 M) q m hm hp] at h1
        cases h1
        exact hz
      · cases hM
    rw [hrun M hev hall] at hM
    exact (Option.some.inj hM).symm
  · intro q m hm hp
    have hx := hget N1 (Nat.le_refl _) q m hm hp
    exact ⟨⟨N1, hx⟩, hc.schars hf hb hm hp ⟨N1, hx⟩⟩

end

/-! ## There is one answer -/

theorem cppOpens_unique {prog : List CppItem} {q : Text} {a a' x x' : String} {rs rs' : List RustResource} (h : CppOpens prog q a x rs)
    (h' : CppOpens prog q a' x' rs') : a = a' ∧ x = x' ∧ rs = rs' := by
  revert a' x' rs'
  refine CppOpens.rec (prog := prog) (motive_1 := fun s l d m a _ => ∀ b, CppReads prog s l d m b → a = b)
    (motive_2 := fun s l d ms a _ => ∀ b, CppReadsAll prog s l d ms b → a = b)
    (motive_3 := fun q a x rs _ => ∀ {a' x' rs'}, CppOpens prog q a' x' rs' → a = a' ∧ x = x' ∧ rs = rs') ?_ ?_ ?_ ?_ ?_ ?_ ?_ ?_ h
  · intro scope reads loads m type size overlapping ranges l x limit k1 s1 l1 x1 m1 b hb
    cases hb with
    | vector k2 s2 l2 x2 m2 =>
      rw [k1] at k2; cases k2
      rw [s1] at s2; cases s2
      rw [l1] at l2; cases l2
      rw [x1] at x2; cases x2
      rw [m1] at m2; cases m2
      rfl
    | «instance» k2 => rw [k1] at k2; cases k2
    | multivector k2 => rw [k1] at k2; cases k2
    | rawData k2 => rw [k1] at k2; cases k2
    | archive k2 => rw [k1] at k2; cases k2
  · intro scope reads loads m type size overlapping ranges l x k1 s1 l1 x1 m1 b hb
    cases hb with
    | «instance» k2 s2 l2 x2 m2 =>
      rw [k1] at k2; cases k2
      rw [s1] at s2; cases s2
      rw [l1] at l2; cases l2
      rw [x1] at x2; cases x2
      rfl
    | vector k2 => rw [k1] at k2; cases k2
    | multivector k2 => rw [k1] at k2; cases k2
    | rawData k2 => rw [k1] at k2; cases k2
    | archive k2 => rw [k1] at k2; cases k2
  · intro scope reads loads m l x limit k1 l1 x1 m1 b hb
    cases hb with
    | rawData k2 l2 x2 m2 =>
      rw [l1] at l2; cases l2
      rw [x1] at x2; cases x2
      rw [m1] at m2; cases m2
      rfl
    | vector k2 => rw [k1] at k2; cases k2
    | «instance» k2 => rw [k1] at k2; cases k2
    | multivector k2 => rw [k1] at k2; cases k2
    | archive k2 => rw [k1] at k2; cases k2
  · intro scope reads loads m index elements w sizes l x limit k1 w1 s1 l1 x1 m1 b hb
    cases hb with
    | multivector k2 w2 s2 l2 x2 m2 =>
      rw [k1] at k2; cases k2
      rw [w1] at w2; cases w2
      rw [l1] at l2; cases l2
      rw [x1] at x2; cases x2
      rw [m1] at m2; cases m2
      rfl
    | vector k2 => rw [k1] at k2; cases k2
    | «instance» k2 => rw [k1] at k2; cases k2
    | rawData k2 => rw [k1] at k2; cases k2
    | archive k2 => rw [k1] at k2; cases k2
  · intro scope reads loads m type file name x resources k1 l1 o1 ih b hb
    cases hb with
    | archive k2 l2 o2 =>
      rw [k1] at k2; cases k2
      rw [l1] at l2; cases l2
      obtain ⟨rfl, rfl, rfl⟩ := ih o2
      rfl
    | vector k2 => rw [k1] at k2; cases k2
    | «instance» k2 => rw [k1] at k2; cases k2
    | rawData k2 => rw [k1] at k2; cases k2
    | multivector k2 => rw [k1] at k2; cases k2
  · intro scope reads loads b hb
    cases hb; rfl
  · intro scope reads loads m ms x xs h hs ih1 ih2 b hb
    cases hb with
    | cons h' hs' =>
      cases ih1 _ h'
      cases ih2 _ hs'
      rfl
  · intro q scope members builders file schema reads loads x resources a1 i1 x1 _ o1 ih a' x' rs' hb
    cases hb with
    | mk a2 i2 x2 _ o2 =>
      rw [a1] at a2; cases a2
      rw [i1] at i2; cases i2
      rw [x1] at x2; cases x2
      cases ih _ o2
      exact ⟨rfl, rfl, rfl⟩

/-! ## The theorems -/

/-- **C100.** For every accepted schema whose namespaces are distinguished, without namespaces called `_builtin`, and whose names remain different
in C++: the generator writes one header; names in it are different, and every type is declared before it is used; for every archive of the
schema (at `p`) there is a class with its full name, what `open` of it reads is what the schema declares, and nothing else, and its builder
writes the same resources. -/
theorem C100_cpp {source : Text} {blocks : List PBlock} {t : Tree} (hs : parseSource source = .ok blocks) (h : Compile source (.ok t)) (hf : Flat t)
    (hb : NoBuiltin t) (hno : ∀ b ∈ blocks, "_builtin".toList ∉ splitDot b.name) (hr : CppArchivesNameable t) :
    ∃ prog, CppArchives t (.ok prog) ∧ (∀ out, CppArchives t out → out = .ok prog) ∧ CppDistinct prog ∧ CppDeclared prog ∧
      ∀ ns k n, t.descend (ns ++ [k]) = some n → n.kind = .archive → CppAgree prog (cppFullName ns k) ∧
        ∃ name schema rs, CppOpens prog (cppFullName ns k) name schema rs ∧
          ∀ name' schema' rs', CppOpens prog (cppFullName ns k) name' schema' rs' ↔ RustArchiveAt t (ns ++ [k]) name' schema' rs' := by
  obtain ⟨Y, order, h1, h2, h3, h4, h5, h6⟩ := cpp_program_exists h hf hb
  refine ⟨_, h1, h2, cpp_distinct h hf Y h5 hr h4, cpp_declared h hf Y h4 h5 h6, fun ns k n hn hk => ?_⟩
  rw [cppFullName_eq]
  refine ⟨cpp_agree h hf h5 hn hk, ?_⟩
  obtain ⟨name, x, rs, o1, o2⟩ := cpp_archive_opens hs h hf hno hr h5 h3 hn hk
  refine ⟨name, x, rs, o1, fun name' x' rs' => ⟨fun o => ?_, fun o => ?_⟩⟩
  · obtain ⟨rfl, rfl, rfl⟩ := cppOpens_unique o1 o
    exact o2
  · obtain ⟨rfl, rfl, rfl⟩ := rustArchiveAt_unique o2 o
    exact o1

/-- **C100 (elements).** For every multivector, the types of its elements in C++ are the structures that the schema lists, in this order, with
their sizes. -/
theorem C100_cpp_elements {source : Text} {t : Tree} (h : Compile source (.ok t)) (hf : Flat t)
    (hb : NoBuiltin t) {prog : List CppItem} (hp : CppArchives t (.ok prog))
    {ns : Path} {k : Text} {n r : Tree} {w : Nat} {o : Bool} {m : Option Nat} (hn : t.descend (ns ++ [k]) = some n) (hk : n.kind = .archive) (hrm : r ∈ resourcesOf n)
    (hrk : r.kind = .resource (.multivector w) o m) :
    ∃ members builders member index elements decls, cppArchiveAt prog (cppFullName ns k) = some (ns, members, builders) ∧ member ∈ members ∧ member.name = r.name ∧
      member.type = .multiArrayView (index :: elements) ∧ elements = (childrenOf r (.ref .structure)).map (fun ref => colonPath ref.targetPath) ∧
      TypesAt t (childrenOf r (.ref .structure)) decls ∧ cppSizes prog elements = some (decls.map fun d => byteSize d.2) := by
  have hc := compile_compiled h
  obtain ⟨Y, order, _, h2, h3, h4, h5, h6⟩ := cpp_program_exists h hf hb
  have := h2 _ hp
  injection this with this
  subst this
  rw [← show n.plainResources = resourcesOf n from plainResources_eq n] at hrm
  obtain ⟨g1, _⟩ := plain_resource hrm
  have hrd := hc.child hn g1
  obtain ⟨decls, d1, d2⟩ := cpp_sizes h hf (X := Y) h5 hrd hrk
  have ha := (cpp_archive_at h hf Y h5 hn hk).1
  rw [List.dropLast_concat] at ha
  have hcon : (memberText r).type = readerText r := rfl
  unfold readerText at hcon
  rw [hrk] at hcon
  exact ⟨_, _, memberText r, _, _, decls, ha, List.mem_map_of_mem hrm, rfl, hcon, rfl, d1, d2⟩

/-- No schema is empty. -/
theorem archive_schemas {source : Text} {blocks : List PBlock} {t : Tree} (hs : parseSource source = .ok blocks) (h : Compile source (.ok t)) (hf : Flat t)
    (hb : NoBuiltin t) (hno : ∀ b ∈ blocks, "_builtin".toList ∉ splitDot b.name) {p : Path} {name x : String} {rs : List RustResource}
    (hr : RustArchiveAt t p name x rs) : HaveSchemas rs ∧ x ≠ "" := by
  have hc := compile_compiled h
  refine RustArchiveAt.rec (t := t)
    (motive_1 := fun q r y _ => ∀ a, q = a ++ [r.name] → t.descend q = some r → ¬ InBuiltin a → HaveSchema y)
    (motive_2 := fun p l ys _ => (∀ r ∈ l, t.descend (p ++ [r.name]) = some r) → ¬ InBuiltin p → HaveSchemas ys)
    (motive_3 := fun p name x rs _ => HaveSchemas rs ∧ x ≠ "") ?_ ?_ ?_ ?_ ?_ ?_ ?_ ?_ hr
  · intro q r o m ref fs x k1 c1 f1 x1 a hq hd hnb
    subst hq
    exact ofList_ne (resource_schema_ne hc hf hb hd (by rw [k1]; rfl) hnb x1)
  · intro q r o m ref fs x k1 c1 f1 x1 a hq hd hnb
    subst hq
    exact ofList_ne (resource_schema_ne hc hf hb hd (by rw [k1]; rfl) hnb x1)
  · intro q r o m x k1 x1 a hq hd hnb
    subst hq
    exact ofList_ne (resource_schema_ne hc hf hb hd (by rw [k1]; rfl) hnb x1)
  · intro q r w o m x k1 x1 a hq hd hnb
    subst hq
    exact ofList_ne (resource_schema_ne hc hf hb hd (by rw [k1]; rfl) hnb x1)
  · intro q r o m ref name x rs k1 c1 a1 ih a hq hd hnb
    rw [HaveSchema]
    exact ⟨ih.2, ih.1⟩
  · exact fun _ _ => trivial
  · intro p r rs y ys _ _ ih1 ih2 hall hnb
    exact ⟨ih1 p rfl (hall r (by simp)) hnb, ih2 (fun r' hm => hall r' (by simp [hm])) hnb⟩
  · intro p n x rs n1 k1 x1 _ ih
    have hnb := archive_notBuiltin hs h hno n1 k1
    exact ⟨ih (fun r hm => hc.child n1 (List.mem_filter.mp hm).1) hnb, ofList_ne (schema_ne hc hf hb n1 (by rw [k1]; rfl) hnb x1)⟩

/-- **C100 (one archive in two languages).** For every accepted schema (as in C98 and C100) and every archive in it, the generated Rust struct and the generated C++ class have the same name, the same schema and the same resources. Whatever is in a
directory, if the Rust struct opens it, so does the C++ class, and they show the same contents. -/
theorem C100_same_archives {source : Text} {blocks : List PBlock} {t : Tree} (hs : parseSource source = .ok blocks) (h : Compile source (.ok t)) (hf : Flat t)
    (hb : NoBuiltin t) (hno : ∀ b ∈ blocks, NoBuiltinEnd (splitDot b.name)) (hr : RustArchivesNameable t) (hc : CppArchivesNameable t) :
    ∃ rust cpp, RustArchives t (.ok rust) ∧ CppArchives t (.ok cpp) ∧
      ∀ ns k n, t.descend (ns ++ [k]) = some n → n.kind = .archive → ∃ name schema rs, RustOpens rust (ns ++ [k]) name schema rs ∧
        CppOpens cpp (cppFullName ns k) name schema rs ∧
        ∀ f, SmallFiles f → ∀ l, rustOpen f name schema rs = .ok l → ∃ l', cppOpen f name schema rs = some l' ∧ SameShown rs l l' := by
  have hno' : ∀ b ∈ blocks, "_builtin".toList ∉ splitDot b.name := fun b hb => noEnd_not (hno b hb)
  obtain ⟨rust, h1, _, _, h2⟩ := C98_rust hs h hf hb hno hr
  obtain ⟨cpp, g1, _, _, _, g2⟩ := C100_cpp hs h hf hb hno' hc
  refine ⟨rust, cpp, h1, g1, fun ns k n hn hk => ?_⟩
  obtain ⟨name, schema, rs, o1, o2⟩ := h2 _ n hn hk
  obtain ⟨e4, e6⟩ := archive_schemas hs h hf hb hno' ((o2 _ _ _).mp o1)
  obtain ⟨_, _, _, _, _, q2⟩ := g2 ns k n hn hk
  exact ⟨name, schema, rs, o1, (q2 _ _ _).mpr ((o2 _ _ _).mp o1), fun f f1 l hl => C86_rust_then_cpp f f1 name schema e6 rs e4 l hl⟩

end Props
