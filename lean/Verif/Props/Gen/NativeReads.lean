import Verif.Props.Gen.NativeArchives

/-!
# C98: what generated Rust archives read
-/

namespace Props
open Py Gen Spec Model Model.Native _root_.Native

/-! ## There is one answer -/

theorem rustOpens_unique {prog : List RustDecl} {q : Path} {a a' x x' : String} {rs rs' : List RustResource} (h : RustOpens prog q a x rs)
    (h' : RustOpens prog q a' x' rs') : a = a' ∧ x = x' ∧ rs = rs' := by
  revert a' x' rs'
  refine RustOpens.rec (prog := prog) (motive_1 := fun s r a _ => ∀ b, RustReads prog s r b → a = b)
    (motive_2 := fun s l a _ => ∀ b, RustReadsAll prog s l b → a = b)
    (motive_3 := fun q a x rs _ => ∀ {a' x' rs'}, RustOpens prog q a' x' rs' → a = a' ∧ x = x' ∧ rs = rs') ?_ ?_ ?_ ?_ ?_ ?_ ?_ ?_ h
  · intro scope r type size ranges i x k1 s1 x1 b hb
    cases hb with
    | vector k2 s2 x2 =>
      rw [k1] at k2; cases k2
      rw [s1] at s2; cases s2
      rw [x1] at x2; cases x2
      rfl
    | «instance» k2 => rw [k1] at k2; cases k2
    | multivector k2 => rw [k1] at k2; cases k2
    | rawData k2 => rw [k1] at k2; cases k2
    | archive k2 => rw [k1] at k2; cases k2
  · intro scope r type size x k1 s1 x1 b hb
    cases hb with
    | «instance» k2 s2 x2 =>
      rw [k1] at k2; cases k2
      rw [s1] at s2; cases s2
      rw [x1] at x2; cases x2
      rfl
    | vector k2 => rw [k1] at k2; cases k2
    | multivector k2 => rw [k1] at k2; cases k2
    | rawData k2 => rw [k1] at k2; cases k2
    | archive k2 => rw [k1] at k2; cases k2
  · intro scope r x k1 x1 b hb
    cases hb with
    | rawData k2 x2 =>
      rw [x1] at x2; cases x2
      rfl
    | vector k2 => rw [k1] at k2; cases k2
    | «instance» k2 => rw [k1] at k2; cases k2
    | multivector k2 => rw [k1] at k2; cases k2
    | archive k2 => rw [k1] at k2; cases k2
  · intro scope r index v elements w sizes x k1 w1 s1 x1 b hb
    cases hb with
    | multivector k2 w2 s2 x2 =>
      rw [k1] at k2; cases k2
      rw [w1] at w2; cases w2
      rw [x1] at x2; cases x2
      rfl
    | vector k2 => rw [k1] at k2; cases k2
    | «instance» k2 => rw [k1] at k2; cases k2
    | rawData k2 => rw [k1] at k2; cases k2
    | archive k2 => rw [k1] at k2; cases k2
  · intro scope r type q name x resources k1 p1 o1 ih b hb
    cases hb with
    | archive k2 p2 o2 =>
      rw [k1] at k2; cases k2
      rw [p1] at p2; cases p2
      obtain ⟨rfl, rfl, rfl⟩ := ih o2
      rfl
    | vector k2 => rw [k1] at k2; cases k2
    | «instance» k2 => rw [k1] at k2; cases k2
    | rawData k2 => rw [k1] at k2; cases k2
    | multivector k2 => rw [k1] at k2; cases k2
  · intro scope b hb
    cases hb; rfl
  · intro scope r rs x xs h hs ih1 ih2 b hb
    cases hb with
    | cons h' hs' =>
      cases ih1 _ h'
      cases ih2 _ hs'
      rfl
  · intro q name schema rs x resources a1 x1 o1 ih a' x' rs' hb
    cases hb with
    | mk a2 x2 o2 =>
      rw [a1] at a2; cases a2
      rw [x1] at x2; cases x2
      cases ih _ o2
      exact ⟨rfl, rfl, rfl⟩

theorem fieldsAt_unique {t : Tree} {p : Path} {a b : List FieldDecl} (ha : FieldsAt t p a) (hb : FieldsAt t p b) : a = b := by
  obtain ⟨n, _, h1, _, rfl⟩ := ha
  obtain ⟨m, _, h2, _, rfl⟩ := hb
  rw [h1] at h2; cases h2; rfl

theorem rustArchiveAt_unique {t : Tree} {q : Path} {a a' x x' : String} {rs rs' : List RustResource} (h : RustArchiveAt t q a x rs)
    (h' : RustArchiveAt t q a' x' rs') : a = a' ∧ x = x' ∧ rs = rs' := by
  revert a' x' rs'
  refine RustArchiveAt.rec (t := t) (motive_1 := fun s r a _ => ∀ b, RustResourceAt t s r b → a = b)
    (motive_2 := fun s l a _ => ∀ b, RustResourcesAt t s l b → a = b)
    (motive_3 := fun q a x rs _ => ∀ {a' x' rs'}, RustArchiveAt t q a' x' rs' → a = a' ∧ x = x' ∧ rs = rs') ?_ ?_ ?_ ?_ ?_ ?_ ?_ ?_ h
  · intro q r o m ref fs x k1 c1 f1 x1 b hb
    cases hb with
    | vector k2 c2 f2 x2 =>
      rw [k1] at k2; rw [c1] at c2; cases k2; cases c2
      cases fieldsAt_unique f1 f2
      cases schema_unique x1 x2
      rfl
    | «instance» k2 => rw [k1] at k2; cases k2
    | multivector k2 => rw [k1] at k2; cases k2
    | rawData k2 => rw [k1] at k2; cases k2
    | archive k2 => rw [k1] at k2; cases k2
  · intro q r o m ref fs x k1 c1 f1 x1 b hb
    cases hb with
    | «instance» k2 c2 f2 x2 =>
      rw [k1] at k2; rw [c1] at c2; cases k2; cases c2
      cases fieldsAt_unique f1 f2
      cases schema_unique x1 x2
      rfl
    | vector k2 => rw [k1] at k2; cases k2
    | multivector k2 => rw [k1] at k2; cases k2
    | rawData k2 => rw [k1] at k2; cases k2
    | archive k2 => rw [k1] at k2; cases k2
  · intro q r o m x k1 x1 b hb
    cases hb with
    | rawData k2 x2 =>
      rw [k1] at k2; cases k2
      cases schema_unique x1 x2
      rfl
    | vector k2 => rw [k1] at k2; cases k2
    | «instance» k2 => rw [k1] at k2; cases k2
    | multivector k2 => rw [k1] at k2; cases k2
    | archive k2 => rw [k1] at k2; cases k2
  · intro q r w o m x k1 x1 b hb
    cases hb with
    | multivector k2 x2 =>
      rw [k1] at k2; cases k2
      cases schema_unique x1 x2
      rfl
    | vector k2 => rw [k1] at k2; cases k2
    | «instance» k2 => rw [k1] at k2; cases k2
    | rawData k2 => rw [k1] at k2; cases k2
    | archive k2 => rw [k1] at k2; cases k2
  · intro q r o m ref name x rs k1 c1 a1 ih b hb
    cases hb with
    | archive k2 c2 a2 =>
      rw [k1] at k2; rw [c1] at c2; cases k2; cases c2
      obtain ⟨rfl, rfl, rfl⟩ := ih a2
      rfl
    | vector k2 => rw [k1] at k2; cases k2
    | «instance» k2 => rw [k1] at k2; cases k2
    | rawData k2 => rw [k1] at k2; cases k2
    | multivector k2 => rw [k1] at k2; cases k2
  · intro p b hb
    cases hb; rfl
  · intro p r rs x xs h hs ih1 ih2 b hb
    cases hb with
    | cons h' hs' =>
      cases ih1 _ h'
      cases ih2 _ hs'
      rfl
  · intro p n x rs n1 k1 x1 o1 ih a' x' rs' hb
    cases hb with
    | mk n2 k2 x2 o2 =>
      rw [n1] at n2; cases n2
      cases schema_unique x1 x2
      cases ih _ o2
      exact ⟨rfl, rfl, rfl⟩

/-! ## Rust -/

theorem noEnd_not {name : Text} (h : NoBuiltinEnd (splitDot name)) : "_builtin".toList ∉ splitDot name :=
  fun hm => h _ hm (List.suffix_refl _)

/-- **C98.** For every accepted schema whose namespaces are distinguished, without names that end with `_builtin`, and whose names remain
different in Rust: the generator writes one program, the names in it are different, and every archive of the schema is in it, at its path;
what `open` of it reads is what the schema declares, and nothing else. -/
theorem C98_rust {source : Text} {blocks : List PBlock} {t : Tree} (hs : parseSource source = .ok blocks) (h : Compile source (.ok t)) (hf : Flat t)
    (hb : NoBuiltin t) (hno : ∀ b ∈ blocks, NoBuiltinEnd (splitDot b.name)) (hr : RustArchivesNameable t) :
    ∃ prog, RustArchives t (.ok prog) ∧ (∀ out, RustArchives t out → out = .ok prog) ∧ RustDistinct prog ∧
      ∀ p n, t.descend p = some n → n.kind = .archive → ∃ name schema rs, RustOpens prog p name schema rs ∧
        ∀ name' schema' rs', RustOpens prog p name' schema' rs' ↔ RustArchiveAt t p name' schema' rs' := by
  obtain ⟨Y, h1, h2, h3⟩ := program_exists hs h hf hb hno
  refine ⟨_, h1, h2, program_distinct hs h hf hno Y hr, fun p n hn hk => ?_⟩
  obtain ⟨name, x, rs, o1, o2⟩ := rust_archive_opens hs h hf hb hno hr h3 hn hk
  refine ⟨name, x, rs, o1, fun name' x' rs' => ⟨fun o => ?_, fun o => ?_⟩⟩
  · obtain ⟨rfl, rfl, rfl⟩ := rustOpens_unique o1 o
    exact o2
  · obtain ⟨rfl, rfl, rfl⟩ := rustArchiveAt_unique o2 o
    exact o1

/-! ## Python -/

section
variable {source : Text} {blocks : List PBlock} {t : Tree} (hs : parseSource source = .ok blocks) (h : Compile source (.ok t)) (hf : Flat t) (hb : NoBuiltin t)
  (hno : ∀ b ∈ blocks, "_builtin".toList ∉ splitDot b.name) (hw : ∀ q r o m, t.descend q = some r → r.kind ≠ .resource (.multivector 0) o m)
include hs h hf hb hno hw

theorem same_decls {p : Path} {name x : String} {rs : List RustResource} (hr : RustArchiveAt t p name x rs) : ∀ A, ArchiveAt t p A →
    ∃ ps, A = mkArchive name x ps ∧ SameDecls rs ps ∧ GoodNames rs ∧ HaveSchemas rs ∧ PlainName name ∧ x ≠ "" := by
  have hc := compile_compiled h
  have hplain : ∀ {q : Path} {n : Tree}, t.descend q = some n → (∀ rk, n.kind ≠ .ref rk) → ∀ k ∈ q, PlainName (String.ofList k) := by
    intro q n hn hk k hm
    have := (hc.names hn hk k hm).2
    unfold PlainName
    simp only [String.toList_ofList]
    exact ⟨fun h' => absurd (this _ h') (by decide), fun h' => absurd (this _ h') (by decide)⟩
  refine RustArchiveAt.rec (t := t)
    (motive_1 := fun q r y _ => ∀ a, q = a ++ [r.name] → t.descend q = some r → ¬ InBuiltin a → ∀ sig, ResourceAt t q r sig →
      (∀ rs ps, SameDecls rs ps → SameDecls (y :: rs) ((String.ofList r.name, sig) :: ps)) ∧ resourceName y = String.ofList r.name ∧ GoodName y ∧ HaveSchema y)
    (motive_2 := fun p l ys _ => (∀ r ∈ l, t.descend (p ++ [r.name]) = some r) → ¬ InBuiltin p → (l.map (·.name)).Nodup → ∀ ps, ResourcesAt t p l ps →
      SameDecls ys ps ∧ GoodNames ys ∧ HaveSchemas ys ∧ ys.map resourceName = l.map fun r => String.ofList r.name)
    (motive_3 := fun p name x rs _ => ∀ A, ArchiveAt t p A →
      ∃ ps, A = mkArchive name x ps ∧ SameDecls rs ps ∧ GoodNames rs ∧ HaveSchemas rs ∧ PlainName name ∧ x ≠ "") ?_ ?_ ?_ ?_ ?_ ?_ ?_ ?_ hr
  · intro q r o m ref fs x k1 c1 f1 x1 a hq hd hnb sig hsig
    subst hq
    cases hsig with
    | vector k2 c2 f2 x2 =>
      rw [k1] at k2; rw [c1] at c2; cases k2; cases c2
      cases schema_unique x1 x2
      have := structureAt_fields f2 f1
      subst this
      rw [← byteSize_eq (String.ofList (pythonName ref.targetPath))]
      exact ⟨fun _ _ hsd => .vector hsd, rfl, hplain hd (by rw [k1]; simp) _ (by simp), ofList_ne (resource_schema_ne hc hf hb hd (by rw [k1]; rfl) hnb x1)⟩
    | «instance» k2 => rw [k1] at k2; cases k2
    | multivector k2 => rw [k1] at k2; cases k2
    | rawData k2 => rw [k1] at k2; cases k2
    | archive k2 => rw [k1] at k2; cases k2
  · intro q r o m ref fs x k1 c1 f1 x1 a hq hd hnb sig hsig
    subst hq
    cases hsig with
    | «instance» k2 c2 f2 x2 =>
      rw [k1] at k2; rw [c1] at c2; cases k2; cases c2
      cases schema_unique x1 x2
      have := structureAt_fields f2 f1
      subst this
      rw [← byteSize_eq (String.ofList (pythonName ref.targetPath))]
      exact ⟨fun _ _ hsd => .instance hsd, rfl, hplain hd (by rw [k1]; simp) _ (by simp), ofList_ne (resource_schema_ne hc hf hb hd (by rw [k1]; rfl) hnb x1)⟩
    | vector k2 => rw [k1] at k2; cases k2
    | multivector k2 => rw [k1] at k2; cases k2
    | rawData k2 => rw [k1] at k2; cases k2
    | archive k2 => rw [k1] at k2; cases k2
  · intro q r o m x k1 x1 a hq hd hnb sig hsig
    subst hq
    cases hsig with
    | rawData k2 x2 =>
      rw [k1] at k2; cases k2
      cases schema_unique x1 x2
      exact ⟨fun _ _ hsd => .rawData hsd, rfl, hplain hd (by rw [k1]; simp) _ (by simp), ofList_ne (resource_schema_ne hc hf hb hd (by rw [k1]; rfl) hnb x1)⟩
    | vector k2 => rw [k1] at k2; cases k2
    | «instance» k2 => rw [k1] at k2; cases k2
    | multivector k2 => rw [k1] at k2; cases k2
    | archive k2 => rw [k1] at k2; cases k2
  · intro q r w o m x k1 x1 a hq hd hnb sig hsig
    subst hq
    cases hsig with
    | multivector k2 c2 i2 l2 x2 =>
      rw [k1] at k2; cases k2
      cases schema_unique x1 x2
      have hw0 : w ≠ 0 := by rintro rfl; exact hw _ r o m hd k1
      obtain ⟨_, ns, rfl⟩ := index_class hs h hno hd k1 hw0 (by rw [c2]; simp) i2
      rw [if_neg hw0]
      exact ⟨fun _ _ hsd => .multivector hsd, rfl, hplain hd (by rw [k1]; simp) _ (by simp), ofList_ne (resource_schema_ne hc hf hb hd (by rw [k1]; rfl) hnb x1)⟩
    | vector k2 => rw [k1] at k2; cases k2
    | «instance» k2 => rw [k1] at k2; cases k2
    | rawData k2 => rw [k1] at k2; cases k2
    | archive k2 => rw [k1] at k2; cases k2
  · intro q r o m ref name x rs k1 c1 a1 ih a hq hd hnb sig hsig
    subst hq
    cases hsig with
    | archive k2 c2 a2 x2 =>
      rw [k1] at k2; rw [c1] at c2; cases k2; cases c2
      obtain ⟨ps, rfl, e2, e3, e4, e5, e6⟩ := ih _ a2
      refine ⟨fun _ _ hsd => .archive e2 hsd, rfl, ?_, ?_⟩
      · rw [GoodName]
        exact ⟨hplain hd (by rw [k1]; simp) _ (by simp), e5, e3⟩
      · rw [HaveSchema]
        exact ⟨e6, e4⟩
    | vector k2 => rw [k1] at k2; cases k2
    | «instance» k2 => rw [k1] at k2; cases k2
    | rawData k2 => rw [k1] at k2; cases k2
    | multivector k2 => rw [k1] at k2; cases k2
  · intro p _ _ _ ps hps
    cases hps
    exact ⟨.nil, trivial, trivial, rfl⟩
  · intro p r rs y ys _ _ ih1 ih2 hall hnb hnd ps hps
    cases hps with
    | cons h1 h2 =>
      obtain ⟨f1, f2, f3, f4⟩ := ih1 p rfl (hall r (by simp)) hnb _ h1
      rw [List.map_cons, List.nodup_cons] at hnd
      obtain ⟨g1, g2, g3, g4⟩ := ih2 (fun r' hm => hall r' (by simp [hm])) hnb hnd.2 _ h2
      refine ⟨f1 _ _ g1, ⟨?_, f3, g2⟩, ⟨f4, g3⟩, by rw [List.map_cons, List.map_cons, f2, g4]⟩
      intro r' hm he
      have := List.mem_map_of_mem (f := resourceName) hm
      rw [g4, he, f2] at this
      obtain ⟨z, hz, hzz⟩ := List.mem_map.mp this
      have hzz := congrArg String.toList hzz
      simp only [String.toList_ofList] at hzz
      exact hnd.1 (List.mem_map.mpr ⟨z, hz, hzz⟩)
  · intro p n x rs n1 k1 x1 _ ih A hA
    cases hA with
    | mk n2 k2 x2 r2 =>
      rw [n1] at n2; cases n2
      cases schema_unique x1 x2
      have hnb := archive_notBuiltin hs h hno n1 k1
      obtain ⟨e1, e2, e3, _⟩ := ih (fun r hm => hc.child n1 (List.mem_filter.mp hm).1) hnb
        ((List.filter_sublist.map _).nodup (descend_good hc.lk.good n1).nodup) _ r2
      obtain ⟨ns, k, rfl, hk, _⟩ := hc.namespaces hf n1 (by rw [k1]; rfl)
      exact ⟨_, rfl, e1, e2, e3, hplain n1 (by rw [k1]; simp) _ (by simp [hk]), ofList_ne (schema_ne hc hf hb n1 (by rw [k1]; rfl) hnb x1)⟩

end

/-- **C98 (one archive in two languages).** For every accepted schema (as in C98 and C60, without multivectors of width 0) and every archive in
it, the generated Rust struct and the generated Python class have the same name, the same schema and the same resources. Whatever is in a
directory, if the Rust struct opens it (and nothing is left over of resources that are not there), so does the Python class, and they show
the same contents. -/
theorem C98_same_archives {source : Text} {blocks : List PBlock} {t : Tree} (hs : parseSource source = .ok blocks) (h : Compile source (.ok t)) (hf : Flat t)
    (hb : NoBuiltin t) (hno : ∀ b ∈ blocks, NoBuiltinEnd (splitDot b.name)) (hr : RustArchivesNameable t) (hi : Importable t)
    (hw : ∀ q r o m, t.descend q = some r → r.kind ≠ .resource (.multivector 0) o m) :
    ∃ prog stmts env, RustArchives t (.ok prog) ∧ PyModule t (.ok stmts) ∧ execModule [] stmts = some env ∧
      ∀ p n, t.descend p = some n → n.kind = .archive → ∃ name schema rs ps, RustOpens prog p name schema rs ∧
        env.lookup (pythonName p) = some (.archive (mkArchive name schema ps)) ∧ SameDecls rs ps ∧
        ∀ node f, FilesBelow node f → HalfFiles f → NoLeftovers node rs → ∀ l, rustOpen f name schema rs = .ok l →
          ∀ k, ∃ pl, openArchive (mkArchive name schema ps) k node = .ok pl ∧ ShownInPython pl ps l := by
  obtain ⟨prog, h1, _, _, h2⟩ := C98_rust hs h hf hb hno hr
  obtain ⟨stmts, env, g1, _, g2, _, g3, _⟩ := C60_module h hf hb hi
  refine ⟨prog, stmts, env, h1, g1, g2, fun p n hn hk => ?_⟩
  obtain ⟨name, schema, rs, o1, o2⟩ := h2 p n hn hk
  obtain ⟨A, a1, _, a2, _⟩ := g3 p n hn hk
  obtain ⟨ps, rfl, e2, e3, e4, e5, e6⟩ := same_decls hs h hf hb (fun b hb => noEnd_not (hno b hb)) hw ((o2 _ _ _).mp o1) A a1
  refine ⟨name, schema, rs, ps, o1, a2, e2, fun node f f1 f2 f3 l hl k => ?_⟩
  exact C97_rust_then_python node f f1 f2 k name schema e5 e6 rs ps e2 e4 e3 f3 l hl

/-- **C98 (elements).** For every multivector, the variants of its elements in Rust are the structures that the schema lists, in this order, with
their sizes. (Elements are stored with the number of the structure: `C97_same_buckets` is about these numbers and sizes.) -/
theorem C98_rust_elements {source : Text} {blocks : List PBlock} {t : Tree} (hs : parseSource source = .ok blocks) (h : Compile source (.ok t)) (hf : Flat t)
    (hb : NoBuiltin t) (hno : ∀ b ∈ blocks, NoBuiltinEnd (splitDot b.name)) (hr : RustArchivesNameable t) {prog : List RustDecl} (hp : RustArchives t (.ok prog))
    {p : Path} {n r : Tree} {w : Nat} {o : Bool} {m : Option Nat} (hn : t.descend p = some n) (hk : n.kind = .archive) (hrm : r ∈ resourcesOf n)
    (hrk : r.kind = .resource (.multivector w) o m) :
    ∃ schema texts text index v elements decls, rustArchiveAt prog p = some (n.name, schema, texts) ∧ text ∈ texts ∧ text.name = r.name ∧
      text.container = .multivector index v elements ∧ elements.map (·.1) = (childrenOf r (.ref .structure)).map (fun ref => ref.targetPath.getLastD []) ∧
      TypesAt t (childrenOf r (.ref .structure)) decls ∧ rustVariants prog p.dropLast elements = some (decls.map fun d => byteSize d.2) := by
  have hc := compile_compiled h
  obtain ⟨Y, _, h2, h3⟩ := program_exists hs h hf hb hno
  have := h2 _ hp
  injection this with this
  subst this
  rw [← show n.plainResources = resourcesOf n from plainResources_eq n] at hrm
  obtain ⟨g1, _⟩ := plain_resource hrm
  have hrd := hc.child hn g1
  obtain ⟨ns, kn, rfl, hkn, hne, _⟩ := hc.namespaces hf hn (by rw [hk]; rfl)
  obtain ⟨decls, d1, d2⟩ := variants h hf hr (X := Y) (k := kn) hne hrd hrk
  obtain ⟨_, h2', _, _⟩ := resource_refs h hrd hrk
  obtain ⟨ref, e1, e3, e4⟩ := h2' w rfl
  have hcon : (resourceText (ns ++ [kn]) n r).container = containerText (ns ++ [kn]) r := rfl
  unfold containerText at hcon
  rw [hrk] at hcon
  simp only [e4] at hcon
  refine ⟨_, _, resourceText (ns ++ [kn]) n r, _, _, _, decls, archive_at h hf Y hn hk, List.mem_map_of_mem hrm, rfl, hcon, ?_, d1, ?_⟩
  · rw [List.map_map]; rfl
  · rw [List.dropLast_concat]; exact d2

end Props
