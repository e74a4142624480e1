import Verif.Lemmas.GenUsage

/-!
# C67: from the schema to the data

The generated builder writes, and the generated archive class reads, what the schema declares.
-/

namespace Gen
open Spec Props Model

/-! ## File names -/

theorem stem_unique {a b r r' : Text} (ha : '.' ∉ a) (hb : '.' ∉ b) (hr : r = [] ∨ r.head? = some '.') (hr' : r' = [] ∨ r'.head? = some '.')
    (h : a ++ r = b ++ r') : a = b ∧ r = r' := by
  induction a generalizing b with
  | nil =>
    cases b with
    | nil => exact ⟨rfl, h⟩
    | cons c b =>
      simp only [List.nil_append, List.cons_append] at h
      subst h
      rcases hr with hr | hr
      · cases hr
      · simp only [List.head?_cons, Option.some.injEq] at hr
        exact absurd (by simp [hr]) hb
  | cons c a ih =>
    cases b with
    | nil =>
      simp only [List.nil_append, List.cons_append] at h
      subst h
      rcases hr' with hr' | hr'
      · cases hr'
      · simp only [List.head?_cons, Option.some.injEq] at hr'
        exact absurd (by simp [hr']) ha
    | cons d b =>
      simp only [List.cons_append, List.cons.injEq] at h
      obtain ⟨h1, h2⟩ := ih (fun hm => ha (by simp [hm])) (fun hm => hb (by simp [hm])) h.2
      exact ⟨by rw [h.1, h1], h2⟩

/-- A file name consists of a name without dots and an extension. -/
def IsFile (s : String) (stem ext : Text) : Prop := s.toList = stem ++ ext ∧ '.' ∉ stem ∧ (ext = [] ∨ ext.head? = some '.')

theorem isFile_unique {s : String} {a b r r' : Text} (h : IsFile s a r) (h' : IsFile s b r') : a = b ∧ r = r' :=
  stem_unique h.2.1 h'.2.1 h.2.2 h'.2.2 (h.1.symm.trans h'.1)

theorem noClash_of {name schema : String} {rs : List (String × Sig)} (h0 : '.' ∉ name.toList) (h1 : ∀ p ∈ rs, '.' ∉ p.1.toList)
    (hnd : (rs.map (·.1)).Nodup)
    (h2 : ∀ p ∈ rs, ∀ i ts sch o, p.2 = .multivector i ts sch o → ∀ q ∈ rs, q.1 ≠ p.1 ++ "_index") : NoClash (mkArchive name schema rs) := by
  have hdot : ∀ p ∈ rs, p.1 ≠ name ++ ".archive" := by
    intro p hp he
    apply h1 p hp
    rw [he]; simp
  have files : ∀ p ∈ rs, ∀ f ∈ ownedFiles p.1 p.2, ∃ stem ext, IsFile f stem ext ∧ (ext = [] ∨ ext = ".schema".toList) ∧
      (stem = p.1.toList ∨ stem = (p.1 ++ "_index").toList ∧ ∃ i ts sch o, p.2 = .multivector i ts sch o) := by
    intro p hp f hf
    have hd := h1 p hp
    have hdi : '.' ∉ (p.1 ++ "_index").toList := by
      rw [String.toList_append, List.mem_append, not_or]
      exact ⟨hd, by decide⟩
    have plain : IsFile p.1 p.1.toList [] := ⟨by simp, hd, .inl rfl⟩
    have schema : IsFile (p.1 ++ ".schema") p.1.toList ".schema".toList := ⟨by simp, hd, .inr rfl⟩
    have plain' : IsFile (p.1 ++ "_index") (p.1 ++ "_index").toList [] := ⟨by simp, hdi, .inl rfl⟩
    have schema' : IsFile (p.1 ++ "_index.schema") (p.1 ++ "_index").toList ".schema".toList := ⟨by simp, hdi, .inr rfl⟩
    obtain ⟨pn, sig⟩ := p
    cases sig with
    | multivector i ts sch o =>
      simp only [ownedFiles, List.mem_cons, List.not_mem_nil, or_false] at hf
      rcases hf with rfl | rfl | rfl | rfl
      · exact ⟨_, _, plain, .inl rfl, .inl rfl⟩
      · exact ⟨_, _, schema, .inr rfl, .inl rfl⟩
      · exact ⟨_, _, plain', .inl rfl, .inr ⟨rfl, i, ts, sch, o, rfl⟩⟩
      · exact ⟨_, _, schema', .inr rfl, .inr ⟨rfl, i, ts, sch, o, rfl⟩⟩
    | _ =>
      simp only [ownedFiles, List.mem_cons, List.not_mem_nil, or_false] at hf
      rcases hf with rfl | rfl
      · exact ⟨_, _, plain, .inl rfl, .inl rfl⟩
      · exact ⟨_, _, schema, .inr rfl, .inl rfl⟩
  have sigFiles : ∀ f ∈ ownedFiles (name ++ ".archive") (.rawData schema false), ∃ ext, IsFile f name.toList ext ∧ (ext = ".archive".toList ∨ ext = ".archive.schema".toList) := by
    intro f hf
    simp only [ownedFiles, List.mem_cons, List.not_mem_nil, or_false] at hf
    rcases hf with rfl | rfl
    · exact ⟨".archive".toList, ⟨by simp, h0, .inr rfl⟩, .inl rfl⟩
    · exact ⟨".archive.schema".toList, ⟨by simp, h0, .inr rfl⟩, .inr rfl⟩
  have sig_ne : ∀ p ∈ rs, ∀ f ∈ ownedFiles p.1 p.2, f ∉ ownedFiles (name ++ ".archive") (.rawData schema false) := by
    intro p hp f hf hf'
    obtain ⟨stem, ext, a1, a2, _⟩ := files p hp f hf
    obtain ⟨ext', b1, b2⟩ := sigFiles f hf'
    obtain ⟨_, e⟩ := isFile_unique a1 b1
    rcases a2 with a2 | a2 <;> rcases b2 with b2 | b2 <;> rw [a2, b2] at e <;> revert e <;> decide
  constructor
  · simp only [mkArchive, List.map_cons, List.nodup_cons]
    refine ⟨?_, hnd⟩
    intro hm
    obtain ⟨p, hp, he⟩ := List.mem_map.mp hm
    exact hdot p hp he
  · intro p hp q hq hne f hf hf'
    simp only [mkArchive, List.mem_cons] at hp hq
    rcases hp with rfl | hp <;> rcases hq with rfl | hq
    · exact hne rfl
    · exact sig_ne q hq f hf' hf
    · exact sig_ne p hp f hf hf'
    · obtain ⟨s1, e1, a1, _, a3⟩ := files p hp f hf
      obtain ⟨s2, e2, b1, _, b3⟩ := files q hq f hf'
      obtain ⟨e, _⟩ := isFile_unique a1 b1
      subst e
      rcases a3 with a3 | ⟨a3, i, ts, sch, o, a4⟩ <;> rcases b3 with b3 | ⟨b3, i', ts', sch', o', b4⟩
      · exact hne (String.toList_inj.mp (a3.symm.trans b3))
      · exact h2 q hq _ _ _ _ b4 p hp (String.toList_inj.mp (a3.symm.trans b3))
      · exact h2 p hp _ _ _ _ a4 q hq (String.toList_inj.mp (b3.symm.trans a3))
      · apply hne
        have := a3.symm.trans b3
        rw [String.toList_append, String.toList_append] at this
        exact String.toList_inj.mp (List.append_cancel_right this)

/-! ## Signatures -/

theorem resourcesAt_mem {t : Tree} {p : Path} {rs : List Tree} {ss : List (String × Sig)} (h : ResourcesAt t p rs ss) :
    (∀ r ∈ rs, ∃ sig, (String.ofList r.name, sig) ∈ ss ∧ ResourceAt t (p ++ [r.name]) r sig) ∧
    (∀ e ∈ ss, ∃ r ∈ rs, e.1 = String.ofList r.name ∧ ResourceAt t (p ++ [r.name]) r e.2) ∧ ss.map (·.1) = rs.map fun r => String.ofList r.name := by
  induction rs generalizing ss with
  | nil => cases h; simp
  | cons r rs ih =>
    cases h with
    | cons h1 h2 =>
      obtain ⟨i1, i2, i3⟩ := ih h2
      refine ⟨?_, ?_, by simp [i3]⟩
      · intro x hx
        rcases List.mem_cons.mp hx with rfl | hx
        · exact ⟨_, by simp, h1⟩
        · obtain ⟨sig, a, b⟩ := i1 x hx
          exact ⟨sig, by simp [a], b⟩
      · intro e he
        rcases List.mem_cons.mp he with rfl | he
        · exact ⟨r, by simp, rfl, h1⟩
        · obtain ⟨x, a, b⟩ := i2 e he
          exact ⟨x, by simp [a], b⟩

theorem structureAt_fields {t : Tree} {p : Path} {s : StructType} {fs : List FieldDecl} (h : StructureAt t p s) (hf : FieldsAt t p fs) :
    s = mkStruct (String.ofList (pythonName p)) fs := by
  obtain ⟨n, _, h1, _, rfl⟩ := h
  obtain ⟨m, _, h2, _, rfl⟩ := hf
  rw [h1] at h2; cases h2
  rfl

/-- Values that suit the declaration are acceptable for the generated signature. -/
theorem suits_acceptable {source : Text} {blocks : List PBlock} {t : Tree} (hs : parseSource source = .ok blocks) (h : Compile source (.ok t))
    (hi : Importable t) (hno : ∀ b ∈ blocks, "_builtin".toList ∉ splitDot b.name) {q : Path} {r : Tree} (hr : t.descend q = some r) {sig : Sig}
    (hsig : ResourceAt t q r sig) {v : Value} (hv : Suits t r v) : Leaf sig ∧ Acceptable sig v := by
  have hc := compile_compiled h
  cases hv with
  | «instance» hk hch hfa hw hd hsz =>
    cases hsig with
    | «instance» hk' hch' hst hx =>
      rw [hch] at hch'; cases hch'
      rw [structureAt_fields hst hfa]
      exact ⟨trivial, .instance (goodStruct_at h hfa hw).1 hd (by rw [byteSize_eq]; exact hsz)⟩
    | vector hk' | multivector hk' | rawData hk' | archive hk' => rw [hk] at hk'; cases hk'
  | vector hk hch hfa hw hd hsz =>
    cases hsig with
    | vector hk' hch' hst hx =>
      rw [hch] at hch'; cases hch'
      rw [structureAt_fields hst hfa]
      obtain ⟨g1, g2⟩ := goodStruct_at h hfa hw
      exact ⟨trivial, .vector g1 g2 hd (by rw [byteSize_eq]; exact hsz)⟩
    | «instance» hk' | multivector hk' | rawData hk' | archive hk' => rw [hk] at hk'; cases hk'
  | multivector hk hw0 hta hcount hw hfit hsz hlen =>
    cases hsig with
    | multivector hk' hch' hst hss hx =>
      rw [hk] at hk'; cases hk'
      obtain ⟨hw64, ns, rfl⟩ := index_class hs h hno hr hk hw0 (by rw [hch']; simp) hst
      rw [typesAt_classes hss hta]
      refine ⟨trivial, .multivector (Nat.pos_of_ne_zero hw0) hw64 ⟨?_, hcount, ?_⟩ hfit hsz hlen⟩
      · rw [typesAt_names hta]
        exact structure_refs_nodup hc hi hr
      · intro p hp
        obtain ⟨_, hq⟩ := typesAt_fields hta p hp
        exact (goodStruct_at h hq (hw p hp)).1
    | «instance» hk' | vector hk' | rawData hk' | archive hk' => rw [hk] at hk'; cases hk'
  | rawData hk hlen =>
    cases hsig with
    | rawData hk' hx => exact ⟨trivial, .rawData hlen⟩
    | «instance» hk' | vector hk' | multivector hk' | archive hk' => rw [hk] at hk'; cases hk'

theorem nestedText_ne (ns : List Text) (e : PEntry) : nestedText ns e ≠ [] := by unfold nestedText; simp

/-- Schemas are not empty. -/
theorem schema_ne {t : Tree} (hc : Compiled t) (hf : Flat t) (hb : NoBuiltin t) {q : Path} {n : Tree} (hn : t.descend q = some n)
    (hd : Spec.Kind.isDefinition n.kind = true) (hq : ¬ InBuiltin q) {x : Text} (hx : Schema t q (.ok x)) : x ≠ [] := by
  obtain ⟨e, he⟩ := Option.isSome_iff_exists.mp (record_isSome.trans hd)
  obtain ⟨init, a1, _⟩ := hc.definitionSchema hf hb hn he hq hx
  rintro rfl
  have := congrArg List.length a1
  have h1 := List.length_pos_of_ne_nil (nestedText_ne q.dropLast e)
  simp [sourceText] at this
  omega

theorem resource_schema_ne {t : Tree} (hc : Compiled t) (hf : Flat t) (hb : NoBuiltin t) {a : Path} {k : Text} {n : Tree} (hn : t.descend (a ++ [k]) = some n)
    (hd : n.kind.isResource = true) (hq : ¬ InBuiltin a) {x : Text} (hx : Schema t (a ++ [k]) (.ok x)) : x ≠ [] := by
  obtain ⟨m, init, _, _, a1, _⟩ := hc.resourceSchema hf hb hn hd hq hx
  rintro rfl
  have := congrArg List.length a1
  have h1 := List.length_pos_of_ne_nil (nestedText_ne a.dropLast (.archive (archiveRecord (.mk m.name .archive [n]))))
  simp [sourceText] at this
  omega

/-- A declared archive is not in `_builtin`. -/
theorem archive_notBuiltin {source : Text} {blocks : List PBlock} {t : Tree} (hs : parseSource source = .ok blocks) (h : Compile source (.ok t))
    (hno : ∀ b ∈ blocks, "_builtin".toList ∉ splitDot b.name) {p : Path} {n : Tree} (hn : t.descend p = some n) (hk : n.kind = .archive) : ¬ InBuiltin p := by
  obtain ⟨bs, h1, h2, h3⟩ := compile_blocks h
  have hb : ∀ b ∈ bs, PlainNames b := fun b hb => lexical_plain (h2 b hb)
  rcases C66_only hs h hn (by rw [hk]; rfl) with ⟨b, hbm, k, _, rfl⟩ | ⟨q, r, w, o, m, e1, e2, rfl⟩
  · unfold InBuiltin
    rw [List.dropLast_concat]
    exact hno b hbm
  · obtain ⟨_, _, _, xs, size, _, hxk, hx⟩ := C63_index_type hb h3 e1 e2
    rw [hn] at hx; cases hx
    rw [hk] at hxk; cases hxk

theorem ofList_ne {x : Text} (h : x ≠ []) : String.ofList x ≠ "" := by
  intro e
  apply h
  have := congrArg String.toList e
  simpa using this

end Gen

namespace Props
open Gen Spec Model

/-- **C67.** For every accepted schema (as in C60, and without declarations in `_builtin`) and every archive in it (in which no resource
is called like the index of a multivector): the generated module binds a class and a builder such that for every history of calls
that supplies the resources with values suiting their declarations (`Supplied`), the directory with the files the builder leaves opens
with the class, every resource that was set shows the value it was set to, every other resource is `None`, and sub-archives
are loaded. -/
theorem C67_generated_roundtrip {source : Text} {blocks : List PBlock} {t : Tree} (hs : parseSource source = .ok blocks) (h : Compile source (.ok t))
    (hf : Flat t) (hb : NoBuiltin t) (hi : Importable t) (hno : ∀ b ∈ blocks, "_builtin".toList ∉ splitDot b.name)
    {p : Path} {n : Tree} (hn : t.descend p = some n) (hk : n.kind = .archive) (hx : NoIndexClash n) :
    ∃ stmts env A, PyModule t (.ok stmts) ∧ execModule [] stmts = some env ∧ ArchiveAt t p A ∧
      env.lookup (pythonName p) = some (.archive A) ∧ env.lookup (pythonName p ++ "Builder".toList) = some (.builder A) ∧
      ∀ path calls k node, path ≠ "" → (∀ r ∈ resourcesOf n, Supplied t A path calls k node r) →
        (∀ e ∈ A.resources, Leaf e.2 → ∀ file ∈ ownedFiles e.1 e.2,
          node.entry file = (replay noFiles (runCalls A path calls (newBuilder A path)).ops file).map .file) →
        ∃ loaded, openArchive A k node = .ok loaded ∧
          ∀ r ∈ resourcesOf n,
            (∀ before value after, calls = before ++ .set (String.ofList r.name) value :: after →
              NotYetSet A path before (String.ofList r.name) → Suits t r value →
              (setResource A path (String.ofList r.name) value (runCalls A path before (newBuilder A path))).1 = .ok () ∧
              ∃ sig x, ResourceAt t (p ++ [r.name]) r sig ∧ loaded.lookup (String.ofList r.name) = some x ∧ Shows sig value x) ∧
            ((∀ o m, r.kind ≠ .resource .archive o m) → (∀ v, Call.set (String.ofList r.name) v ∉ calls) →
              loaded.lookup (String.ofList r.name) = some .absent) ∧
            ∀ o m ref B e l, r.kind = .resource .archive o m → childrenOf r (.ref .archive) = [ref] → ArchiveAt t ref.targetPath B →
              node.entry (String.ofList r.name) = some (.dir e) → openArchive B k (.dir e) = .ok l →
              loaded.lookup (String.ofList r.name) = some (.archive B.name l) := by
  have hc := compile_compiled h
  obtain ⟨stmts, env, h1, _, h2, _, h3, _⟩ := C60_module h hf hb hi
  obtain ⟨A, hA, hAu, hA1, hA2⟩ := h3 p n hn hk
  refine ⟨stmts, env, A, h1, h2, hA, hA1, hA2, ?_⟩
  have hone : ∀ q B B', ArchiveAt t q B → ArchiveAt t q B' → B = B' := by
    intro q B B' hB hB'
    cases hB with
    | mk g1 g2 g3 g4 =>
      obtain ⟨C, _, hu, _⟩ := h3 q _ g1 g2
      rw [hu _ (.mk g1 g2 g3 g4), hu _ hB']
  intro path calls k node hp hsup hnode
  have hq := archive_notBuiltin hs h hno hn hk
  obtain ⟨hn', hk', hsch, hres⟩ := hA
  rename_i n' x rs
  rw [hn] at hn'; cases hn'
  obtain ⟨m1, m2, m3⟩ := resourcesAt_mem hres
  have hdesc : ∀ r ∈ resourcesOf n, t.descend (p ++ [r.name]) = some r := fun r hr => hc.child hn (List.mem_filter.mp hr).1
  have hisres : ∀ r ∈ resourcesOf n, r.kind.isResource = true := by
    intro r hr
    have := (List.mem_filter.mp hr).2
    unfold resourceLayout at this
    cases hrk : r.kind <;> rw [hrk] at this <;> first | rfl | cases this
  have hdot : ∀ q m, t.descend q = some m → '.' ∉ m.name := fun q m hm => (descend_good hc.lk.good hm).name
  have hne : ∀ r ∈ resourcesOf n, r.name ≠ [] := by
    intro r hr
    have := hisres r hr
    exact (hc.names (hdesc r hr) (by intro rk e; rw [e] at this; cases this) r.name (by simp)).1
  have hnd : (rs.map (·.1)).Nodup := by
    rw [m3]
    have h1 := (descend_good hc.lk.good hn).nodup
    rw [List.Nodup, List.pairwise_map] at h1 ⊢
    refine (h1.sublist List.filter_sublist).imp ?_
    intro a b hab he
    exact hab (by have := congrArg String.toList he; simpa using this)
  have hclash : NoClash (mkArchive (String.ofList n.name) (String.ofList x) rs) := by
    refine noClash_of (by rw [String.toList_ofList]; exact hdot _ _ hn) ?_ hnd ?_
    · intro e he
      obtain ⟨r, hr, e1, _⟩ := m2 e he
      rw [e1, String.toList_ofList]; exact hdot _ _ (hdesc r hr)
    · intro e he i ts sch o hsig e' he' hcl
      obtain ⟨r, hr, e1, e2⟩ := m2 e he
      obtain ⟨r', hr', e1', _⟩ := m2 e' he'
      rw [hsig] at e2
      cases e2 with
      | multivector hrk =>
        apply hx r hr _ _ _ hrk r' hr'
        rw [e1, e1'] at hcl
        have := congrArg String.toList hcl
        simpa using this
  have hprov : ∀ e ∈ rs, Provided (mkArchive (String.ofList n.name) (String.ofList x) rs) path calls k node e.1 e.2 := by
    intro e he
    obtain ⟨r, hr, e1, e2⟩ := m2 e he
    rw [e1]
    cases hsup r hr with
    | set hcalls hnot hv =>
      obtain ⟨g1, g2⟩ := suits_acceptable hs h hi hno (hdesc r hr) e2 hv
      exact .set g1 hcalls hnot g2
    | unset hrk hka hno' =>
      generalize e.2 = sig at e2
      cases e2 with
      | «instance» hk' | vector hk' | multivector hk' | rawData hk' =>
        rw [hrk] at hk'; cases hk'
        exact .unset trivial rfl hno'
      | archive hk' => rw [hrk] at hk'; cases hk'; exact absurd rfl hka
    | subMissing hrk hmiss =>
      generalize e.2 = sig at e2
      cases e2 with
      | archive hk' => rw [hrk] at hk'; cases hk'; exact .subMissing hmiss
      | «instance» hk' | vector hk' | multivector hk' | rawData hk' => rw [hrk] at hk'; cases hk'
    | sub hrk hch hB hent hopen =>
      generalize e.2 = sig at e2
      cases e2 with
      | archive hk' hch' hB' =>
        rw [hch] at hch'; cases hch'
        rw [hone _ _ _ hB' hB]
        exact .sub hent hopen
      | «instance» hk' | vector hk' | multivector hk' | rawData hk' => rw [hrk] at hk'; cases hk'
  have hschemas : ∀ e ∈ rs, Leaf e.2 → e.2.schema ≠ "" := by
    intro e he hl
    obtain ⟨r, hr, e1, e2⟩ := m2 e he
    have key : ∀ y, Schema t (p ++ [r.name]) (.ok y) → String.ofList y ≠ "" := fun y hy =>
      ofList_ne (resource_schema_ne hc hf hb (hdesc r hr) (hisres r hr) hq hy)
    generalize e.2 = sig at e2 hl ⊢
    cases e2 with
    | archive => cases hl
    | «instance» _ _ _ hy | vector _ _ _ hy | multivector _ _ _ _ hy | rawData _ hy => exact key _ hy
  obtain ⟨loaded, g1, g2, g3, g4⟩ := C32_build_then_open (String.ofList n.name) (String.ofList x) path rs calls k node hp hclash
    (ofList_ne (schema_ne hc hf hb hn (by rw [hk]; rfl) hq hsch)) hschemas
    (by
      intro e he
      obtain ⟨r, hr, e1, _⟩ := m2 e he
      rw [e1]; exact ofList_ne (hne r hr)) hprov hnode
  refine ⟨loaded, g1, ?_⟩
  intro r hr
  obtain ⟨sig, hm, hat⟩ := m1 r hr
  refine ⟨?_, ?_, ?_⟩
  · intro before value after hcalls hnot hv
    obtain ⟨a1, a2⟩ := suits_acceptable hs h hi hno (hdesc r hr) hat hv
    obtain ⟨b1, y, b2, b3⟩ := g2 _ hm a1 before value after hcalls hnot a2
    exact ⟨b1, sig, y, hat, b2, b3⟩
  · intro hka hns
    refine g3 _ hm ?_ hns
    cases hat with
    | archive hk' => exact absurd hk' (hka _ _)
    | «instance» | vector | multivector | rawData => trivial
  · intro o m ref B e l hrk hch hB hent hopen
    cases hat with
    | archive hk' hch' hB' =>
      rw [hch] at hch'; cases hch'
      have := hone _ _ _ hB' hB
      subst this
      refine g4 _ _ _ _ _ _ _ _ hm ?_ hent hopen
      cases hB'
      simp [mkArchive]
    | «instance» hk' | vector hk' | multivector hk' | rawData hk' => rw [hrk] at hk'; cases hk'

end Props
