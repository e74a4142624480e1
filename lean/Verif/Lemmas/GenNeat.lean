import Verif.Lemmas.GenIndex
import Verif.Lemmas.GenGrammar

/-! # Names and children in trees built from texts -/

namespace Gen
open Spec Props

/-- Names are identifiers; components of namespaces may start with a digit. -/
def NameOk : Kind → Text → Prop
  | .ref _, _ => True
  | .root, _ => True
  | .namespace, n => n ≠ [] ∧ ∀ c ∈ n, IdChar c
  | _, n => Ident n

def RangeOk : Kind → Prop
  | .field _ (some r) _ => Ident r
  | _ => True

/-- What the grammar demands at least. -/
def Furnished : Kind → List Kind → Prop
  | .structure _, ks => ∃ k ∈ ks, k.isField = true
  | .enumeration _, ks => ∃ v, .enumValue v false ∈ ks
  | .resource (.multivector _) _ _, ks => .ref .structure ∈ ks
  | .resource .bound _ _, ks => .ref .resource ∈ ks
  | _, _ => True

theorem Furnished.mono {k : Kind} {ks ks' : List Kind} (h : Furnished k ks) (hs : ∀ x ∈ ks, x ∈ ks') : Furnished k ks' := by
  unfold Furnished at h ⊢
  split
  · obtain ⟨x, h1, h2⟩ := h; exact ⟨x, hs x h1, h2⟩
  · obtain ⟨x, h1⟩ := h; exact ⟨x, hs _ h1⟩
  · exact hs _ h
  · exact hs _ h
  · trivial

inductive Neat : Tree → Prop
  | mk {n k cs} : NameOk k n → RangeOk k → Furnished k (cs.map Tree.kind) → (∀ c ∈ cs, Neat c) → Neat (.mk n k cs)

theorem Neat.name {t : Tree} (h : Neat t) : NameOk t.kind t.name := by cases h; assumption
theorem Neat.range {t : Tree} (h : Neat t) : RangeOk t.kind := by cases h; assumption
theorem Neat.furnished {t : Tree} (h : Neat t) : Furnished t.kind (t.children.map Tree.kind) := by cases h; assumption
theorem Neat.children {t : Tree} (h : Neat t) : ∀ c ∈ t.children, Neat c := by cases h; assumption

theorem neat_append {t : Tree} (h : Neat t) {ds : List Tree} (hd : ∀ d ∈ ds, Neat d) :
    Neat (.mk t.name t.kind (t.children ++ ds)) := by
  refine .mk h.name h.range (h.furnished.mono (by simp only [List.map_append, List.mem_append]; exact fun x hx => .inl hx)) ?_
  intro c hc
  rcases List.mem_append.mp hc with hc | hc
  · exact h.children c hc
  · exact hd c hc

theorem insert_neat {t u t' : Tree} (ht : Neat t) (hu : Neat u) (h : t.insert u = .ok t') : Neat t' := by
  obtain ⟨_, rfl⟩ := insert_ok h
  exact neat_append ht (by simpa using hu)

/-- A node that gets the children it needs. -/
theorem insertEach_neat {cs : List (M Tree)} {n : Text} {k : Kind} {t' : Tree} (h : insertEach (.mk n k []) cs = .ok t') (hn : NameOk k n) (hr : RangeOk k)
    (hf : ∀ ds, Created cs ds → Furnished k (ds.map Tree.kind)) (hcs : ∀ c ∈ cs, ∀ d, c = .ok d → Neat d) : Neat t' := by
  obtain ⟨ds, hds, rfl⟩ := insertEach_ok h
  refine .mk hn hr (hf ds hds) ?_
  intro c hc
  obtain ⟨x, hx, he⟩ := created_mem hds hc
  exact hcs x hx c he

theorem created_ne {cs : List (M Tree)} {ds : List Tree} (h : Created cs ds) {c : M Tree} (hc : c ∈ cs) : ∃ d ∈ ds, c = .ok d := by
  induction h with
  | nil => simp at hc
  | cons he _ ih =>
    rcases List.mem_cons.mp hc with rfl | hc
    · exact ⟨_, by simp, he⟩
    · obtain ⟨d, hd, he⟩ := ih hc; exact ⟨d, by simp [hd], he⟩

theorem mkRef_neat {k n t} (h : mkRef k n = .ok t) : Neat t := by
  obtain ⟨rfl, _⟩ := create_ok h
  exact .mk trivial trivial trivial (by simp)

theorem fieldRefs_neat (ds : List PFieldDeco) : ∀ c ∈ fieldRefs ds, ∀ d, c = .ok d → Neat d := by
  induction ds with
  | nil => simp [fieldRefs]
  | cons d ds ih =>
    cases d <;> simp only [fieldRefs, List.forall_mem_cons]
    · exact ih
    · exact ⟨fun d hd => mkRef_neat hd, ih⟩
    · exact ⟨fun d hd => mkRef_neat hd, ih⟩

theorem fieldRange_ident {ds : List PFieldDeco} (h : ∀ d ∈ ds, ∀ n, d = .range n → Ident n) {r : Text} (hr : fieldRange ds = some r) : Ident r := by
  induction ds with
  | nil => simp [fieldRange] at hr
  | cons d ds ih =>
    cases d with
    | range n => simp only [fieldRange, Option.some.injEq] at hr; exact h _ (List.mem_cons_self ..) r (by rw [hr])
    | constRef n => exact ih (fun d hd => h d (by simp [hd])) hr
    | invalidValue n => exact ih (fun d hd => h d (by simp [hd])) hr

theorem createField_neat {f t} (hn : Ident f.name) (hd : ∀ d ∈ f.decorations, ∀ n, d = .range n → Ident n) (h : createField f = .ok t) :
    Neat t ∧ t.kind.isField = true := by
  obtain ⟨t0, h0, h⟩ := bind_ok h
  obtain ⟨t1, h1, h⟩ := bind_ok h
  obtain ⟨rfl, _⟩ := create_ok h0
  have hr : RangeOk (.field .none (fieldRange f.decorations) none) := by
    unfold RangeOk
    split
    · rename_i r _ heq
      simp only [Kind.field.injEq] at heq
      exact fieldRange_ident hd heq.2.1
    · trivial
  have key : Neat t1 := insertEach_neat h1 hn hr (fun _ _ => trivial) (fieldRefs_neat _)
  obtain ⟨ds, _, rfl⟩ := insertEach_ok h1
  split at h
  · obtain ⟨r, hr, h⟩ := bind_ok h
    refine ⟨insert_neat key (mkRef_neat hr) h, ?_⟩
    rw [(insert_kind h).1]; rfl
  · obtain ⟨bt, hbt, h⟩ := bind_ok h
    cases h
    refine ⟨.mk hn ?_ trivial key.children, rfl⟩
    unfold RangeOk at hr ⊢
    split
    · rename_i r _ heq
      simp only [Kind.field.injEq] at heq
      exact fieldRange_ident hd heq.2.1
    · trivial

theorem createStruct_neat {s t} (hn : Ident s.name) (hne : s.fields ≠ [])
    (hf : ∀ f ∈ s.fields, Ident f.name ∧ ∀ d ∈ f.decorations, ∀ n, d = .range n → Ident n) (h : createStruct s = .ok t) : Neat t := by
  obtain ⟨t0, h0, h⟩ := bind_ok h
  obtain ⟨rfl, _⟩ := create_ok h0
  refine insertEach_neat h hn trivial ?_ ?_
  · intro ds hds
    obtain ⟨f, fs, hfs⟩ := List.exists_cons_of_ne_nil hne
    obtain ⟨d, hd, he⟩ := created_ne hds (c := createField f) (by simp [hfs])
    have hff := hf f (by simp [hfs])
    exact ⟨d.kind, List.mem_map.mpr ⟨d, hd, rfl⟩, (createField_neat hff.1 hff.2 he).2⟩
  · intro c hc d hd
    obtain ⟨f, hfm, rfl⟩ := List.mem_map.mp hc
    exact (createField_neat (hf f hfm).1 (hf f hfm).2 hd).1

theorem lexicalField_range {f : PField} (h : LexicalField f) : Ident f.name ∧ ∀ d ∈ f.decorations, ∀ n, d = .range n → Ident n :=
  ⟨h.1, fun d hd n he => by have := h.2.2 d hd; rw [he] at this; exact this⟩

theorem dotsToUnderscores_idChar {t : Text} (h : ∀ c ∈ t, IdChar c ∨ c = '.') : ∀ c ∈ dotsToUnderscores t, IdChar c := by
  intro c hc
  obtain ⟨d, hd, rfl⟩ := List.mem_map.mp hc
  split
  · exact .inl (.inr (.inr rfl))
  · rename_i hne; exact (h d hd).resolve_right hne

theorem createExplicitReference_neat {s f d t} (hs : Dotted s) (hf : Ident f) (hd : Dotted d)
    (h : createExplicitReference s f d = .ok t) : Neat t := by
  obtain ⟨t0, h0, h⟩ := bind_ok h
  obtain ⟨rfl, _⟩ := create_ok h0
  refine insertEach_neat h ?_ trivial (fun _ _ => trivial) ?_
  · show Ident _
    refine ⟨⟨'e', by rfl, .inl (by decide)⟩, ?_⟩
    intro c hc
    rcases List.mem_append.mp hc with hc | hc
    · rcases List.mem_append.mp hc with hc | hc
      · have : c = 'e' ∨ c = 'r' ∨ c = '_' := by
          have : c ∈ ['e', 'r', '_'] := hc
          simpa using this
        rcases this with rfl | rfl | rfl <;> decide
      · refine dotsToUnderscores_idChar ?_ c hc
        intro x hx
        rcases List.mem_append.mp hx with hx | hx
        · exact hs.2 x hx
        · rcases List.mem_cons.mp hx with rfl | hx
          · exact .inr rfl
          · exact .inl (hf.2 x hx)
    · rcases List.mem_cons.mp hc with rfl | hc
      · decide
      · exact dotsToUnderscores_idChar hd.2 c hc
  · intro c hc d hd
    simp only [List.mem_cons, List.not_mem_nil, or_false] at hc
    rcases hc with rfl | rfl | rfl <;> exact mkRef_neat hd

theorem resourceRefs_neat (ds : List PResDeco) (hl : ∀ d ∈ ds, ∀ s f n, d = .explicitReference s f n → Dotted s ∧ Ident f ∧ Dotted n) :
    ∀ c ∈ resourceRefs ds, ∀ d, c = .ok d → Neat d := by
  induction ds with
  | nil => simp [resourceRefs]
  | cons d ds ih =>
    have ih := ih fun d hd => hl d (by simp [hd])
    cases d with
    | explicitReference s f n =>
      simp only [resourceRefs, List.forall_mem_cons]
      obtain ⟨h1, h2, h3⟩ := hl _ (List.mem_cons_self ..) s f n rfl
      exact ⟨fun d hd => createExplicitReference_neat h1 h2 h3 hd, ih⟩
    | optional => simpa only [resourceRefs] using ih

theorem typeRefs_neat (t : PResType) : ∀ c ∈ typeRefs t, ∀ d, c = .ok d → Neat d := by
  cases t <;> simp only [typeRefs, List.mem_singleton, List.mem_map, List.not_mem_nil]
  · rintro _ rfl d hd; exact mkRef_neat hd
  · rintro _ ⟨_, _, rfl⟩ d hd; exact mkRef_neat hd
  · rintro _ rfl d hd; exact mkRef_neat hd
  · simp
  · rintro _ rfl d hd; exact mkRef_neat hd

theorem createResource_neat {r t} (hl : LexicalResource r) (h : createResource r = .ok t) : Neat t := by
  obtain ⟨t0, h0, h⟩ := bind_ok h
  obtain ⟨rfl, _⟩ := create_ok h0
  refine insertEach_neat h hl.1 trivial ?_ ?_
  · intro ds hds
    have h2 := hl.2.1
    cases ht : r.type <;> simp only [PResType.kind, Furnished]
    rename_i w ts
    rw [ht] at h2
    obtain ⟨f, fs, hfs⟩ := List.exists_cons_of_ne_nil h2.1
    obtain ⟨d, hd, he⟩ := created_ne hds (c := mkRef .structure f) (by simp [ht, typeRefs, hfs])
    obtain ⟨rfl, _⟩ := create_ok he
    exact List.mem_map.mpr ⟨_, hd, rfl⟩
  · intro c hc d hd
    rcases List.mem_append.mp hc with hc | hc
    · refine resourceRefs_neat _ ?_ c hc d hd
      rintro x hx s f n rfl
      exact hl.2.2 _ hx
    · exact typeRefs_neat _ c hc d hd

theorem createBound_neat {b t} (hn : Ident b.1) (hne : b.2 ≠ []) (h : createBound b = .ok t) : Neat t := by
  obtain ⟨t0, h0, h⟩ := bind_ok h
  obtain ⟨rfl, _⟩ := create_ok h0
  refine insertEach_neat h hn trivial ?_ ?_
  · intro ds hds
    obtain ⟨f, fs, hfs⟩ := List.exists_cons_of_ne_nil hne
    obtain ⟨d, hd, he⟩ := created_ne hds (c := mkRef .resource f) (by simp [hfs])
    obtain ⟨rfl, _⟩ := create_ok he
    show Kind.ref .resource ∈ _
    exact List.mem_map.mpr ⟨_, hd, rfl⟩
  · intro c hc d hd
    obtain ⟨x, _, rfl⟩ := List.mem_map.mp hc
    exact mkRef_neat hd

theorem createArchive_neat {a t} (hn : Ident a.name) (hb : ∀ g ∈ a.bounds, Ident g.1 ∧ g.2 ≠ [])
    (hr : ∀ r ∈ a.resources, LexicalResource r) (h : createArchive a = .ok t) : Neat t := by
  obtain ⟨t0, h0, h⟩ := bind_ok h
  obtain ⟨rfl, _⟩ := create_ok h0
  refine insertEach_neat h hn trivial (fun _ _ => trivial) ?_
  intro c hc d hd
  rcases List.mem_append.mp hc with hc | hc
  · obtain ⟨r, hrm, rfl⟩ := List.mem_map.mp hc
    exact createResource_neat (hr r hrm) hd
  · obtain ⟨r, hrm, rfl⟩ := List.mem_map.mp hc
    exact createBound_neat (hb r hrm).1 (hb r hrm).2 hd

theorem natText_idChar (n : Nat) : ∀ c ∈ natText n, IdChar c := fun c hc => .inr (natText_digits n c hc)

theorem unknownName_ident (v : Int) : Ident (unknownName v) := by
  have hm : ∀ c ∈ unknownName v, IdChar c := by
    intro c hc
    rcases List.mem_append.mp hc with hc | hc
    · have : ∀ c ∈ ['U', 'N', 'K', 'N', 'O', 'W', 'N', '_', 'V', 'A', 'L', 'U', 'E', '_'], IdChar c := by decide
      exact this c hc
    · obtain ⟨d, hd, hc⟩ := List.mem_flatMap.mp hc
      split at hc
      · have : ∀ c ∈ ['M', 'I', 'N', 'U', 'S', '_'], IdChar c := by decide
        exact this c hc
      · rename_i hne
        simp only [List.mem_singleton] at hc
        subst hc
        unfold intText at hd
        split at hd
        · rcases List.mem_cons.mp hd with rfl | hd
          · exact absurd rfl hne
          · exact natText_idChar _ c hd
        · exact natText_idChar _ c hd
  exact ⟨⟨'U', by rfl, by decide⟩, hm⟩

theorem declareValues_ident {en : Text} {ds : List (Text × Option Int)} {cur : Int} {u : List Int} {cs : List EnumValue}
    {r : List Int × List EnumValue} (h : declareValues en ds cur u cs = .ok r) (hd : ∀ d ∈ ds, Ident d.1) (hc : ∀ v ∈ cs, Ident v.name) :
    (∀ v ∈ r.2, Ident v.name) ∧ (ds ≠ [] ∨ (∃ v ∈ cs, v.autoGenerated = false) → ∃ v ∈ r.2, v.autoGenerated = false) := by
  induction ds generalizing cur u cs with
  | nil =>
    simp only [declareValues, pure, Except.pure, Except.ok.injEq] at h; rw [← h]
    exact ⟨hc, fun h => h.resolve_left (by simp)⟩
  | cons d ds ih =>
    obtain ⟨n, c⟩ := d
    simp only [declareValues] at h
    split at h
    · cases h
    · obtain ⟨cs1, h1, h⟩ := bind_ok h
      have := insertValue_mem h1
      subst this
      obtain ⟨g1, g2⟩ := ih h (fun d hdm => hd d (by simp [hdm])) (by
        intro v hv
        rcases List.mem_append.mp hv with hv | hv
        · exact hc v hv
        · simp only [List.mem_singleton] at hv; subst hv; exact hd _ (List.mem_cons_self ..))
      exact ⟨g1, fun _ => g2 (.inr ⟨_, List.mem_append_right _ (List.mem_singleton.mpr rfl), rfl⟩)⟩

theorem fillMissing_ident {u : List Int} {vs : List Int} {cs r : List EnumValue} (h : fillMissing u vs cs = .ok r)
    (hc : ∀ v ∈ cs, Ident v.name) : (∀ v ∈ r, Ident v.name) ∧ ∀ v ∈ cs, v ∈ r := by
  induction vs generalizing cs with
  | nil => simp only [fillMissing, pure, Except.pure, Except.ok.injEq] at h; rw [← h]; exact ⟨hc, fun _ h => h⟩
  | cons v vs ih =>
    simp only [fillMissing] at h
    split at h
    · exact ih h hc
    · obtain ⟨cs1, h1, h⟩ := bind_ok h
      have := insertValue_mem h1
      subst this
      obtain ⟨g1, g2⟩ := ih h (by
        intro v hv
        rcases List.mem_append.mp hv with hv | hv
        · exact hc v hv
        · simp only [List.mem_singleton] at hv; subst hv; exact unknownName_ident _)
      exact ⟨g1, fun v hv => g2 v (by simp [hv])⟩

theorem createEnum_neat {e t} (hn : Ident e.name) (hne : e.values ≠ []) (hv : ∀ v ∈ e.values, Ident v.1) (h : createEnum e = .ok t) : Neat t := by
  obtain ⟨t0, h0, h⟩ := bind_ok h
  obtain ⟨rfl, _⟩ := create_ok h0
  obtain ⟨r, hr, h⟩ := bind_ok h
  obtain ⟨vs, hvs, h⟩ := bind_ok h
  cases h
  have key : (∀ v ∈ r.values, Ident v.name) ∧ ∃ v ∈ r.values, v.autoGenerated = false := by
    unfold Enumeration.create at hr
    obtain ⟨bt, _, hr⟩ := bind_ok hr
    obtain ⟨⟨u, cs⟩, h1, hr⟩ := bind_ok hr
    simp only at hr
    split at hr
    · simp [bind, Except.bind, throw, throwThe, MonadExceptOf.throw] at hr
    · obtain ⟨vr, _, hr⟩ := bind_ok hr
      obtain ⟨cs2, h2, hr⟩ := bind_ok hr
      obtain ⟨_, _, hr⟩ := bind_ok hr
      cases hr
      obtain ⟨a1, a2⟩ := declareValues_ident h1 hv (by simp)
      obtain ⟨b1, b2⟩ := fillMissing_ident h2 a1
      obtain ⟨v, hv1, hv2⟩ := a2 (.inl hne)
      exact ⟨b1, v, b2 v hv1, hv2⟩
  have hc := mapM_created hvs
  refine .mk hn trivial ?_ ?_
  · obtain ⟨v, h1, h2⟩ := key.2
    obtain ⟨d, hd, he⟩ := created_ne hc (c := Tree.create v.name (.enumValue v.value v.autoGenerated)) (List.mem_map.mpr ⟨v, h1, rfl⟩)
    obtain ⟨rfl, _⟩ := create_ok he
    exact ⟨v.value, List.mem_map.mpr ⟨_, hd, by rw [← h2]; rfl⟩⟩
  · intro d hd
    obtain ⟨m, hm, he⟩ := created_mem hc hd
    obtain ⟨v, hvm, rfl⟩ := List.mem_map.mp hm
    obtain ⟨rfl, _⟩ := create_ok he
    exact .mk (key.1 v hvm) trivial trivial (by simp)

theorem blockDefs_neat {b : PBlock} (hb : Lexical b) : ∀ c ∈ blockDefs b, ∀ d, c = .ok d → Neat d := by
  intro c hc d hd
  simp only [blockDefs, List.mem_append, List.mem_map] at hc
  rcases hc with ((⟨x, hx, rfl⟩ | ⟨x, hx, rfl⟩) | ⟨x, hx, rfl⟩) | ⟨x, hx, rfl⟩
  · obtain ⟨r, hr, h⟩ := bind_ok hd
    obtain ⟨rfl, _⟩ := create_ok h
    refine .mk ?_ trivial trivial (by simp)
    have : r.name = x.name := by
      unfold Constant.create at hr
      obtain ⟨_, _, hr⟩ := bind_ok hr
      obtain ⟨_, _, hr⟩ := bind_ok hr
      split at hr
      · cases hr
      · cases hr; rfl
    show Ident r.name
    rw [this]; exact hb.constants x hx
  · obtain ⟨h1, h2, h3⟩ := hb.structures x hx
    exact createStruct_neat h1 h2 (fun f hf => lexicalField_range (h3 f hf)) hd
  · obtain ⟨h1, h2, h3⟩ := hb.enumerations x hx
    exact createEnum_neat h1 h2 h3 hd
  · obtain ⟨h1, h2, h3⟩ := hb.archives x hx
    exact createArchive_neat h1 (fun g hg => ⟨(h2 g hg).1, (h2 g hg).2.1⟩) h3 hd

theorem setChild_neat {t c c0 : Tree} {k : Text} (ht : Neat t) (hc : Neat c) (h0 : t.child k = some c0) (hk : c.kind = c0.kind)
    (hn : c.name = c0.name) (hnd : (t.children.map Tree.name).Nodup) : Neat (t.setChild c) := by
  have hi := info_setChild hnd h0 hn hk
  cases t with
  | mk n kd cs =>
    refine .mk ht.name ht.range ?_ ?_
    · have : (cs.map fun d => if d.name = c.name then c else d).map Tree.kind = cs.map Tree.kind := by
        have h2 := congrArg (List.map Prod.snd) hi
        simpa [info, Tree.setChild, Tree.children, Function.comp_def] using h2
      rw [this]; exact ht.furnished
    · intro d hd
      obtain ⟨e, he, rfl⟩ := List.mem_map.mp hd
      split
      · exact hc
      · exact ht.children e he

theorem ensure_neat {f : Tree → M Tree} (hf : ∀ n n', Neat n → f n = .ok n' → Neat n') (hs : ∀ n n', f n = .ok n' → n'.kind = n.kind ∧ n'.name = n.name)
    {keys : List Text} (hk : ∀ k ∈ keys, NameOk .namespace k) :
    ∀ {t t' : Tree}, Good t → Neat t → t.ensureNamespace f keys = .ok t' → Neat t' := by
  have nested : ∀ (ks : List Text) (k : Text) (u : Tree), NameOk .namespace k → (∀ k ∈ ks, NameOk .namespace k) →
      nestedNamespaces f k ks = .ok u → Neat u := by
    intro ks
    induction ks with
    | nil =>
      intro k u hk _ h
      obtain ⟨t0, h0, h⟩ := bind_ok h
      obtain ⟨rfl, _⟩ := create_ok h0
      exact hf _ _ (.mk hk trivial trivial (by simp)) h
    | cons k' ks ih =>
      intro k u hk hks h
      obtain ⟨c, hc, h⟩ := bind_ok h
      obtain ⟨t0, h0, h⟩ := bind_ok h
      obtain ⟨rfl, _⟩ := create_ok h0
      exact insert_neat (.mk hk trivial trivial (by simp)) (ih _ _ (hks _ (by simp)) (fun x hx => hks x (by simp [hx])) hc) h
  induction keys with
  | nil =>
    intro t t' _ ht h
    simp only [Tree.ensureNamespace] at h
    split at h
    · exact hf _ _ ht h
    · cases h
  | cons k ks ih =>
    intro t t' hg ht h
    simp only [Tree.ensureNamespace] at h
    have hks : ∀ k ∈ ks, NameOk .namespace k := fun x hx => hk x (by simp [hx])
    cases hc : t.child k with
    | some c =>
      rw [hc] at h
      obtain ⟨c', h1, h⟩ := bind_ok h
      cases h
      have hm := (child_some hc).1
      have hsame := ensure_same hs h1
      exact setChild_neat ht (ih hks (hg.children c hm) (ht.children c hm) h1) hc hsame.1 hsame.2 hg.nodup
    | none =>
      rw [hc] at h
      obtain ⟨u, hu, h⟩ := bind_ok h
      exact insert_neat ht (nested _ _ _ (hk k (by simp)) hks hu) h

theorem mergeRoots_neat {rs : List (List Text × Tree)}
    (hr : ∀ r ∈ rs, (∀ k ∈ r.1, NameOk .namespace k) ∧ ∀ d ∈ r.2.children, Good d ∧ Neat d) :
    ∀ {t t' : Tree}, Good t → Neat t → mergeRoots t rs = .ok t' → Neat t' := by
  induction rs with
  | nil => intro t t' _ ht h; simp only [mergeRoots, pure, Except.pure, Except.ok.injEq] at h; exact h ▸ ht
  | cons r rs ih =>
    intro t t' hg ht h
    obtain ⟨keys, target⟩ := r
    simp only [mergeRoots] at h
    obtain ⟨t1, h1, h⟩ := bind_ok h
    obtain ⟨g1, g2⟩ := hr _ (List.mem_cons_self ..)
    refine ih (fun x hx => hr x (by simp [hx])) ?_ (ensure_neat ?_ (fun n n' hf => insertAll_same hf) g1 hg ht h1) h
    · refine ensure_good ?_ _ _ _ hg h1
      intro n n' hn hf
      exact insertAll_good hn (fun d hd => (g2 d hd).1) hf
    · intro n n' hn hf
      have := insertAll_ok hf
      subst this
      exact neat_append hn fun d hd => (g2 d hd).2

theorem splitDot_chars {t : Text} {c : Char} : ∀ w ∈ splitDot t, c ∈ w → c ∈ t := by
  induction t with
  | nil => intro w hw hc; simp only [splitDot, List.mem_singleton] at hw; subst hw; exact hc
  | cons a t ih =>
    intro w hw hc
    unfold splitDot at hw
    split at hw
    · rcases List.mem_cons.mp hw with rfl | hw
      · cases hc
      · exact List.mem_cons_of_mem _ (ih w hw hc)
    · split at hw
      · simp only [List.mem_singleton] at hw; subst hw
        simp only [List.mem_singleton] at hc; subst hc; simp
      · rename_i v vs hv
        rcases List.mem_cons.mp hw with rfl | hw
        · rcases List.mem_cons.mp hc with rfl | hc
          · simp
          · exact List.mem_cons_of_mem _ (ih v (by rw [hv]; simp) hc)
        · exact List.mem_cons_of_mem _ (ih w (by rw [hv]; simp [hw]) hc)

theorem built_neat {blocks : List PBlock} (hl : ∀ b ∈ blocks, Lexical b) {t : Tree} (h : buildNodeTree blocks = .ok t) : Neat t := by
  unfold buildNodeTree at h
  obtain ⟨rs, hrs, h⟩ := bind_ok h
  refine mergeRoots_neat ?_ good_root (.mk trivial trivial trivial (by simp)) h
  intro r hr
  obtain ⟨b, hbm, he⟩ := mapM_mem hrs r hr
  obtain ⟨h1, h2, h3, h4, _⟩ := createBlock_ok he
  refine ⟨?_, ?_⟩
  · intro k hk
    refine ⟨(h2 k hk).2, ?_⟩
    intro c hc
    rw [h1] at hk
    have hd := (hl b hbm).name.2 c (splitDot_chars k hk hc)
    refine hd.resolve_right ?_
    rintro rfl
    exact splitDot_parts _ k hk hc
  · intro d hd
    obtain ⟨c, hc, hce⟩ := created_mem h3 hd
    exact ⟨h4.children d hd, blockDefs_neat (hl b hbm) c hc d hce⟩

theorem modifyAt_neat {f : Tree → M Tree} (hf : ∀ n n', Neat n → f n = .ok n' → Neat n') (hs : ∀ n n', f n = .ok n' → n'.kind = n.kind ∧ n'.name = n.name)
    {p : List Text} : ∀ {t t' : Tree}, Good t → Neat t → t.modifyAt f p = .ok t' → Neat t' := by
  induction p with
  | nil => intro t t' _ ht h; exact hf _ _ ht h
  | cons k ks ih =>
    intro t t' hg ht h
    simp only [Tree.modifyAt] at h
    cases hc : t.child k with
    | none => rw [hc] at h; cases h
    | some c =>
      rw [hc] at h
      obtain ⟨c', h1, h⟩ := bind_ok h
      cases h
      have hm := (child_some hc).1
      have hsame := modifyAt_kind hs h1
      exact setChild_neat ht (ih (hg.children c hm) (ht.children c hm) h1) hc hsame.1 hsame.2 hg.nodup

theorem neat_descend {t n : Tree} (h : Neat t) {q : Path} (hn : t.descend q = some n) : Neat n := by
  induction q generalizing t with
  | nil => simp only [Tree.descend, Option.some.injEq] at hn; exact hn ▸ h
  | cons k q ih =>
    simp only [Tree.descend] at hn
    cases hc : t.child k with
    | none => rw [hc] at hn; cases hn
    | some c => rw [hc] at hn; exact ih (h.children c (child_some hc).1) hn

theorem nameOk_chars {k : Kind} {n : Text} (hk : ∀ r, k ≠ .ref r) (hr : k ≠ .root) (h : NameOk k n) : n ≠ [] ∧ ∀ c ∈ n, IdChar c := by
  have key : Ident n → n ≠ [] ∧ ∀ c ∈ n, IdChar c := by
    rintro ⟨⟨c, h1, _⟩, h2⟩
    exact ⟨by rintro rfl; simp at h1, h2⟩
  cases k <;> simp only [NameOk] at h
  all_goals first | exact key h | exact h | exact absurd rfl hr | exact absurd rfl (hk _)

/-- Paths of nodes consist of names. -/
theorem neat_path {t n : Tree} (ht : Neat t) (hw : WellNamed t) (hroot : ∀ q m, t.descend q = some m → m.kind = .root → q = []) {p : Path} (hn : t.descend p = some n)
    (hk : ∀ r, n.kind ≠ .ref r) : ∀ k ∈ p, k ≠ [] ∧ ∀ c ∈ k, IdChar c := by
  induction p using List.reverseRecOn generalizing n with
  | nil => simp
  | append_singleton p x ih =>
    obtain ⟨m, h1, h2, _⟩ := descend_parent hn
    have hname := descend_name hn
    intro k hkm
    rcases List.mem_append.mp hkm with hkm | hkm
    · refine ih h1 ?_ k hkm
      intro r hr
      have := wellNamed_descend hw h1
      cases this with
      | ref => cases h2
      | node _ h3 _ => exact h3 r hr
    · simp only [List.mem_singleton] at hkm
      rw [hkm, ← hname]
      exact nameOk_chars hk (fun hr => by have := hroot _ _ hn hr; simp at this) (neat_descend ht hn).name

theorem ident_cons {c : Char} {t : Text} (h : IdStart c) (ht : ∀ d ∈ t, IdChar d) : Ident (c :: t) :=
  ⟨⟨c, rfl, h⟩, by simpa using ⟨.inl h, ht⟩⟩

theorem ident_value : Ident "value".toList :=
  ident_cons (c := 'v') (t := ['a', 'l', 'u', 'e']) (by decide) (by decide)

theorem ident_range : Ident "range".toList :=
  ident_cons (c := 'r') (t := ['a', 'n', 'g', 'e']) (by decide) (by decide)

theorem ident_indexType (w : Nat) : Ident ("IndexType".toList ++ natText w) := by
  generalize hx : natText w = x
  have h1 : ∀ c ∈ x, IdChar c := by rw [← hx]; exact natText_idChar w
  refine ident_cons (c := 'I') (t := ['n', 'd', 'e', 'x', 'T', 'y', 'p', 'e'] ++ x) (by decide) ?_
  intro c hc
  rcases List.mem_append.mp hc with hc | hc
  · have : ∀ c ∈ ['n', 'd', 'e', 'x', 'T', 'y', 'p', 'e'], IdChar c := by decide
    exact this c hc
  · exact h1 c hc

theorem indexType_neat {w : Nat} {t : Tree} (h : createStruct (indexTypeDef w) = .ok t) : Neat t := by
  have hn : Ident (indexTypeDef w).name := by unfold indexTypeDef; exact ident_indexType w
  have hne : (indexTypeDef w).fields ≠ [] := by unfold indexTypeDef; exact List.cons_ne_nil _ _
  have hf : ∀ f ∈ (indexTypeDef w).fields, Ident f.name ∧ ∀ d ∈ f.decorations, ∀ n, d = .range n → Ident n := by
    unfold indexTypeDef
    intro f hf
    simp only [List.mem_singleton] at hf
    have h1 : f.name = "value".toList := by rw [hf]
    have h2 : f.decorations = [.range "range".toList] := by rw [hf]
    rw [h1, h2]
    refine ⟨ident_value, ?_⟩
    intro d hd n hn
    simp only [List.mem_singleton] at hd
    rw [hd] at hn
    simp only [PFieldDeco.range.injEq] at hn
    rw [← hn]; exact ident_range
  exact createStruct_neat hn hne hf h

theorem appendBuiltin_neat {t t' : Tree} {p : Path} {w : Nat} (hg : Good t) (ht : Neat t) (hp : ∀ k ∈ p, k ≠ [] ∧ ∀ c ∈ k, IdChar c)
    (h : appendBuiltin t p w = .ok t') : Neat t' := by
  unfold appendBuiltin at h
  obtain ⟨t1, h1, h⟩ := bind_ok h
  obtain ⟨r, h2, h⟩ := bind_ok h
  have hk : ∀ k ∈ builtinKeys p, NameOk .namespace k := by
    intro k hk
    rcases List.mem_append.mp hk with hk | hk
    · exact hp k (List.mem_of_mem_dropLast (List.mem_of_mem_dropLast hk))
    · simp only [List.mem_cons, List.not_mem_nil, or_false] at hk
      rcases hk with rfl | rfl
      · have : ∀ c ∈ ['_', 'b', 'u', 'i', 'l', 't', 'i', 'n'], IdChar c := by decide
        exact ⟨by simp, this⟩
      · have : ∀ c ∈ ['m', 'u', 'l', 't', 'i', 'v', 'e', 'c', 't', 'o', 'r'], IdChar c := by decide
        exact ⟨by simp, this⟩
  have hn1 : Neat t1 := by
    refine ensure_neat ?_ (fun n n' hf => insert_builtin_same hf) hk hg ht h1
    intro n n' hn hf
    obtain ⟨b, hb, hf⟩ := bind_ok hf
    split at hf
    · cases hf; exact hn
    · exact insert_neat hn (indexType_neat hb) hf
  have hg1 : Good t1 := ensure_good (fun n n' hn hf => insert_builtin_good n n' hn hf) _ _ _ hg h1
  exact modifyAt_neat (fun n n' hn hf => insert_neat hn (mkRef_neat h2) hf) (fun n n' hf => insert_kind hf) hg1 hn1 h

theorem foldlM_neat {l : List (Path × Nat)} (hl : ∀ e ∈ l, ∀ k ∈ e.1, k ≠ [] ∧ ∀ c ∈ k, IdChar c) : ∀ {t t' : Tree}, Good t → Neat t →
    l.foldlM (fun r e => appendBuiltin r e.1 e.2) t = .ok t' → Neat t' := by
  induction l with
  | nil => intro t t' _ ht h; simp only [List.foldlM_nil, pure, Except.pure, Except.ok.injEq] at h; exact h ▸ ht
  | cons e l ih =>
    intro t t' hg ht h
    simp only [List.foldlM_cons] at h
    obtain ⟨t1, h1, h⟩ := bind_ok h
    refine ih (fun x hx => hl x (by simp [hx])) ?_ (appendBuiltin_neat hg ht (hl e (by simp)) h1) h
    have h1' := h1
    unfold appendBuiltin at h1'
    obtain ⟨t2, h2, h1'⟩ := bind_ok h1'
    obtain ⟨r, h3, h1'⟩ := bind_ok h1'
    have hg2 : Good t2 := ensure_good (fun n n' hn hf => insert_builtin_good n n' hn hf) _ _ _ hg h2
    exact good_modifyAt (fun n n' hn hf => good_insert hn (mkRef_ok h3).1 hf) _ _ _ hg2 h1'

theorem renamed_neat {t t' : Tree} (h : Renamed t t') (hs : Neat t) : Neat t' := by
  induction t using Tree.induct generalizing t' with
  | h n k cs ih =>
    cases h with
    | @mk _ n' _ _ cs' hname hl hc =>
      have hkinds : cs'.map Tree.kind = cs.map Tree.kind := by
        apply List.ext_getElem?
        intro i
        simp only [List.getElem?_map]
        cases h1 : cs[i]? with
        | none =>
          have : cs'[i]? = none := by rw [List.getElem?_eq_none_iff] at h1 ⊢; omega
          rw [this]
        | some c =>
          have hi : i < cs'.length := by
            have := (List.getElem?_eq_some_iff.mp h1).1; omega
          have h2 : cs'[i]? = some cs'[i] := List.getElem?_eq_getElem hi
          rw [h2]
          have := hc i c _ h1 h2
          generalize cs'[i] = d at this
          cases this; rfl
      refine .mk ?_ hs.range ?_ ?_
      · rcases hname with rfl | ⟨⟨r, rfl⟩, _⟩
        · exact hs.name
        · trivial
      · have := hs.furnished
        simp only [Tree.children] at this
        rw [hkinds]; exact this
      · intro c' hc'
        obtain ⟨i, hi, rfl⟩ := List.getElem_of_mem hc'
        have hi' : i < cs.length := by omega
        exact ih cs[i] (List.getElem_mem hi') (hc i _ _ (List.getElem?_eq_getElem hi') (List.getElem?_eq_getElem hi))
          (hs.children _ (List.getElem_mem hi'))

/-- Only the root is a root. -/
theorem shaped_root {t m : Tree} (hs : Shaped t) {q : Path} (hm : t.descend q = some m) (hk : m.kind = .root) : q = [] := by
  cases q using List.reverseRecOn with
  | nil => rfl
  | append_singleton q x =>
    exfalso
    obtain ⟨n, h1, h2, _⟩ := descend_parent hm
    have hn := (shaped_descend hs h1).kinds
    have hc : m.kind ∈ childKinds n.children := by
      simp only [childKinds, List.mem_filter, List.mem_map, decide_eq_true_eq]
      exact ⟨⟨m, h2, rfl⟩, by rw [hk]; simp⟩
    rw [hk] at hc
    generalize childKinds n.children = ks at hn hc
    unfold ChildrenOk at hn
    split at hn
    all_goals first
      | (subst hn; simp at hc)
      | (have := hn _ hc; cases this)
      | (obtain ⟨cs, w, rfl, h⟩ := hn; simp only [List.mem_append, List.mem_singleton, reduceCtorEq, or_false] at hc; have := h _ hc; cases this)
      | (obtain ⟨a, b, c, rfl⟩ := hn; simp [List.mem_replicate] at hc)

theorem lexical_plain {b : PBlock} (h : Lexical b) : PlainNames b := by
  have hi : ∀ {n : Text}, Ident n → '@' ∉ n := fun hn hm => by have := hn.2 _ hm; revert this; decide
  have hd : ∀ {n : Text}, Dotted n → '@' ∉ n := fun hn hm => by have := hn.2 _ hm; revert this; decide
  refine ⟨hd h.name, fun c hc => hi (h.constants c hc), fun s hs => ⟨hi (h.structures s hs).1, fun f hf => hi ((h.structures s hs).2.2 f hf).1⟩,
    fun e he => ⟨hi (h.enumerations e he).1, fun v hv => hi ((h.enumerations e he).2.2 v hv)⟩, ?_⟩
  intro a ha
  obtain ⟨h1, h2, h3⟩ := h.archives a ha
  refine ⟨hi h1, fun g hg => hi (h2 g hg).1, fun r hr => ⟨hi (h3 r hr).1, ?_⟩⟩
  intro s f d hm
  have := (h3 r hr).2.2 _ hm
  exact ⟨hd this.1, hi this.2.1, hd this.2.2⟩

end Gen
