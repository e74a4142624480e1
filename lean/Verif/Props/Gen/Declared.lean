import Verif.Lemmas.GenDeclared
import Verif.Props.Gen.Enumeration
import Verif.Props.Gen.Schema

/-! # C66: the compiled tree says what the schema says -/

namespace Props
open Gen Spec

/-! ## The nodes created from definitions -/

/-- A reference node. -/
def refInfo (d : RefKind × Text) : Text × Kind := (referencify d.2, .ref d.1)

theorem created_refs {l : List (RefKind × Text)} {ds : List Tree} (h : Created (l.map fun d => mkRef d.1 d.2) ds) :
    ds.map (fun c => (c.name, c.kind)) = l.map refInfo := by
  induction l generalizing ds with
  | nil => cases h; rfl
  | cons a l ih =>
    cases h with
    | cons h1 h2 =>
      simp only [mkRef_eq, Except.ok.injEq] at h1
      subst h1
      simp only [List.map_cons, ih h2]; rfl

theorem fieldRefs_eq (f : PField) : fieldRefs f.decorations = (decorationRefs f).map fun d => mkRef d.1 d.2 := by
  unfold decorationRefs
  induction f.decorations with
  | nil => rfl
  | cons d ds ih => cases d <;> simp [fieldRefs, ih]

theorem fieldRange_eq (f : PField) : fieldRange f.decorations = declaredRange f := by
  unfold declaredRange
  induction f.decorations with
  | nil => rfl
  | cons d ds ih => cases d <;> simp [fieldRange, ih]

theorem basicOfText_some {x : Text} {b : BasicName} (h : basicOfText x = some b) : b.text = x := by
  unfold basicOfText at h
  simpa using List.find?_some h

theorem basicOfText_none {x : Text} (h : basicOfText x = none) (b : BasicName) : b.text ≠ x := by
  unfold basicOfText at h
  rw [List.find?_eq_none] at h
  have : b ∈ BasicName.all := by cases b <;> decide
  simpa using h b this

theorem createField_form {f : PField} {d : Tree} (h : createField f = .ok d) : d.name = f.name ∧
    ((∃ b : BasicName, b.text = f.type ∧ f.width.getD b.width ≤ b.width ∧
        d.kind = .field (.basic ⟨b, f.width.getD b.width⟩) (declaredRange f) none ∧ info d = (decorationRefs f).map refInfo) ∨
     ((∀ b : BasicName, b.text ≠ f.type) ∧ d.kind = .field .none (declaredRange f) none ∧
        info d = (decorationRefs f ++ [(RefKind.enumeration f.width, f.type)]).map refInfo)) := by
  obtain ⟨t0, h0, h⟩ := bind_ok h
  obtain ⟨t1, h1, h⟩ := bind_ok h
  obtain ⟨rfl, _⟩ := create_ok h0
  obtain ⟨ds, hds, rfl⟩ := insertEach_ok h1
  rw [fieldRefs_eq] at hds
  have hinfo := created_refs hds
  rw [fieldRange_eq] at h
  split at h
  · rename_i hb
    obtain ⟨r, hr, h⟩ := bind_ok h
    obtain ⟨_, rfl⟩ := insert_ok h
    rw [mkRef_eq] at hr
    cases hr
    refine ⟨rfl, .inr ⟨basicOfText_none hb, rfl, ?_⟩⟩
    simp only [info, Tree.children, List.nil_append, List.map_append, hinfo]
    rfl
  · rename_i b hb
    obtain ⟨bt, hbt, h⟩ := bind_ok h
    cases h
    unfold BasicType.create at hbt
    simp only at hbt
    split at hbt
    · cases hbt
    · rename_i hw
      cases hbt
      refine ⟨rfl, .inl ⟨b, basicOfText_some hb, by omega, rfl, ?_⟩⟩
      simp only [info, Tree.children, List.nil_append, hinfo]

theorem createStruct_form {s : PStruct} {d : Tree} (h : createStruct s = .ok d) : d.name = s.name ∧ d.kind = .structure none ∧
    Created (s.fields.map createField) d.children := by
  obtain ⟨t0, h0, h⟩ := bind_ok h
  obtain ⟨rfl, _⟩ := create_ok h0
  obtain ⟨ds, hds, rfl⟩ := insertEach_ok h
  exact ⟨rfl, rfl, by simpa [Tree.children] using hds⟩

theorem createArchive_form {a : PArchive} {d : Tree} (h : createArchive a = .ok d) : d.name = a.name ∧ d.kind = .archive ∧
    Created (a.resources.map createResource ++ a.bounds.map createBound) d.children := by
  obtain ⟨t0, h0, h⟩ := bind_ok h
  obtain ⟨rfl, _⟩ := create_ok h0
  obtain ⟨ds, hds, rfl⟩ := insertEach_ok h
  exact ⟨rfl, rfl, by simpa [Tree.children] using hds⟩

theorem createBound_form {g : Text × List Text} {d : Tree} (h : createBound g = .ok d) : d.name = g.1 ∧
    d.kind = .resource .bound false none ∧ info d = (g.2.map fun r => (RefKind.resource, r)).map refInfo := by
  obtain ⟨t0, h0, h⟩ := bind_ok h
  obtain ⟨rfl, _⟩ := create_ok h0
  obtain ⟨ds, hds, rfl⟩ := insertEach_ok h
  refine ⟨rfl, rfl, ?_⟩
  have : g.2.map (mkRef .resource) = (g.2.map fun r => (RefKind.resource, r)).map fun d => mkRef d.1 d.2 := by
    rw [List.map_map]; rfl
  rw [this] at hds
  simpa [info, Tree.children] using created_refs hds

theorem createExplicit_form {s f x : Text} {d : Tree} (h : createExplicitReference s f x = .ok d) : d.kind = .explicitReference ∧
    info d = [(RefKind.resource, x), (.field, s ++ '.' :: f), (.structure, s)].map refInfo := by
  obtain ⟨t0, h0, h⟩ := bind_ok h
  obtain ⟨rfl, _⟩ := create_ok h0
  obtain ⟨ds, hds, rfl⟩ := insertEach_ok h
  refine ⟨rfl, ?_⟩
  have := created_refs (l := [(RefKind.resource, x), (.field, s ++ '.' :: f), (.structure, s)]) hds
  simpa [info, Tree.children] using this

theorem containerAs_exists (ty : PResType) : ∃ refs, ContainerAs ty ty.kind refs ∧ typeRefs ty = refs.map fun d => mkRef d.1 d.2 := by
  cases ty with
  | vector s => exact ⟨_, .vector, rfl⟩
  | multivector w ss => exact ⟨_, .multivector, by rw [List.map_map]; rfl⟩
  | object s => exact ⟨_, .object, rfl⟩
  | rawData => exact ⟨_, .rawData, rfl⟩
  | archive a => exact ⟨_, .archive, rfl⟩

theorem resourceRefs_eq (r : PResource) :
    resourceRefs r.decorations = (explicitReferences r).map fun x => createExplicitReference x.1 x.2.1 x.2.2 := by
  unfold explicitReferences
  induction r.decorations with
  | nil => rfl
  | cons d ds ih => cases d <;> simp [resourceRefs, ih]

theorem createResource_form {r : PResource} {d : Tree} (h : createResource r = .ok d) : d.name = r.name ∧
    ∃ refs es rs, ContainerAs r.type r.type.kind refs ∧ d.kind = .resource r.type.kind (.optional ∈ r.decorations) none ∧
      d.children = es ++ rs ∧ Created ((explicitReferences r).map fun x => createExplicitReference x.1 x.2.1 x.2.2) es ∧
      rs.map (fun c => (c.name, c.kind)) = refs.map refInfo := by
  obtain ⟨t0, h0, h⟩ := bind_ok h
  obtain ⟨rfl, _⟩ := create_ok h0
  obtain ⟨ds, hds, rfl⟩ := insertEach_ok h
  obtain ⟨refs, h1, h2⟩ := containerAs_exists r.type
  rw [resourceRefs_eq, h2] at hds
  obtain ⟨es, rs, rfl, h3, h4⟩ := forall₂_split hds
  exact ⟨rfl, refs, es, rs, h1, rfl, rfl, h3, created_refs h4⟩

/-! ## References -/

theorem refers_of_carried {t : Tree} {p : Path} {refs : List (RefKind × Text)} {l : List Tree} (hat : ∀ d ∈ refs, '@' ∉ d.2)
    (h : List.Forall₂ (Carried t p) (refs.map refInfo) (l.map fun c => (c.name, c.kind))) : List.Forall₂ (RefersAs t p) refs l := by
  induction refs generalizing l with
  | nil => cases l with
    | nil => exact .nil
    | cons => cases h
  | cons d refs ih => cases l with
    | nil => cases h
    | cons r l =>
      simp only [List.map_cons] at h
      cases h with
      | cons h1 h2 =>
        refine .cons ?_ (ih (fun x hx => hat x (by simp [hx])) h2)
        obtain ⟨g1, q, m, g2, g3, g4, g5⟩ := h1.refs d.1 rfl
        simp only [refInfo] at g2
        rw [dereferencify_referencify (hat d (by simp))] at g2
        exact ⟨g1, q, m, g2, g3, g4, g5⟩

theorem refs_members {k : Kind} (hk : k ≠ .archive) {refs : List (RefKind × Text)} (hr : ∀ d ∈ refs, d.1 ≠ .builtinStructure) :
    ∀ x ∈ refs.map refInfo, isMember k x.2 = true := by
  intro x hx
  obtain ⟨d, hd, rfl⟩ := List.mem_map.mp hx
  simp [isMember, refInfo, hk, hr d hd]

theorem ident_noat {n : Text} (h : Ident n) : '@' ∉ n := fun hx => by
  have := h.2 _ hx; revert this; decide

theorem dotted_noat {n : Text} (h : Dotted n) : '@' ∉ n := fun hx => by
  have := h.2 _ hx; revert this; decide

/-! ## Children -/

/-- The members of the counterpart of a node of a definition without references among its children. -/
theorem members_carried {t : Tree} (hg : Good t) {p : Path} {n : Tree} (hn : t.descend p = some n) {cs : List (M Tree)} {ds l : List Tree} (hcs : Created cs ds)
    (hnr : ∀ d ∈ ds, ∀ r, d.kind ≠ .ref r) (hl : ∀ c ∈ l, c ∈ n.children)
    (h : List.Forall₂ (Carried t p) (ds.map fun c => (c.name, c.kind)) (l.map fun c => (c.name, c.kind))) :
    List.Forall₂ (fun m c => ∃ d ∈ ds, m = .ok d ∧ c.name = d.name ∧ t.descend (p ++ [d.name]) = some c) cs l := by
  induction hcs generalizing l with
  | nil => cases l with
    | nil => exact .nil
    | cons => cases h
  | cons h1 _ ih => cases l with
    | nil => cases h
    | cons c l =>
      simp only [List.map_cons] at h
      cases h with
      | cons h2 h3 =>
        have hname : c.name = _ := h2.name (hnr _ (by simp))
        refine .cons ⟨_, by simp, h1, hname, ?_⟩ ?_
        · simp only at hname; rw [← hname]; exact descend_child hg hn (hl c (by simp))
        · refine (ih (fun d hd => hnr d (by simp [hd])) (fun x hx => hl x (by simp [hx])) h3).imp ?_
          rintro m x ⟨d, hd, g⟩
          exact ⟨d, by simp [hd], g⟩

theorem forall₂_map_left' {α β γ : Type} {R : β → γ → Prop} {f : α → β} {l : List α} {l' : List γ} (h : List.Forall₂ R (l.map f) l') :
    List.Forall₂ (fun a c => R (f a) c) l l' := by
  induction l generalizing l' with
  | nil => cases h; exact .nil
  | cons a l ih => cases h with | cons h1 h2 => exact .cons h1 (ih h2)

theorem mem_members {n c : Tree} (h : c ∈ members n) : c ∈ n.children := (List.mem_filter.mp h).1

theorem forall₂_mem {α β : Type} {R S : α → β → Prop} {l : List α} {l' : List β} (h : List.Forall₂ R l l') (hRS : ∀ a ∈ l, ∀ b, R a b → S a b) :
    List.Forall₂ S l l' := by
  induction h with
  | nil => exact .nil
  | cons h1 _ ih => exact .cons (hRS _ (by simp) _ h1) (ih fun a ha => hRS a (by simp [ha]))

/-! ## Fields -/

section
variable {blocks : List PBlock} {t : Tree} (s : Stages blocks t) (hl : ∀ b ∈ blocks, Lexical b)
include s hl

/-- The class of a field after all passes. -/
theorem field_kinds {p : Path} {n n2 : Tree} {ty : FieldType} {rg : Option Text} {o : Option Nat} (h2 : s.constants.descend p = some n2)
    (hk : n2.kind = .field ty rg o) (hn : t.descend p = some n) :
    (∃ off, n.kind = .field ty rg off ∧ ty ≠ .none) ∨
    (ty = .none ∧ ∃ off, ∃ ref ∈ n2.children, ∃ w m bt, ref.kind = .ref (.enumeration w) ∧ s.constants.descend ref.targetPath = some m ∧
      m.kind = .enumeration bt ∧ n.kind = .field (.enum ref.name bt) rg off ∧ ∀ x, w = some x → x ≠ 0 → x = bt.width) := by
  have hpl : ∀ b ∈ blocks, PlainNames b := fun b hb => lexical_plain (hl b hb)
  obtain ⟨_, _, u3, u4⟩ := updateFieldTypes_spec (s.linkedC hpl).lk s.h4
  have key : ∀ ty', kindAt s.typed p = some (.field ty' rg o) → ∃ off, n.kind = .field ty' rg off := by
    intro ty' hkt
    obtain ⟨y, hy, hyk⟩ := kindAt_some.mp hkt
    obtain ⟨z, hz, _, hzk, _⟩ := (s.sizedSpec hpl).2.1.node hy
    obtain ⟨n', hn', _, hnk, _⟩ := (s.maxSpec hpl).2.1.node hz
    rw [hn] at hn'; cases hn'
    rw [hyk] at hzk
    obtain ⟨off, hzk'⟩ : ∃ off, z.kind = .field ty' rg off := by
      cases hz' : z.kind <;> rw [hz'] at hzk <;> simp [Kind.unsized] at hzk
      obtain ⟨rfl, rfl⟩ := hzk; exact ⟨_, rfl⟩
    rw [hzk'] at hnk
    refine ⟨off, ?_⟩
    cases hz' : n.kind <;> rw [hz'] at hnk <;> simp [Kind.unlimited] at hnk
    obtain ⟨rfl, rfl, rfl⟩ := hnk; rfl
  by_cases hty : ty = .none
  · subst hty
    right
    obtain ⟨ref, r1, w, m, bt, r2, r3, r4, r5, r6⟩ := u4 p n2 rg o h2 hk
    obtain ⟨off, ho⟩ := key _ r5
    exact ⟨rfl, off, ref, r1, w, m, bt, r2, r3, r4, ho, r6⟩
  · left
    obtain ⟨off, ho⟩ := key ty (by
      rw [u3 p n2.kind (kindAt_some.mpr ⟨n2, h2, rfl⟩) (by rw [hk]; intro _ _ h; cases h; exact hty rfl), hk])
    exact ⟨off, ho, hty⟩

/-- A field of a definition. -/
theorem field_declared {b : PBlock} (hb : b ∈ blocks) {d : Tree} (hd : d ∈ definitionNodes b) (hdn : '@' ∉ d.name) {f : PField} {c : Tree}
    (hf : LexicalField f) {fd : Tree} (hfd : createField f = .ok fd) (hdf : d.descend [fd.name] = some fd)
    (hc : t.descend (splitDot b.name ++ [d.name] ++ [fd.name]) = some c) :
    FieldAs t (splitDot b.name ++ [d.name]) f c := by
  have hpl : ∀ b ∈ blocks, PlainNames b := fun b hb => lexical_plain (hl b hb)
  obtain ⟨hname, hform⟩ := createField_form hfd
  rw [hname] at hdf hc
  have hpath : splitDot b.name ++ [d.name] ++ [f.name] = splitDot b.name ++ d.name :: [f.name] := by simp
  rw [hpath] at hc
  have hat : ∀ k ∈ d.name :: [f.name], '@' ∉ k := by
    simp only [List.mem_cons, List.not_mem_nil, or_false, forall_eq_or_imp, forall_eq]
    exact ⟨hdn, ident_noat hf.1⟩
  have hdeco : ∀ x ∈ decorationRefs f, '@' ∉ x.2 ∧ x.1 ≠ .builtinStructure ∧ ∀ w, x.1 ≠ .enumeration w := by
    intro x hx
    simp only [decorationRefs, List.mem_filterMap] at hx
    obtain ⟨y, hy, hx⟩ := hx
    have := hf.2.2 y hy
    cases y <;> simp only [Option.some.injEq, reduceCtorEq] at hx <;> subst hx <;> exact ⟨dotted_noat this, by simp⟩
  have hmn := lexicalField_range hf
  rcases hform with ⟨bn, b1, b2, b3, b4⟩ | ⟨b1, b3, b4⟩
  · obtain ⟨n, n1, n2, n3, n4, n5, m1, m2, m3⟩ := carried s hl hb hd hdf hat (by rw [b3]; simp)
      (by rw [b4, b3]; exact refs_members (by simp) fun x hx => (hdeco x hx).2.1)
    rw [hc] at n1; cases n1
    rw [b3] at m2
    rcases field_kinds s hl m1 m2 hc with ⟨off, k1, _⟩ | ⟨k1, _⟩
    · refine ⟨n2.trans hname, _, off, [], k1, .basic b1 b2, ?_⟩
      rw [List.append_nil, hpath]
      rw [b4, ← members_info] at n4
      exact refers_of_carried (fun x hx => (hdeco x hx).1) n4
    · cases k1
  · have hre : ∀ x ∈ decorationRefs f ++ [(RefKind.enumeration f.width, f.type)], '@' ∉ x.2 ∧ x.1 ≠ .builtinStructure := by
      intro x hx
      rcases List.mem_append.mp hx with hx | hx
      · exact ⟨(hdeco x hx).1, (hdeco x hx).2.1⟩
      · simp only [List.mem_singleton] at hx; subst hx; exact ⟨dotted_noat hf.2.1, by simp⟩
    obtain ⟨n, n1, n2, n3, n4, n5, m1, m2, m3⟩ := carried s hl hb hd hdf hat (by rw [b3]; simp)
      (by rw [b4, b3]; exact refs_members (by simp) fun x hx => (hre x hx).2)
    rw [hc] at n1; cases n1
    rw [b3] at m2
    rcases field_kinds s hl m1 m2 hc with ⟨off, _, k1⟩ | ⟨_, off, ref, r1, w, m, bt, r2, r3, r4, r5, r6⟩
    · exact absurd rfl k1
    · -- the reference to the enumeration
      have hri : (ref.name, ref.kind) ∈ info n5 := List.mem_map.mpr ⟨ref, r1, rfl⟩
      obtain ⟨y, y1, y2, y3⟩ := m3 _ hri (by rw [m2, r2]; simp [isMember])
      obtain ⟨x, x1, x2⟩ := forall₂_right n4 y1
      rw [r2] at y3
      have hyk : y.2 = .ref (.enumeration w) := blank_ref.mp y3
      have hxk : x.2 = .ref (.enumeration w) := by
        have := x2.kind; rw [hyk] at this; exact blank_ref.mp this.symm
      rw [b4] at x1
      obtain ⟨z, hz, rfl⟩ := List.mem_map.mp x1
      have hz' : z = (RefKind.enumeration f.width, f.type) := by
        rcases List.mem_append.mp hz with hz | hz
        · simp only [refInfo, Kind.ref.injEq] at hxk
          exact absurd hxk ((hdeco z hz).2.2 w)
        · simpa using hz
      subst hz'
      simp only [refInfo, Kind.ref.injEq, RefKind.enumeration.injEq] at hxk
      obtain ⟨_, q, m', g2, g3, g4, g5⟩ := x2.refs _ rfl
      simp only [refInfo] at g2
      rw [dereferencify_referencify (dotted_noat hf.2.1)] at g2
      rw [y2] at g3
      have htp : ref.targetPath = q := targetPath_of (descend_nodot (s.lkT hpl).good g4) g3
      rw [htp] at r3
      obtain ⟨m2', v1, _, v3, _⟩ := (s.sameCT hpl).node r3
      rw [g4] at v1; cases v1
      have hmk : m'.kind = .enumeration bt := by
        rw [r4] at v3
        cases hq : m'.kind <;> rw [hq] at v3 <;> simp [Kind.blank] at v3
        rw [v3]
      refine ⟨n2.trans hname, _, off, _, r5, .enumeration b1 (by rw [hpath]; exact g2) g4 hmk g3 (fun w' hw' => r6 w' (by rw [← hw', hxk])), ?_⟩
      rw [hpath]
      rw [b4, ← members_info] at n4
      exact refers_of_carried (fun x hx => (hre x hx).1) n4

/-! ## Definitions -/

theorem definition_node {b : PBlock} (hb : b ∈ blocks) : ∀ c ∈ blockDefs b, ∃ d, c = .ok d ∧ d ∈ definitionNodes b ∧ Good d := by
  have h := s.h1
  unfold buildResolved at h
  obtain ⟨t0, h0, h⟩ := bind_ok h
  have hc := valid_created ((built_merged h0).2 b hb)
  intro c hcb
  obtain ⟨d, hd, he⟩ := forall₂_left hc hcb
  exact ⟨d, he, hd, (blockDefs_ok b c hcb d he).1⟩

theorem tree_good : Good t := (s.lkT fun b hb => lexical_plain (hl b hb)).good

/-- The counterpart of a definition. -/
theorem carried_definition {b : PBlock} (hb : b ∈ blocks) {d : Tree} (hd : d ∈ definitionNodes b) (hdn : '@' ∉ d.name) (hk : d.kind ≠ .namespace)
    (hmem : ∀ x ∈ info d, isMember d.kind x.2 = true) :
    ∃ n, t.descend (splitDot b.name ++ [d.name]) = some n ∧ n.name = d.name ∧ n.kind.blank = d.kind.blank ∧
      List.Forall₂ (Carried t (splitDot b.name ++ [d.name])) (info d) ((members n).map fun c => (c.name, c.kind)) := by
  obtain ⟨n, n1, n2, n3, n4, _⟩ := carried s hl hb hd (q := []) rfl (by simpa using hdn) hk hmem
  exact ⟨n, n1, n2, n3, by rw [members_info]; exact n4⟩

theorem struct_declared {b : PBlock} (hb : b ∈ blocks) {x : PStruct} (hx : x ∈ b.structures) :
    ∃ n, t.descend (splitDot b.name ++ [x.name]) = some n ∧ StructAs t (splitDot b.name ++ [x.name]) x n := by
  have hlx := (hl b hb).structures x hx
  obtain ⟨d, he, hd, hg⟩ := definition_node s hl hb (createStruct x) (by simp only [blockDefs, List.mem_append, List.mem_map]; exact .inl (.inl (.inr ⟨x, hx, rfl⟩)))
  obtain ⟨f1, f2, f3⟩ := createStruct_form he
  have hfk : ∀ c ∈ d.children, ∃ ty r o, c.kind = .field ty r o := by
    intro c hc
    obtain ⟨m, hm, hme⟩ := created_mem f3 hc
    obtain ⟨f, _, rfl⟩ := List.mem_map.mp hm
    rcases (createField_form hme).2 with ⟨_, _, _, h, _⟩ | ⟨_, h, _⟩ <;> exact ⟨_, _, _, h⟩
  have hmem : ∀ y ∈ info d, isMember d.kind y.2 = true := by
    intro y hy
    obtain ⟨c, hc, rfl⟩ := List.mem_map.mp hy
    obtain ⟨_, _, _, hk⟩ := hfk c hc
    simp [isMember, hk, f2]
  have hdn : '@' ∉ d.name := by rw [f1]; exact ident_noat hlx.1
  obtain ⟨n, n1, n2, n3, n4⟩ := carried_definition s hl hb hd hdn (by simp [f2]) hmem
  rw [← f1]
  refine ⟨n, n1, n2.trans f1, ?_, ?_⟩
  · rw [f2] at n3
    cases hq : n.kind <;> rw [hq] at n3 <;> simp [Kind.blank] at n3
    exact ⟨_, rfl⟩
  · have := members_carried (tree_good s hl) n1 f3 (fun c hc r hk => by obtain ⟨_, _, _, h⟩ := hfk c hc; rw [hk] at h; cases h) (fun c hc => mem_members hc) n4
    refine forall₂_mem (forall₂_map_left' this) ?_
    rintro f hf c ⟨fd, g1, g2, g3, g4⟩
    exact field_declared s hl hb hd hdn (hlx.2.2 f hf) g2 (by simp [Tree.descend, child_of_mem hg.nodup g1]) g4

theorem constant_declared {b : PBlock} (hb : b ∈ blocks) {x : PConstant} (hx : x ∈ b.constants) :
    ∃ n, t.descend (splitDot b.name ++ [x.name]) = some n ∧ ConstantAs x n := by
  have hlx := (hl b hb).constants x hx
  obtain ⟨d, he, hd, hg⟩ := definition_node s hl hb (createConstant x) (by simp only [blockDefs, List.mem_append, List.mem_map]; exact .inl (.inl (.inl ⟨x, hx, rfl⟩)))
  obtain ⟨r, hr, he⟩ := bind_ok he
  obtain ⟨h1, rfl⟩ := (C41_constant_accepted_iff ..).mp hr
  obtain ⟨rfl, _⟩ := create_ok he
  obtain ⟨n, n1, n2, n3, n4⟩ := carried_definition s hl hb hd (ident_noat hlx) (by simp [Tree.kind]) (by simp [info, Tree.children])
  refine ⟨n, n1, n2, ?_, h1, ?_⟩
  · change n.kind.blank = (Kind.constant ⟨x.type, x.type.width⟩ x.value) at n3
    cases hq : n.kind <;> rw [hq] at n3 <;> simp [Kind.blank] at n3
    simp [n3]
  · simp only [info, Tree.children, List.map_nil, List.forall₂_nil_left_iff, List.map_eq_nil_iff] at n4
    exact n4

omit s hl in
theorem createEnum_form {e : PEnum} {d : Tree} (h : createEnum e = .ok d) : d.name = e.name ∧ d.kind = .enumeration ⟨e.type, e.width.getD e.type.width⟩ ∧
    e.width.getD e.type.width ≤ e.type.width ∧ ∀ vals, Assignment e.values vals → ∃ gen : List Int,
    info d = ((e.values.map (·.1)).zip vals).map (fun x => (x.1, Kind.enumValue x.2 false)) ++ gen.map (fun v => (generatedName v, Kind.enumValue v true)) ∧
    (vals ++ gen).Nodup ∧ ∀ v, v ∈ vals ++ gen ↔ InRange (e.width.getD e.type.width) e.type.isSigned v := by
  obtain ⟨t0, h0, h⟩ := bind_ok h
  obtain ⟨r, hr, h⟩ := bind_ok h
  obtain ⟨vs, hvs, h⟩ := bind_ok h
  cases h
  obtain ⟨rfl, hn, _⟩ := create_ok h0
  obtain ⟨w, l, rfl, h2, h3, h4, h5, h6, h7, h8, h9, h10, h11, rfl⟩ := (create_ok_iff ..).mp hr
  refine ⟨rfl, rfl, h2, fun vals hv => ?_⟩
  obtain rfl := assignment_unique hv (assign_assignment e.values)
  have hc := mapM_created hvs
  have hinfo : ∀ {l : List EnumValue} {vs : List Tree}, Created (l.map fun v => Tree.create v.name (.enumValue v.value v.autoGenerated)) vs →
      vs.map (fun c => (c.name, c.kind)) = l.map fun v => (v.name, Kind.enumValue v.value v.autoGenerated) := by
    intro l
    induction l with
    | nil => intro vs hc; cases hc; rfl
    | cons v l ih =>
      intro vs hc
      cases hc with
      | cons c1 c2 =>
        obtain ⟨rfl, _⟩ := create_ok c1
        simp only [List.map_cons, ih c2]; rfl
  refine ⟨l.filter (· ∉ assign e.values 0), ?_, ?_, ?_⟩
  · simp only [info, Tree.children, hinfo hc, List.map_append]
    congr 1
    · rw [← declared_zip, List.map_map]
      apply List.map_congr_left
      intro v hv
      have : v ∈ (declared e.values (assign e.values 0) ++ generated [] []).filter (fun v => !v.autoGenerated) := by rw [declared_filter]; exact hv
      have := (List.mem_filter.mp this).2
      simp only [Bool.not_eq_true', Function.comp] at this ⊢
      rw [this]
    · simp [generated, unknownName_eq, Function.comp_def]
  · refine List.nodup_append.mpr ⟨h5, h9.filter _, ?_⟩
    intro a ha c hc hac
    subst hac
    simp only [List.mem_filter, decide_eq_true_eq] at hc
    exact hc.2 ha
  · intro v
    simp only [List.mem_append, List.mem_filter, decide_eq_true_eq, h10]
    constructor
    · rintro (h | h)
      · exact h6 v h
      · exact h.1
    · intro h
      by_cases hv : v ∈ assign e.values 0
      · exact .inl hv
      · exact .inr ⟨h, hv⟩

theorem enum_declared {b : PBlock} (hb : b ∈ blocks) {x : PEnum} (hx : x ∈ b.enumerations) :
    ∃ n, t.descend (splitDot b.name ++ [x.name]) = some n ∧ EnumAs x n := by
  have hlx := (hl b hb).enumerations x hx
  obtain ⟨d, he, hd, hg⟩ := definition_node s hl hb (createEnum x) (by simp only [blockDefs, List.mem_append, List.mem_map]; exact .inl (.inr ⟨x, hx, rfl⟩))
  obtain ⟨f1, f2, f0, f3⟩ := createEnum_form he
  have hk : ∀ y ∈ info d, ∃ v g, y.2 = .enumValue v g := by
    obtain ⟨gen, h, _⟩ := f3 _ (assign_assignment x.values)
    intro y hy
    rw [h] at hy
    rcases List.mem_append.mp hy with hy | hy <;> obtain ⟨z, _, rfl⟩ := List.mem_map.mp hy <;> exact ⟨_, _, rfl⟩
  obtain ⟨n, n1, n2, n3, n4⟩ := carried_definition s hl hb hd (by rw [f1]; exact ident_noat hlx.1) (by simp [f2])
    (fun y hy => by obtain ⟨v, g, h⟩ := hk y hy; simp [isMember, h, f2])
  have heq : (members n).map (fun c => (c.name, c.kind)) = info d := by
    generalize (members n).map (fun c => (c.name, c.kind)) = m at n4
    generalize info d = k at n4 hk
    induction n4 with
    | nil => rfl
    | cons a1 _ ih =>
      rw [ih fun y hy => hk y (by simp [hy])]
      obtain ⟨v, g, h⟩ := hk _ (List.mem_cons_self ..)
      have e1 := a1.name (fun r hr => by rw [h] at hr; cases hr)
      have e2 := a1.kind
      rw [h] at e2
      congr 1
      refine Prod.ext e1 ?_
      rw [h]
      have hb : ∀ k : Kind, k.blank = .enumValue v g → k = .enumValue v g := by intro k hk; cases k <;> simp [Kind.blank] at hk ⊢; exact hk
      exact hb _ e2
  rw [← f1]
  refine ⟨n, n1, n2.trans f1, ?_, f0, fun vals hv => ?_⟩
  · rw [f2] at n3; exact blank_enumeration n3
  · rw [heq]; exact f3 vals hv

theorem bound_declared {b : PBlock} (hb : b ∈ blocks) {d : Tree} (hd : d ∈ definitionNodes b) (hdn : '@' ∉ d.name) {g : Text × List Text} {c : Tree}
    (hg : Ident g.1 ∧ ∀ r ∈ g.2, Dotted r) {gd : Tree} (hgd : createBound g = .ok gd) (hdg : d.descend [gd.name] = some gd)
    (hc : t.descend (splitDot b.name ++ [d.name] ++ [gd.name]) = some c) : BoundAs t (splitDot b.name ++ [d.name]) g c := by
  obtain ⟨f1, f2, f3⟩ := createBound_form hgd
  rw [f1] at hdg hc
  have hpath : splitDot b.name ++ [d.name] ++ [g.1] = splitDot b.name ++ d.name :: [g.1] := by simp
  rw [hpath] at hc
  obtain ⟨n, n1, n2, n3, n4, _⟩ := carried s hl hb hd hdg
    (by simp only [List.mem_cons, List.not_mem_nil, or_false, forall_eq_or_imp, forall_eq]; exact ⟨hdn, ident_noat hg.1⟩) (by rw [f2]; simp)
    (by rw [f3, f2]; exact refs_members (by simp) fun x hx => by obtain ⟨r, _, rfl⟩ := List.mem_map.mp hx; simp)
  rw [hc] at n1; cases n1
  rw [f2] at n3
  refine ⟨n2.trans f1, blank_resource n3, ?_⟩
  rw [hpath]
  rw [f3, ← members_info] at n4
  exact refers_of_carried (fun x hx => by obtain ⟨r, hr, rfl⟩ := List.mem_map.mp hx; exact dotted_noat (hg.2 r hr)) n4

omit s hl in
theorem dots_noat {x : Text} (h : '@' ∉ x) : '@' ∉ dotsToUnderscores x := by
  intro hm
  unfold dotsToUnderscores at hm
  obtain ⟨c, hc, he⟩ := List.mem_map.mp hm
  split at he
  · cases he
  · exact h (he ▸ hc)

theorem explicit_declared {b : PBlock} (hb : b ∈ blocks) {d : Tree} (hd : d ∈ definitionNodes b) (hdn : '@' ∉ d.name) {r : Text} (hr : '@' ∉ r)
    {x : Text × Text × Text} {c : Tree} (hx : Dotted x.1 ∧ Ident x.2.1 ∧ Dotted x.2.2) {xd : Tree} (hxd : createExplicitReference x.1 x.2.1 x.2.2 = .ok xd)
    (hdx : d.descend [r, xd.name] = some xd) (hc : t.descend (splitDot b.name ++ [d.name] ++ [r] ++ [xd.name]) = some c) :
    ExplicitAs t (splitDot b.name ++ [d.name] ++ [r]) x c := by
  obtain ⟨f1, f2⟩ := createExplicit_form hxd
  have hn : '@' ∉ xd.name := by
    obtain ⟨t0, h0, h⟩ := bind_ok hxd
    obtain ⟨rfl, _⟩ := create_ok h0
    obtain ⟨ds, _, rfl⟩ := insertEach_ok h
    simp only [Tree.name]
    have h1 : '@' ∉ x.1 ++ '.' :: x.2.1 := by
      simp only [List.mem_append, List.mem_cons, not_or]
      exact ⟨dotted_noat hx.1, by decide, ident_noat hx.2.1⟩
    have h2 := dots_noat h1
    have h3 := dots_noat (dotted_noat hx.2.2)
    simp only [List.mem_append, List.mem_cons, not_or]
    exact ⟨⟨by decide, h2⟩, by decide, h3⟩
  have hpath : splitDot b.name ++ [d.name] ++ [r] ++ [xd.name] = splitDot b.name ++ d.name :: [r, xd.name] := by simp
  rw [hpath] at hc
  have hat : ∀ z ∈ [(RefKind.resource, x.2.2), (.field, x.1 ++ '.' :: x.2.1), (.structure, x.1)], '@' ∉ z.2 := by
    simp only [List.mem_cons, List.not_mem_nil, or_false, forall_eq_or_imp, forall_eq, List.mem_append, not_or]
    exact ⟨dotted_noat hx.2.2, ⟨dotted_noat hx.1, by decide, ident_noat hx.2.1⟩, dotted_noat hx.1⟩
  obtain ⟨n, n1, n2, n3, n4, _⟩ := carried s hl hb hd hdx
    (by simp only [List.mem_cons, List.not_mem_nil, or_false, forall_eq_or_imp, forall_eq]; exact ⟨hdn, hr, hn⟩) (by rw [f1]; simp)
    (by rw [f2, f1]; exact refs_members (by simp) (by simp))
  rw [hc] at n1; cases n1
  rw [f1] at n3
  refine ⟨blank_explicit n3, ?_⟩
  rw [n2, hpath]
  rw [f2, ← members_info] at n4
  exact refers_of_carried hat n4

theorem resource_declared {b : PBlock} (hb : b ∈ blocks) {d : Tree} (hd : d ∈ definitionNodes b) (hdn : '@' ∉ d.name) {r : PResource} {c : Tree}
    (hr : LexicalResource r) {rd : Tree} (hrd : createResource r = .ok rd) (hdr : d.descend [rd.name] = some rd)
    (hc : t.descend (splitDot b.name ++ [d.name] ++ [rd.name]) = some c) : ResourceAs t (splitDot b.name ++ [d.name]) r c := by
  obtain ⟨f1, refs, es, rs, f2, f3, f4, f5, f6⟩ := createResource_form hrd
  have hgood := (createResource_ok hrd).1
  rw [f1] at hdr hc
  have hpath : splitDot b.name ++ [d.name] ++ [r.name] = splitDot b.name ++ d.name :: [r.name] := by simp
  have hrn := ident_noat hr.1
  have hinfo : info rd = es.map (fun c => (c.name, c.kind)) ++ refs.map refInfo := by
    unfold info; rw [f4, List.map_append, f6]
  have hrefs : ∀ x ∈ refs, '@' ∉ x.2 ∧ x.1 ≠ .builtinStructure := by
    have := hr.2.1
    intro x hx
    generalize hty : r.type = ty at *
    cases f2 with
    | vector => simp only [List.mem_singleton] at hx; subst hx; exact ⟨dotted_noat this, by simp⟩
    | multivector => obtain ⟨y, hy, rfl⟩ := List.mem_map.mp hx; exact ⟨dotted_noat (this.2 y hy), by simp⟩
    | object => simp only [List.mem_singleton] at hx; subst hx; exact ⟨dotted_noat this, by simp⟩
    | rawData => simp at hx
    | archive => simp only [List.mem_singleton] at hx; subst hx; exact ⟨dotted_noat this, by simp⟩
  have hek : ∀ e ∈ es, e.kind = .explicitReference := by
    intro e he
    obtain ⟨m, hm, hme⟩ := created_mem f5 he
    obtain ⟨x, _, rfl⟩ := List.mem_map.mp hm
    exact (createExplicit_form hme).1
  have hmem : ∀ x ∈ info rd, isMember rd.kind x.2 = true := by
    intro x hx
    rw [hinfo] at hx
    rcases List.mem_append.mp hx with hx | hx
    · obtain ⟨e, he, rfl⟩ := List.mem_map.mp hx
      simp [isMember, hek e he, f3]
    · rw [f3]; exact refs_members (by simp) (fun x hx => (hrefs x hx).2) x hx
  have hc' := hc
  rw [hpath] at hc'
  obtain ⟨n, n1, n2, n3, n4, _⟩ := carried s hl hb hd hdr
    (by simp only [List.mem_cons, List.not_mem_nil, or_false, forall_eq_or_imp, forall_eq]; exact ⟨hdn, hrn⟩) (by rw [f3]; simp) hmem
  rw [hc'] at n1; cases n1
  rw [f3] at n3
  obtain ⟨max, hmax⟩ := blank_resource n3
  rw [hinfo, ← members_info] at n4
  obtain ⟨l1, l2, hl12, g1, g2⟩ := forall₂_split n4
  obtain ⟨m1, m2, hm12, rfl, rfl⟩ := List.map_eq_append_iff.mp hl12
  refine ⟨n2.trans f1, r.type.kind, max, refs, m1, m2, f2, hmax, hm12, ?_, ?_⟩
  · have := members_carried (tree_good s hl) hc' f5 (fun e he rk hk => by rw [hek e he] at hk; cases hk)
      (fun e he => mem_members (by rw [hm12]; exact List.mem_append_left _ he)) g1
    refine forall₂_mem (forall₂_map_left' this) ?_
    rintro x hx e ⟨xd, w1, w2, w3, w4⟩
    have hxl : Dotted x.1 ∧ Ident x.2.1 ∧ Dotted x.2.2 := by
      simp only [explicitReferences, List.mem_filterMap] at hx
      obtain ⟨y, hy, hxe⟩ := hx
      have := hr.2.2 y hy
      cases y <;> simp only [Option.some.injEq, reduceCtorEq] at hxe
      subst hxe; exact this
    refine explicit_declared s hl hb hd hdn hrn hxl w2 ?_ (by rw [hpath]; exact w4)
    have : d.descend ([r.name] ++ [xd.name]) = some xd := by
      rw [descend_concat, hdr]
      simp [Tree.descend, child_of_mem hgood.nodup (show xd ∈ rd.children by rw [f4]; exact List.mem_append_left _ w1)]
    exact this
  · rw [hpath]
    exact refers_of_carried (fun x hx => (hrefs x hx).1) g2

theorem archive_declared {b : PBlock} (hb : b ∈ blocks) {x : PArchive} (hx : x ∈ b.archives) :
    ∃ n, t.descend (splitDot b.name ++ [x.name]) = some n ∧ ArchiveAs t (splitDot b.name ++ [x.name]) x n := by
  have hlx := (hl b hb).archives x hx
  obtain ⟨d, he, hd, hg⟩ := definition_node s hl hb (createArchive x) (by simp only [blockDefs, List.mem_append, List.mem_map]; exact .inr ⟨x, hx, rfl⟩)
  obtain ⟨f1, f2, f3⟩ := createArchive_form he
  have hfk : ∀ c ∈ d.children, ∃ k o m, c.kind = .resource k o m := by
    intro c hc
    obtain ⟨m, hm, hme⟩ := created_mem f3 hc
    rcases List.mem_append.mp hm with hm | hm <;> obtain ⟨f, _, rfl⟩ := List.mem_map.mp hm
    · obtain ⟨_, _, _, _, _, h, _⟩ := createResource_form hme; exact ⟨_, _, _, h⟩
    · exact ⟨_, _, _, (createBound_form hme).2.1⟩
  have hmem : ∀ y ∈ info d, isMember d.kind y.2 = true := by
    intro y hy
    obtain ⟨c, hc, rfl⟩ := List.mem_map.mp hy
    obtain ⟨_, _, _, hk⟩ := hfk c hc
    simp [isMember, hk]
  have hdn : '@' ∉ d.name := by rw [f1]; exact ident_noat hlx.1
  obtain ⟨n, n1, n2, n3, n4⟩ := carried_definition s hl hb hd hdn (by simp [f2]) hmem
  rw [← f1]
  rw [f2] at n3
  have := members_carried (tree_good s hl) n1 f3 (fun c hc r hk => by obtain ⟨_, _, _, h⟩ := hfk c hc; rw [hk] at h; cases h) (fun c hc => mem_members hc) n4
  obtain ⟨m1, m2, hm12, g1, g2⟩ := forall₂_split this
  refine ⟨n, n1, n2.trans f1, blank_archive n3, m1, m2, hm12, ?_, ?_⟩
  · refine forall₂_mem (forall₂_map_left' g1) ?_
    rintro f hf c ⟨fd, w1, w2, w3, w4⟩
    exact resource_declared s hl hb hd hdn (hlx.2.2 f hf) w2 (by simp [Tree.descend, child_of_mem hg.nodup w1]) w4
  · refine forall₂_mem (forall₂_map_left' g2) ?_
    rintro f hf c ⟨fd, w1, w2, w3, w4⟩
    exact bound_declared s hl hb hd hdn ⟨(hlx.2.1 f hf).1, (hlx.2.1 f hf).2.2⟩ w2 (by simp [Tree.descend, child_of_mem hg.nodup w1]) w4

end

/-! ## C66 -/

/-- C66 (constants). In the compiled tree every constant is what its definition says. -/
theorem C66_constants {source : Text} {blocks : List PBlock} {t : Tree} (hs : parseSource source = .ok blocks) (h : Compile source (.ok t))
    {b : PBlock} (hb : b ∈ blocks) {x : PConstant} (hx : x ∈ b.constants) :
    ∃ n, t.descend (splitDot b.name ++ [x.name]) = some n ∧ ConstantAs x n := by
  obtain ⟨bs, h1, h2, h3⟩ := compile_blocks h
  rw [hs] at h1; cases h1
  obtain ⟨st, _⟩ := buildAst_stages h3
  exact constant_declared st h2 hb hx

/-- C66 (enumerations). Every enumeration. -/
theorem C66_enumerations {source : Text} {blocks : List PBlock} {t : Tree} (hs : parseSource source = .ok blocks) (h : Compile source (.ok t))
    {b : PBlock} (hb : b ∈ blocks) {x : PEnum} (hx : x ∈ b.enumerations) :
    ∃ n, t.descend (splitDot b.name ++ [x.name]) = some n ∧ EnumAs x n := by
  obtain ⟨bs, h1, h2, h3⟩ := compile_blocks h
  rw [hs] at h1; cases h1
  obtain ⟨st, _⟩ := buildAst_stages h3
  exact enum_declared st h2 hb hx

/-- C66 (structures). Every structure. -/
theorem C66_structures {source : Text} {blocks : List PBlock} {t : Tree} (hs : parseSource source = .ok blocks) (h : Compile source (.ok t))
    {b : PBlock} (hb : b ∈ blocks) {x : PStruct} (hx : x ∈ b.structures) :
    ∃ n, t.descend (splitDot b.name ++ [x.name]) = some n ∧ StructAs t (splitDot b.name ++ [x.name]) x n := by
  obtain ⟨bs, h1, h2, h3⟩ := compile_blocks h
  rw [hs] at h1; cases h1
  obtain ⟨st, _⟩ := buildAst_stages h3
  exact struct_declared st h2 hb hx

/-- C66 (archives). Every archive. -/
theorem C66_archives {source : Text} {blocks : List PBlock} {t : Tree} (hs : parseSource source = .ok blocks) (h : Compile source (.ok t))
    {b : PBlock} (hb : b ∈ blocks) {x : PArchive} (hx : x ∈ b.archives) :
    ∃ n, t.descend (splitDot b.name ++ [x.name]) = some n ∧ ArchiveAs t (splitDot b.name ++ [x.name]) x n := by
  obtain ⟨bs, h1, h2, h3⟩ := compile_blocks h
  rw [hs] at h1; cases h1
  obtain ⟨st, _⟩ := buildAst_stages h3
  exact archive_declared st h2 hb hx

end Props
