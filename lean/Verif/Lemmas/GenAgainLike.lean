import Verif.Lemmas.GenAgainNodes
import Verif.Props.Gen.Accepted

/-! # Compiling the schema of a definition again: new nodes are like the compiled ones -/

namespace Gen
open Spec Props

/-! ## Enumerations and constants -/

/-- The declarations with all values written out. -/
def writtenOut (decls : List (Text × Option Int)) (vals : List Int) : List (Text × Option Int) := List.zipWith (fun d v => (d.1, some v)) decls vals

theorem writtenOut_names {decls : List (Text × Option Int)} : ∀ {vals : List Int}, vals.length = decls.length → (writtenOut decls vals).map (·.1) = decls.map (·.1) := by
  induction decls with
  | nil => intro vals h; cases vals <;> simp_all [writtenOut]
  | cons d ds ih =>
    intro vals h
    cases vals with
    | nil => cases h
    | cons v vs =>
      have := ih (vals := vs) (by simpa using h)
      simp only [writtenOut, List.zipWith_cons_cons, List.map_cons] at this ⊢
      rw [this]

theorem writtenOut_assign {decls : List (Text × Option Int)} : ∀ {vals : List Int} (c : Int), vals.length = decls.length → assign (writtenOut decls vals) c = vals := by
  induction decls with
  | nil => intro vals c h; cases vals <;> simp_all [writtenOut, assign]
  | cons d ds ih =>
    intro vals c h
    cases vals with
    | nil => cases h
    | cons v vs =>
      have := ih (vals := vs) (v + 1) (by simpa using h)
      simp only [writtenOut, List.zipWith_cons_cons] at this ⊢
      simp only [assign, Option.getD_some, this]

theorem writtenOut_declared {decls : List (Text × Option Int)} : ∀ {vals : List Int}, declared (writtenOut decls vals) vals = declared decls vals := by
  induction decls with
  | nil => intro vals; cases vals <;> simp [writtenOut, declared]
  | cons d ds ih =>
    intro vals
    cases vals with
    | nil => rfl
    | cons v vs =>
      have := ih (vals := vs)
      simp only [writtenOut, declared, List.zipWith_cons_cons] at this ⊢
      rw [this]

theorem create_writtenOut {name : Text} {type : BasicName} {width : Option Nat} {decls : List (Text × Option Int)} {e : Enumeration}
    (h : Enumeration.create name type width decls = .ok e) :
    Enumeration.create name type (some (width.getD type.width)) (writtenOut decls (assign decls 0)) = .ok e := by
  have hl := assign_length decls 0
  obtain ⟨w, l, rfl, h2, h3, h4, h5, h6, h7, h8, h9, h10, h11, rfl⟩ := (create_ok_iff ..).mp h
  rw [create_ok_iff]
  have hlen : (writtenOut decls (assign decls 0)).length = decls.length := by
    unfold writtenOut; rw [List.length_zipWith, hl, Nat.min_self]
  refine ⟨_, l, rfl, h2, h3, ?_, ?_, ?_, ?_, ?_, h9, h10, h11, ?_⟩
  · rw [writtenOut_names hl]; exact h4
  · rw [writtenOut_assign _ hl]; exact h5
  · rw [writtenOut_assign _ hl]; exact h6
  · rw [hlen]; exact h7
  · rw [writtenOut_assign _ hl, writtenOut_names hl]; exact h8
  · rw [writtenOut_assign _ hl, writtenOut_declared]; rfl

/-- The definition in the source from which a node was made. -/
theorem declaredEntry {s : Text} {t : Tree} (h : Compile s (.ok t)) {p : Path} {n : Tree} (hn : t.descend p = some n)
    (hk : (∃ b, n.kind = .enumeration b) ∨ ∃ b v, n.kind = .constant b v) :
    (∃ e d, createEnum e = .ok d ∧ EnumAs e n) ∨ ∃ c d, createConstant c = .ok d ∧ ConstantAs c n := by
  obtain ⟨blocks, hs, hl, hba⟩ := compile_blocks h
  have hplain := fun (b : PBlock) (hb : b ∈ blocks) => lexical_plain (hl b hb)
  obtain ⟨st, _⟩ := buildAst_stages hba
  obtain ⟨t0, ht0⟩ : ∃ t0, buildNodeTree blocks = .ok t0 := by
    have := st.h1
    unfold buildResolved at this
    obtain ⟨t0, h0, _⟩ := bind_ok this
    exact ⟨t0, h0⟩
  have hv := (built_merged ht0).2
  rcases C66_only hs h hn (by rcases hk with ⟨b, hk⟩ | ⟨b, v, hk⟩ <;> rw [hk] <;> rfl) with ⟨bl, hbl, name, hname, rfl⟩ | ⟨q, r, w, o, m, hr, hrk, rfl⟩
  · simp only [List.mem_append, List.mem_map] at hname
    rcases hname with ((⟨x, hx, rfl⟩ | ⟨x, hx, rfl⟩) | ⟨x, hx, rfl⟩) | ⟨x, hx, rfl⟩
    · obtain ⟨n', h1, h2⟩ := C66_constants hs h hbl hx
      rw [hn] at h1; cases h1
      obtain ⟨d, hd⟩ := (hv bl hbl).1 x hx
      exact .inr ⟨x, d, hd, h2⟩
    · obtain ⟨n', h1, h2⟩ := C66_enumerations hs h hbl hx
      rw [hn] at h1; cases h1
      obtain ⟨d, hd⟩ := (hv bl hbl).2.2.1 x hx
      exact .inl ⟨x, d, hd, h2⟩
    · obtain ⟨n', h1, h2⟩ := C66_structures hs h hbl hx
      rw [hn] at h1; cases h1
      obtain ⟨_, this⟩ := h2.kind
      rcases hk with ⟨b, hk⟩ | ⟨b, v, hk⟩ <;> rw [hk] at this <;> cases this
    · obtain ⟨n', h1, h2⟩ := C66_archives hs h hbl hx
      rw [hn] at h1; cases h1
      have := h2.kind
      rcases hk with ⟨b, hk⟩ | ⟨b, v, hk⟩ <;> rw [hk] at this <;> cases this
  · obtain ⟨_, _, _, x, sz, _, h1, h2⟩ := C63_index_type hplain hba hr hrk
    rw [hn] at h2; cases h2
    rcases hk with ⟨b, hk⟩ | ⟨b, v, hk⟩ <;> rw [hk] at h1 <;> cases h1

theorem zip_written {names : List Text} : ∀ {vals : List Int}, names.length = vals.length →
    ((names.zip vals).map fun x => (x.1, Kind.enumValue x.2 false)).filterMap (fun y => match y.2 with | .enumValue x false => some (y.1, some x) | _ => none) =
      (names.zip vals).map fun x => (x.1, some x.2) := by
  induction names with
  | nil => intro vals _; rfl
  | cons a l ih =>
    intro vals h
    cases vals with
    | nil => cases h
    | cons v vs =>
      simp only [List.zip_cons_cons, List.map_cons, List.filterMap_cons, ih (vals := vs) (by simpa using h)]

theorem zip_writtenOut {decls : List (Text × Option Int)} : ∀ {vals : List Int}, ((decls.map (·.1)).zip vals).map (fun x => (x.1, some x.2)) = writtenOut decls vals := by
  induction decls with
  | nil => intro vals; cases vals <;> rfl
  | cons d ds ih =>
    intro vals
    cases vals with
    | nil => rfl
    | cons v vs =>
      have := ih (vals := vs)
      simp only [writtenOut, List.map_cons, List.zip_cons_cons, List.zipWith_cons_cons] at this ⊢
      rw [this]

/-- The values that are written out. -/
theorem enum_values {e : PEnum} {n : Tree} (ha : EnumAs e n) : n.children.filterMap enumValueRecord = writtenOut e.values (assign e.values 0) := by
  obtain ⟨gen, g1, g2, g3⟩ := ha.declared _ (assign_assignment e.values)
  have hm : n.children.filterMap enumValueRecord = (members n).filterMap enumValueRecord := by
    unfold members
    rw [List.filterMap_filter]
    apply List.filterMap_congr
    intro c _
    split
    · rfl
    · rename_i hc
      simp only [decide_eq_true_eq, not_not] at hc
      unfold enumValueRecord
      rcases hc with hc | hc | ⟨_, hc⟩ <;> rw [hc]
  have hf : (members n).filterMap enumValueRecord = ((members n).map fun c => (c.name, c.kind)).filterMap
      (fun y => match y.2 with | .enumValue x false => some (y.1, some x) | _ => none) := by
    rw [List.filterMap_map]; rfl
  rw [hm, hf, g1, List.filterMap_append, zip_written (by rw [List.length_map, assign_length]), zip_writtenOut]
  have : (gen.map fun v => (generatedName v, Kind.enumValue v true)).filterMap (fun y => match y.2 with | .enumValue x false => some (y.1, some x) | _ => none) = [] := by
    rw [List.filterMap_eq_nil_iff]
    intro y hy
    obtain ⟨v, _, rfl⟩ := List.mem_map.mp hy
    rfl
  rw [this, List.append_nil]

/-- An enumeration is created again. -/
theorem enumCreated {e : PEnum} {d n : Tree} (he : createEnum e = .ok d) (ha : EnumAs e n) {b : BasicType} (hk : n.kind = .enumeration b) :
    createEnum (enumerationRecord n b) = .ok d ∧ d.name = n.name ∧ d.kind = n.kind ∧
      ∀ c ∈ d.children, c.children = [] ∧ ∃ c' ∈ n.children, c'.name = c.name ∧ c'.kind = c.kind ∧ ∃ v g, c.kind = .enumValue v g := by
  have hkn := ha.kind
  rw [hk] at hkn
  injection hkn with hb
  obtain ⟨f1, f2, f0, f3⟩ := createEnum_form he
  have has := assign_assignment e.values
  obtain ⟨gen, g1, g2, g3⟩ := ha.declared _ has
  obtain ⟨gen', g1', g2', g3'⟩ := f3 _ has
  have hval := enum_values ha
  refine ⟨?_, f1.trans ha.name.symm, by rw [f2, ha.kind], ?_⟩
  · have he' := he
    unfold createEnum at he' ⊢
    unfold enumerationRecord
    obtain ⟨t0, h0, he'⟩ := bind_ok he'
    obtain ⟨r, h1, he'⟩ := bind_ok he'
    rw [hval, hb, ha.name]
    simp only [h0, create_writtenOut h1, bind, Except.bind]
    simpa [bind, Except.bind] using he'
  · have key : ∀ (l : List EnumValue) (vs : List Tree), Created (l.map fun v => Tree.create v.name (.enumValue v.value v.autoGenerated)) vs →
        ∀ c ∈ vs, c.children = [] := by
      intro l
      induction l with
      | nil => intro vs h c hc; cases h; cases hc
      | cons v l ih =>
        intro vs h c hc
        cases h with
        | cons c1 c2 =>
          obtain ⟨rfl, _⟩ := create_ok c1
          rcases List.mem_cons.mp hc with rfl | hc
          · rfl
          · exact ih _ c2 c hc
    have hleaf : ∀ c ∈ d.children, c.children = [] := by
      obtain ⟨t0, h0, he'⟩ := bind_ok he
      obtain ⟨r, h1, he'⟩ := bind_ok he'
      obtain ⟨vs, hvs, he'⟩ := bind_ok he'
      cases he'
      exact key _ _ (mapM_created hvs)
    intro c hc
    refine ⟨hleaf c hc, ?_⟩
    have hmem : (c.name, c.kind) ∈ info d := List.mem_map.mpr ⟨c, hc, rfl⟩
    have hin : (c.name, c.kind) ∈ (members n).map fun c => (c.name, c.kind) := by
      rw [g1]
      rw [g1'] at hmem
      rcases List.mem_append.mp hmem with hm | hm
      · exact List.mem_append_left _ hm
      · obtain ⟨v, hv, hve⟩ := List.mem_map.mp hm
        refine List.mem_append_right _ (List.mem_map.mpr ⟨v, ?_, hve⟩)
        have h1 := (g3 v).mpr ((g3' v).mp (by simp [hv]))
        rcases List.mem_append.mp h1 with h1 | h1
        · exact absurd rfl ((List.nodup_append.mp g2').2.2 v h1 v hv)
        · exact h1
    obtain ⟨c', hc', hce⟩ := List.mem_map.mp hin
    simp only [Prod.mk.injEq] at hce
    refine ⟨c', (List.mem_filter.mp hc').1, hce.1, hce.2, ?_⟩
    rw [g1'] at hmem
    rcases List.mem_append.mp hmem with hm | hm <;> obtain ⟨z, _, hz⟩ := List.mem_map.mp hm <;> simp only [Prod.mk.injEq] at hz <;>
      exact ⟨_, _, hz.2.symm⟩

/-- A constant is created again. -/
theorem constantCreated {c : PConstant} {d n : Tree} (he : createConstant c = .ok d) (ha : ConstantAs c n) :
    definitionRecord n = some (.constant c) ∧ d = .mk n.name n.kind [] := by
  constructor
  · unfold definitionRecord
    rw [ha.kind]
    simp only [ha.name]
  · unfold createConstant at he
    obtain ⟨r, h1, h2⟩ := bind_ok he
    obtain ⟨rfl, _⟩ := create_ok h2
    obtain ⟨_, rfl⟩ := (C41_constant_accepted_iff ..).mp h1
    rw [ha.kind, ha.name]

/-! ## Likeness -/

/-- Attributes as they are after parsing a normal form. -/
def Kind.gist : Kind → Kind
  | .field (.basic b) r _ => .field (.basic b) r none
  | .field _ r _ => .field .none r none
  | .structure _ => .structure none
  | .resource k _ _ => .resource k false none
  | .ref (.enumeration _) => .ref (.enumeration none)
  | k => k

/-- Everything in `a` has a counterpart in `b`. Only explicit references may have other names. -/
inductive Like : Tree → Tree → Prop
  | mk {a b : Tree} (g : Tree → Tree) (hk : a.kind.gist = b.kind.gist)
      (he : ∀ c ∈ a.children, ∀ w, c.kind = .ref (.enumeration (some w)) → ∃ e bt rg o, b.kind = .field (.enum e bt) rg o ∧ w = bt.width)
      (hm : ∀ c ∈ a.children, g c ∈ b.children ∧ (c.kind = .explicitReference ∨ c.name = (g c).name))
      (hl : ∀ c ∈ a.children, Like c (g c)) : Like a b

theorem Like.intro {a b : Tree} (hk : a.kind.gist = b.kind.gist)
    (he : ∀ c ∈ a.children, ∀ w, c.kind = .ref (.enumeration (some w)) → ∃ e bt rg o, b.kind = .field (.enum e bt) rg o ∧ w = bt.width)
    (h : ∀ c ∈ a.children, ∃ d ∈ b.children, (c.kind = .explicitReference ∨ c.name = d.name) ∧ Like c d) : Like a b := by
  classical
  refine .mk (fun c => if hc : c ∈ a.children then (h c hc).choose else c) hk he ?_ ?_
  · intro c hc
    simp only [hc, dif_pos]
    exact ⟨(h c hc).choose_spec.1, (h c hc).choose_spec.2.1⟩
  · intro c hc
    simp only [hc, dif_pos]
    exact (h c hc).choose_spec.2.2

theorem Like.kind {a b : Tree} (h : Like a b) : a.kind.gist = b.kind.gist := by cases h; assumption

theorem Like.widths {a b : Tree} (h : Like a b) : ∀ c ∈ a.children, ∀ w, c.kind = .ref (.enumeration (some w)) → ∃ e bt rg o, b.kind = .field (.enum e bt) rg o ∧ w = bt.width := by
  cases h; assumption

theorem Like.child {a b c : Tree} (h : Like a b) (hc : c ∈ a.children) : ∃ d ∈ b.children, (c.kind = .explicitReference ∨ c.name = d.name) ∧ Like c d := by
  cases h with
  | mk g _ _ hm hl => exact ⟨g c, (hm c hc).1, (hm c hc).2, hl c hc⟩

theorem like_leaf {a b : Tree} (hk : a.kind.gist = b.kind.gist) (h : a.children = []) : Like a b :=
  .intro hk (by rw [h]; simp) (by rw [h]; simp)

/-! ### Classes -/

theorem gist_ref {k : Kind} {rk : RefKind} (h : k.gist = Kind.gist (.ref rk)) : ∃ rk', k = .ref rk' ∧ Kind.gist (.ref rk') = Kind.gist (.ref rk) := by
  cases k with
  | ref r => exact ⟨r, rfl, h⟩
  | field a b c => cases a <;> cases rk <;> simp [Kind.gist] at h
  | _ => cases rk <;> simp [Kind.gist] at h

theorem gist_field {k : Kind} {ty rg o} (h : k.gist = Kind.gist (.field ty rg o)) : ∃ ty' o', k = .field ty' rg o' ∧ ∀ b, ty' = .basic b ↔ ty = .basic b := by
  cases k with
  | field a b c => cases a <;> cases ty <;> simp_all [Kind.gist]
  | ref r => cases r <;> cases ty <;> simp [Kind.gist] at h
  | _ => cases ty <;> simp [Kind.gist] at h

theorem gist_resource {k : Kind} {rk o m} (h : k.gist = Kind.gist (.resource rk o m)) : ∃ o' m', k = .resource rk o' m' := by
  cases k with
  | field a b c => cases a <;> simp [Kind.gist] at h
  | ref r => cases r <;> simp [Kind.gist] at h
  | _ => simp_all [Kind.gist]

theorem gist_structure {k : Kind} {sz} (h : k.gist = Kind.gist (.structure sz)) : ∃ sz', k = .structure sz' := by
  cases k with
  | field a b c => cases a <;> simp [Kind.gist] at h
  | ref r => cases r <;> simp [Kind.gist] at h
  | _ => simp_all [Kind.gist]

/-- Classes without computed attributes. -/
def Kind.plainClass : Kind → Bool
  | .field .. | .structure _ | .resource .. | .ref _ => false
  | _ => true

theorem gist_plain {k k' : Kind} (h : k.gist = k'.gist) (hp : k'.plainClass = true) : k = k' := by
  cases k' with
  | field a b c => cases hp
  | «structure» s => cases hp
  | resource r o m => cases hp
  | ref r => cases hp
  | _ =>
    cases k with
    | field a b c => cases a <;> simp [Kind.gist] at h
    | ref r => cases r <;> simp [Kind.gist] at h
    | _ => simp_all [Kind.gist]

theorem gist_ref_eq {rk : RefKind} {k : Kind} (h : k.gist = Kind.gist (.ref rk)) (hne : ∀ w, rk ≠ .enumeration w) : k = .ref rk := by
  obtain ⟨rk', rfl, h'⟩ := gist_ref h
  cases rk <;> cases rk' <;> simp_all [Kind.gist]

theorem gist_fits {rk : RefKind} {k k' : Kind} (h : k.gist = k'.gist) (hf : KindFits rk k') : KindFits rk k := by
  cases rk <;> simp only [KindFits] at hf ⊢
  case «structure» => obtain ⟨s, rfl⟩ := hf; exact gist_structure h
  case builtinStructure => obtain ⟨s, rfl⟩ := hf; exact gist_structure h
  case archive => subst hf; exact gist_plain h rfl
  case resource => obtain ⟨r, o, m, rfl⟩ := hf; obtain ⟨o', m', e⟩ := gist_resource h; exact ⟨_, _, _, e⟩
  case vector => obtain ⟨o, m, rfl⟩ := hf; exact gist_resource h
  case field => obtain ⟨a, r, o, rfl⟩ := hf; obtain ⟨a', o', e, _⟩ := gist_field h; exact ⟨_, _, _, e⟩
  case constantValue => obtain ⟨a, v, rfl⟩ := hf; exact ⟨a, v, gist_plain h rfl⟩
  case invalidValue => obtain ⟨a, v, rfl⟩ := hf; exact ⟨a, v, gist_plain h rfl⟩
  case enumeration => obtain ⟨a, rfl⟩ := hf; exact ⟨a, gist_plain h rfl⟩

theorem fits_similar {rk rk' : RefKind} {k : Kind} (h : Kind.gist (.ref rk) = Kind.gist (.ref rk')) (hf : KindFits rk k) : KindFits rk' k := by
  cases rk <;> cases rk' <;> simp_all [Kind.gist, KindFits]

/-! ### New nodes -/

section
variable {t : Tree} (hc : Compiled t)
include hc

theorem Compiled.likeRef {q : Path} {n c : Tree} {rk : RefKind} (hn : t.descend q = some n) (hcm : c ∈ n.children) (hk : c.kind = .ref rk) : Like c c :=
  like_leaf rfl (hc.lk.leaf _ c rk (hc.child hn hcm) hk)

theorem Compiled.explicitLike (hf : Flat t) {q : Path} {e : Tree} (he : t.descend q = some e) (hk : e.kind = .explicitReference) : Like (plainExplicit e) e := by
  obtain ⟨d, f, s, hch, hd, hfk, hs⟩ := hc.explicitChildren hf he hk
  have hall : ∀ c ∈ e.children, ∃ rk, c.kind = .ref rk ∧ ∀ w, rk ≠ .enumeration w := by
    intro c hcm
    rw [hch] at hcm
    simp only [List.mem_cons, List.not_mem_nil, or_false] at hcm
    rcases hcm with rfl | rfl | rfl
    · exact ⟨_, hd, by simp⟩
    · exact ⟨_, hfk, by simp⟩
    · exact ⟨_, hs, by simp⟩
  refine .intro (by rw [hk]; rfl) ?_ ?_
  · intro c hcm w hck
    obtain ⟨rk, h1, h2⟩ := hall c hcm
    rw [h1] at hck; cases hck; exact absurd rfl (h2 _)
  · intro c hcm
    obtain ⟨rk, h1, _⟩ := hall c hcm
    exact ⟨c, hcm, .inr rfl, hc.likeRef he hcm h1⟩

omit hc in
theorem fieldConstants_mem {f x : Tree} (hx : x ∈ fieldConstants f) : x ∈ f.children ∧ (x.kind = .ref .constantValue ∨ x.kind = .ref .invalidValue) := by
  unfold fieldConstants childrenOf at hx
  simp only [List.mem_append, List.mem_filter, decide_eq_true_eq] at hx
  rcases hx with ⟨h1, h2⟩ | ⟨h1, h2⟩
  · exact ⟨h1, .inl h2⟩
  · exact ⟨h1, .inr h2⟩

theorem Compiled.fieldLike {q : Path} {f : Tree} (hn : t.descend q = some f) (hk : f.kind.isField = true) : Like (plainField f) f := by
  have hcons : ∀ x ∈ fieldConstants f, ∃ d ∈ f.children, (x.kind = .explicitReference ∨ x.name = d.name) ∧ Like x d := by
    intro x hx
    obtain ⟨h1, h2 | h2⟩ := fieldConstants_mem hx <;> exact ⟨x, h1, .inr rfl, hc.likeRef hn h1 h2⟩
  have hnone : ∀ x ∈ fieldConstants f, ∀ w, x.kind ≠ .ref (.enumeration w) := by
    intro x hx w
    obtain ⟨h1, h2 | h2⟩ := fieldConstants_mem hx <;> rw [h2] <;> simp
  unfold plainField
  split
  · rename_i b rg o hfk
    refine .intro (by rw [hfk]; rfl) ?_ hcons
    intro c hcm w hck; exact absurd hck (hnone c hcm _)
  · rename_i e b rg o hfk
    refine .intro (by rw [hfk]; rfl) ?_ ?_
    · intro c hcm w hck
      rcases List.mem_append.mp hcm with hcm | hcm
      · exact absurd hck (hnone c hcm _)
      · obtain ⟨x, _, rfl⟩ := List.mem_map.mp hcm
        simp only [Tree.kind, Kind.ref.injEq, RefKind.enumeration.injEq, Option.some.injEq] at hck
        exact ⟨e, b, rg, o, hfk, hck.symm⟩
    · intro c hcm
      rcases List.mem_append.mp hcm with hcm | hcm
      · exact hcons c hcm
      · obtain ⟨x, hx, rfl⟩ := List.mem_map.mp hcm
        rw [List.mem_filter] at hx
        refine ⟨x, hx.1, .inr rfl, like_leaf ?_ rfl⟩
        cases hxk : x.kind with
        | ref rk => cases rk <;> first | rfl | (rw [hxk] at hx; simp [Kind.isEnumerationReference] at hx)
        | _ => rw [hxk] at hx; simp [Kind.isEnumerationReference] at hx
  · rename_i h1 h2
    cases hfk : f.kind <;> rw [hfk] at hk <;> first | (cases hk; done) | skip
    rename_i ty rg o
    rcases hc.typed q f ty rg o hn hfk with ⟨b, rfl⟩ | ⟨ref, _, w, m, b, _, _, _, rfl⟩
    · exact absurd hfk (h1 _ _ _)
    · exact absurd hfk (h2 _ _ _ _)

omit hc in
theorem typeChildren_mem {r x : Tree} (hx : x ∈ typeChildren r) : x ∈ r.children ∧ ∃ rk, x.kind = .ref rk ∧ ∀ w, rk ≠ .enumeration w := by
  unfold typeChildren childrenOf at hx
  simp only [List.mem_append, List.mem_filter, decide_eq_true_eq] at hx
  rcases hx with (⟨h1, h2⟩ | ⟨h1, h2⟩) | ⟨h1, h2⟩ <;> exact ⟨h1, _, h2, by simp⟩

omit hc in
theorem plainResKind_gist (k : Kind) : (plainResKind k).gist = k.gist := by
  unfold plainResKind
  split <;> rfl

theorem Compiled.resourceLike (hf : Flat t) {q : Path} {r : Tree} (hr : t.descend q = some r) : Like (plainResource r) r := by
  refine .intro (plainResKind_gist _) ?_ ?_
  · intro c hcm w hck
    rcases List.mem_append.mp hcm with hcm | hcm
    · obtain ⟨e, _, rfl⟩ := List.mem_map.mp hcm
      simp [plainExplicit, Tree.kind] at hck
    · obtain ⟨_, rk, h1, h2⟩ := typeChildren_mem hcm
      rw [h1] at hck; cases hck; exact absurd rfl (h2 _)
  · intro c hcm
    rcases List.mem_append.mp hcm with hcm | hcm
    · obtain ⟨e, he, rfl⟩ := List.mem_map.mp hcm
      unfold childrenOf at he
      rw [List.mem_filter, decide_eq_true_iff] at he
      exact ⟨e, he.1, .inl rfl, hc.explicitLike hf (hc.child hr he.1) he.2⟩
    · obtain ⟨h0, rk, h1, _⟩ := typeChildren_mem hcm
      exact ⟨c, h0, .inr rfl, hc.likeRef hr h0 h1⟩

omit hc in
theorem plainArchive_mem {n c : Tree} (h : c ∈ (plainArchive n).children) : ∃ r ∈ n.children, c = plainResource r ∧ r.kind.isResource = true := by
  unfold plainArchive at h
  simp only [Tree.children, List.mem_append, List.mem_map, List.mem_filter] at h
  rcases h with ⟨r, ⟨h1, h2⟩, rfl⟩ | ⟨r, ⟨h1, h2⟩, rfl⟩
  · unfold isPlainRes at h2
    rw [Bool.and_eq_true] at h2
    exact ⟨r, h1, rfl, h2.1⟩
  · unfold isBoundRes at h2
    refine ⟨r, h1, rfl, ?_⟩
    cases hk : r.kind <;> rw [hk] at h2 <;> first | (cases h2; done) | rfl

omit hc in
theorem plainArchive_has {n r : Tree} (h : r ∈ n.children) (hk : r.kind.isResource = true) : plainResource r ∈ (plainArchive n).children := by
  unfold plainArchive
  simp only [Tree.children, List.mem_append, List.mem_map, List.mem_filter]
  by_cases hb : r.kind.isBoundResource = true
  · exact .inr ⟨r, ⟨h, hb⟩, rfl⟩
  · refine .inl ⟨r, ⟨h, ?_⟩, rfl⟩
    unfold isPlainRes
    rw [hk]; simpa using hb

omit hc in
theorem plainResKind_resource {k : Kind} (h : k.isResource = true) : (plainResKind k).isResource = true := by
  cases k <;> first | (cases h; done) | skip
  rename_i a b c
  cases a <;> rfl

theorem Compiled.archiveLike (hf : Flat t) {q : Path} {n : Tree} (hn : t.descend q = some n) (hk : n.kind = .archive) : Like (plainArchive n) n := by
  refine .intro (by rw [hk]; rfl) ?_ ?_
  · intro c hcm w hck
    obtain ⟨r, _, rfl, h2⟩ := plainArchive_mem hcm
    have h3 : (plainResource r).kind.isResource = true := plainResKind_resource h2
    rw [hck] at h3; cases h3
  · intro c hcm
    obtain ⟨r, h1, rfl, h2⟩ := plainArchive_mem hcm
    exact ⟨r, h1, .inr rfl, hc.resourceLike hf (hc.child hn h1)⟩

theorem Compiled.structureLike {q : Path} {n : Tree} {sz : Option Nat} (hn : t.descend q = some n) (hk : n.kind = .structure sz)
    (hall : ∀ c ∈ n.children, c.kind.isField = true) : Like (plainStructure n) n := by
  refine .intro (by rw [hk]; rfl) ?_ ?_
  · intro c hcm w hck
    obtain ⟨f, h1, rfl⟩ := List.mem_map.mp hcm
    have h2 := hall f h1
    unfold plainField at hck
    split at hck <;> simp only [Tree.kind, reduceCtorEq] at hck
    have hck' : f.kind = _ := hck
    rw [hck'] at h2; cases h2
  · intro c hcm
    obtain ⟨f, h1, rfl⟩ := List.mem_map.mp hcm
    exact ⟨f, h1, .inr (plainField_name f), hc.fieldLike (hc.child hn h1) (hall f h1)⟩

end

/-- Fields and resources of `n` and the structures of resources are in `d`. -/
def Full (d n : Tree) : Prop := ∀ c ∈ n.children, (c.kind.isField = true ∨ c.kind.isResource = true) → ∃ c' ∈ d.children, c'.name = c.name ∧
  (c.kind.isResource = true → ∀ x ∈ c.children, x.kind = .ref .structure → x ∈ c'.children)

/-- The name of the record of a definition. -/
theorem entryAgain {s : Text} {t : Tree} (h : Compile s (.ok t)) (hf : Flat t) {p : Path} {n : Tree} (hn : t.descend p = some n) {e : PEntry}
    (he : definitionRecord n = some e) (ha : ∀ r ∈ n.children, ExplicitApart r) :
    ∃ d, entryCreate e = .ok d ∧ d.name = n.name ∧ Like d n ∧ Full d n := by
  have hc := compile_compiled h
  obtain ⟨blocks, hs, hl, hba⟩ := compile_blocks h
  have hplain := fun (b : PBlock) (hb : b ∈ blocks) => lexical_plain (hl b hb)
  obtain ⟨st, _⟩ := buildAst_stages hba
  unfold definitionRecord at he
  split at he
  · rename_i sz hk
    cases he
    have hall : ∀ c ∈ n.children, c.kind.isField = true := by
      intro c hcm
      have hns : c.kind ≠ .namespace := by
        intro hck
        rcases hf p c.name c (hc.child hn hcm) hck with rfl | ⟨m, hm, hmk⟩
        · simp only [Tree.descend, Option.some.injEq] at hn
          subst hn; rw [hc.rootKind] at hk; cases hk
        · rw [hn] at hm; cases hm
          rw [hk] at hmk; cases hmk
      obtain ⟨k, ks, e1, e2, e3⟩ := compiled_kinds h hn
      rcases e3 c hcm hns with ⟨x, hx, hxk⟩ | ⟨e4, _⟩
      · have : ∃ sz', k = .structure sz' := by
          rw [hk] at e1
          cases k <;> simp [Kind.blank] at e1 ⊢
        obtain ⟨sz', rfl⟩ := this
        rw [← blank_isField hxk]
        exact e2 x hx
      · rw [hk] at e4; cases e4
    have hw := fun q f ty rg o (hq : t.descend q = some f) (hk : f.kind = .field ty rg o) => (C62_layout hplain hba hq).2 ty rg o hk
    have hone : ∀ q f ty rg o, t.descend q = some f → f.kind = .field ty rg o → ∀ a ∈ f.children, ∀ b ∈ f.children, a.kind.isEnumerationReference = true →
        b.kind.isEnumerationReference = true → a = b := by
      intro q f ty rg o hq hk a ha b hb h1 h2
      have hlen := one_enumeration st hl hq hk
      have ha' : a ∈ f.childrenLike Kind.isEnumerationReference := List.mem_filter.mpr ⟨ha, h1⟩
      have hb' : b ∈ f.childrenLike Kind.isEnumerationReference := List.mem_filter.mpr ⟨hb, h2⟩
      match hx : f.childrenLike Kind.isEnumerationReference, hlen, ha', hb' with
      | [], _, ha', _ => cases ha'
      | [x], _, ha', hb' => simp only [List.mem_singleton] at ha' hb'; rw [ha', hb']
    refine ⟨plainStructure n, hc.structureCreated hw hone hn hk hall, rfl, hc.structureLike hn hk hall, ?_⟩
    intro c hcm _
    refine ⟨plainField c, List.mem_map_of_mem hcm, plainField_name c, fun hr => ?_⟩
    have := hall c hcm
    cases hck : c.kind <;> rw [hck] at this hr <;> first | (cases this; done) | cases hr
  · rename_i b hk
    cases he
    rcases declaredEntry h hn (.inl ⟨b, hk⟩) with ⟨x, d, h1, h2⟩ | ⟨x, d, h1, h2⟩
    · obtain ⟨g1, g2, g3, g4⟩ := enumCreated h1 h2 hk
      refine ⟨d, g1, g2, .intro (by rw [g3]) ?_ ?_, ?_⟩
      · intro c hcm w hck
        obtain ⟨_, _, _, _, _, v, g, e⟩ := g4 c hcm
        rw [e] at hck; cases hck
      · intro c hcm
        obtain ⟨e1, c', e2, e3, e4, _⟩ := g4 c hcm
        exact ⟨c', e2, .inr e3.symm, like_leaf (by rw [e4]) e1⟩
      · intro c hcm hck
        exfalso
        obtain ⟨k, ks, e1, e2, e3⟩ := compiled_kinds h hn
        rcases e3 c hcm (by rintro e; rw [e] at hck; rcases hck with hck | hck <;> cases hck) with ⟨y, hy, hyk⟩ | ⟨e4, _⟩
        · have : ∃ b', k = .enumeration b' := by
            rw [hk] at e1
            cases k <;> simp [Kind.blank] at e1 ⊢
          obtain ⟨b', rfl⟩ := this
          have hev : Spec.Kind.isEnumValue y = true := e2 y hy
          cases y <;> first | (cases hev; done) | skip
          cases hck' : c.kind <;> rw [hck'] at hyk hck <;> simp [Kind.blank, Kind.isField, Kind.isResource] at hyk hck
        · rw [hk] at e4; cases e4
    · have := h2.kind; rw [hk] at this; cases this
  · rename_i b v hk
    cases he
    rcases declaredEntry h hn (.inr ⟨b, v, hk⟩) with ⟨x, d, h1, h2⟩ | ⟨x, d, h1, h2⟩
    · have := h2.kind; rw [hk] at this; cases this
    · obtain ⟨g1, g2⟩ := constantCreated h1 h2
      unfold definitionRecord at g1
      rw [hk] at g1
      simp only [Option.some.injEq, PEntry.constant.injEq] at g1
      refine ⟨d, by rw [← g1] at h1; exact h1, by rw [g2]; rfl, like_leaf (by rw [g2]; rfl) (by rw [g2]; rfl), ?_⟩
      intro c hcm hck
      have := h2.members
      exfalso
      have hmem : c ∈ members n := by
        unfold members
        rw [List.mem_filter, decide_eq_true_iff]
        refine ⟨hcm, ?_⟩
        rintro (e | e | ⟨_, e⟩) <;> rw [e] at hck <;> rcases hck with hck | hck <;> cases hck
      rw [this] at hmem; cases hmem
  · rename_i hk
    cases he
    have h105 : ∀ q e s f, t.descend q = some e → e.kind = .explicitReference → s ∈ e.children → s.kind = .ref .structure → f ∈ e.children →
        f.kind = .ref .field → ∃ k, f.targetPath = s.targetPath ++ [k] := by
      intro q e s f h1 h2 h3 h4 h5 h6
      obtain ⟨_, _, c, _, _, _, _, _, _, _, e⟩ := C105_field_of_structure h hf h1 h2 h3 h4 h5 h6
      exact ⟨_, e⟩
    refine ⟨plainArchive n, hc.archiveCreated hf h105 hn hk ha, rfl, hc.archiveLike hf hn hk, ?_⟩
    intro c hcm hck
    have hres : c.kind.isResource = true := by
      rcases hck with hck | hck
      · exfalso
        have hfk : ∃ ty rg o, c.kind = .field ty rg o := isField_iff.mp hck
        obtain ⟨ty, rg, o, hfk⟩ := hfk
        obtain ⟨m, sz, h1, h2, _⟩ := field_parent h (hc.child hn hcm) hfk
        rw [hn] at h1; cases h1
        rw [hk] at h2; cases h2
      · exact hck
    refine ⟨plainResource c, plainArchive_has hcm hres, rfl, fun _ x hx hxk => ?_⟩
    unfold plainResource typeChildren childrenOf
    simp only [Tree.children, List.mem_append, List.mem_filter, decide_eq_true_eq]
    exact .inr (.inl (.inl ⟨hx, hxk⟩))
  · cases he

end Gen
