import Verif.Spec.NativeArchives
import Verif.Props.Gen.NativeConstants
import Verif.Props.Gen.Usage
import Verif.Props.Native.PythonOpens

/-!
# C98: archives in Rust
-/

namespace Props
open Py Gen Spec Model Model.Native _root_.Native

/-! ## Index types -/

theorem occursIn_iff {x t : Text} : occursIn x t = true ↔ x <:+: t := by
  induction t with
  | nil => unfold occursIn; rw [List.infix_nil, List.isEmpty_iff]
  | cons c t ih =>
    unfold occursIn
    rw [Bool.or_eq_true, ih, List.infix_cons_iff, List.isPrefixOf_iff_prefix]

/-- A dot in a joined text: what is before it, up to the last dot, is one of the parts. -/
theorem joined_dot {ns : List Text} (hd : ∀ k ∈ ns, '.' ∉ k) : ∀ {a b x : Text}, joinTexts ['.'] ns = a ++ '.' :: b → x <:+ a → '.' ∉ x → ∃ k ∈ ns, x <:+ k := by
  induction ns with
  | nil => intro a b x h; cases a <;> cases h
  | cons k ns ih =>
    intro a b x h hx hxd
    cases ns with
    | nil =>
      simp only [joinTexts] at h
      exact absurd (by rw [h]; simp) (hd k (by simp))
    | cons k' ns =>
      rw [joinTexts.eq_3 _ _ _ (by simp)] at h
      rw [List.append_assoc] at h
      rcases List.append_eq_append_iff.mp h with ⟨c, h1, h2⟩ | ⟨c, h1, h2⟩
      · cases c with
        | nil => exact ⟨k, by simp, by rw [h1, List.append_nil] at hx; exact hx⟩
        | cons y c =>
          simp only [List.cons_append, List.nil_append, List.cons.injEq] at h2
          obtain ⟨rfl, h2⟩ := h2
          have hxc : x <:+ c := by
            have h3 : ('.' :: c) <:+ a := ⟨k, h1.symm⟩
            rcases List.suffix_or_suffix_of_suffix hx h3 with h4 | h4
            · rcases List.suffix_cons_iff.mp h4 with rfl | h4
              · simp at hxd
              · exact h4
            · exact absurd (h4.subset (by simp)) hxd
          obtain ⟨w, hw, hwa⟩ := ih (fun k hk => hd k (by simp [hk])) h2 hxc hxd
          exact ⟨w, by simp [hw], hwa⟩
      · cases c with
        | nil => exact ⟨k, by simp, by rw [List.append_nil] at h1; rw [h1]; exact hx⟩
        | cons y c =>
          simp only [List.cons_append, List.cons.injEq] at h2
          exact absurd (by rw [h1, ← h2.1]; simp) (hd k (by simp))

theorem not_indexPath {ns : List Text} (hd : ∀ k ∈ ns, '.' ∉ k) (hn : NoBuiltinEnd ns) : occursIn "_builtin.multivector".toList (joinTexts ['.'] ns) = false := by
  rw [Bool.eq_false_iff]
  intro ho
  obtain ⟨u, v, h⟩ := occursIn_iff.mp ho
  have h' : joinTexts ['.'] ns = (u ++ "_builtin".toList) ++ '.' :: ("multivector".toList ++ v) := by
    rw [← h]
    simp only [show "_builtin.multivector".toList = "_builtin".toList ++ '.' :: "multivector".toList from rfl, List.append_assoc, List.cons_append]
  obtain ⟨k, hk, hs⟩ := joined_dot hd h' (List.suffix_append _ _) (by decide)
  exact hn k hk hs

theorem is_indexPath (ns : List Text) : occursIn "_builtin.multivector".toList (joinTexts ['.'] (ns ++ ["_builtin".toList, "multivector".toList])) = true := by
  obtain ⟨pre, h⟩ := joinTexts_append ['.'] ns ["_builtin".toList, "multivector".toList] (by simp)
  rw [h, occursIn_iff]
  exact ⟨pre, [], by rw [List.append_nil]; rfl⟩

section
variable {source : Text} {blocks : List PBlock} {t : Tree} (hs : parseSource source = .ok blocks) (h : Compile source (.ok t)) (hf : Flat t)
  (hno : ∀ b ∈ blocks, NoBuiltinEnd (splitDot b.name))
include hs h hf hno

omit hs h hf in
theorem no_builtin_name : ∀ b ∈ blocks, "_builtin".toList ∉ splitDot b.name := fun b hb hm => hno b hb _ hm (List.suffix_refl _)

/-- Index types are the structures that were not written in the schema. -/
theorem index_iff {p : Path} {n : Tree} (hn : t.descend p = some n) (hd : Spec.Kind.isDefinition n.kind = true) :
    (isIndexPath t p = true ∧ ∃ q r w o m, t.descend q = some r ∧ r.kind = .resource (.multivector w) o m ∧ p = indexTypePath q w) ∨
    (isIndexPath t p = false ∧ "_builtin".toList ∉ p.dropLast) := by
  have hc := compile_compiled h
  obtain ⟨ns, k, rfl, _, _, hns, hnames⟩ := hc.namespaces hf hn hd
  have hdots : ∀ x ∈ ns, '.' ∉ x := fun x hx => idChar_dot (hnames x hx).2
  unfold isIndexPath
  rw [hns, List.dropLast_concat]
  rcases C66_only hs h hn hd with ⟨b, hb, k', _, he⟩ | ⟨q, r, w, o, m, e1, e2, he⟩
  · right
    obtain ⟨rfl, _⟩ := List.append_inj' he rfl
    exact ⟨not_indexPath hdots (hno b hb), no_builtin_name hno b hb⟩
  · left
    have : ns = q.dropLast.dropLast ++ ["_builtin".toList, "multivector".toList] := by
      have : q.dropLast.dropLast ++ ["_builtin".toList, "multivector".toList, "IndexType".toList ++ natText w] =
        (q.dropLast.dropLast ++ ["_builtin".toList, "multivector".toList]) ++ ["IndexType".toList ++ natText w] := by
        simp only [List.append_assoc, List.cons_append, List.nil_append]
      rw [this] at he
      exact (List.append_inj' he rfl).1
    refine ⟨by rw [this]; exact is_indexPath _, q, r, w, o, m, e1, e2, he⟩

omit hf hno in
/-- The index type of a multivector. -/
theorem index_structure (hnb : ∀ b ∈ blocks, "_builtin".toList ∉ splitDot b.name) {p : Path} {n : Tree} {w : Nat} {o : Bool} {m : Option Nat}
    (hn : t.descend p = some n) (hk : n.kind = .resource (.multivector w) o m) :
    ∃ x f, t.descend (indexTypePath p w) = some x ∧ x.kind = .structure (some (if w = 0 then 64 else w)) ∧ x.fields = [f] ∧ f.name = "value".toList ∧
      f.kind = .field (.basic ⟨.u64, if w = 0 then 64 else w⟩) (some "range".toList) (some 0) := by
  obtain ⟨bs, h1, h2, h3⟩ := compile_blocks h
  rw [hs] at h1; cases h1
  have hb : ∀ b ∈ blocks, Spec.PlainNames b := fun b hb => lexical_plain (h2 b hb)
  obtain ⟨s, _⟩ := buildAst_stages h3
  have hc := compile_compiled h
  have hr1 := s.h1
  unfold buildResolved at hr1
  obtain ⟨t0, h0, hr1⟩ := bind_ok hr1
  obtain ⟨x, f, bits, rfl, e2, e3, e4, e5, e6, e7⟩ := C63_generated_type hb h3 h0 hn hk (index_undeclared hs h h0 hnb hn hk)
  refine ⟨x, f, e2, e3, ?_, e5, e6⟩
  have hnd : x.children.Nodup := List.Nodup.of_map _ (descend_good hc.lk.good e2).nodup
  have : x.children.filterMap (fun c => if c.kind.isField then some c else none) = [f] := by
    refine filterMap_only hnd e4 (by simp [e6, Kind.isField]) fun c hc hcf => ?_
    simp [e7 c hc hcf, Kind.isField]
  rw [← this]
  unfold Tree.fields Tree.childrenLike
  clear this
  induction x.children with
  | nil => rfl
  | cons a l ih =>
    rw [List.filter_cons, List.filterMap_cons]
    split <;> rename_i hk
    · simp [ih]
    · simp [ih]

omit hf in
theorem index_node {p : Path} {n : Tree} {w : Nat} {o : Bool} {m : Option Nat} (hn : t.descend p = some n) (hk : n.kind = .resource (.multivector w) o m) :
    ∃ x f, t.descend (indexTypePath p w) = some x ∧ x.kind = .structure (some (if w = 0 then 64 else w)) ∧ x.fields = [f] ∧ f.name = "value".toList ∧
      f.kind = .field (.basic ⟨.u64, if w = 0 then 64 else w⟩) (some "range".toList) (some 0) := index_structure hs h (no_builtin_name hno) hn hk

end

/-! ## Structures -/

/-- What is written for the range of a field. -/
def rangeEntry (f : Tree) : Option (Text × Nat × Nat) :=
  match f.kind with
  | .field (.basic b) (some r) (some o) => some (escapeRust r, o, b.width)
  | .field (.enum _ b) (some r) (some o) => some (escapeRust r, o, b.width)
  | _ => none

/-- What is written for a structure. -/
theorem struct_decl {s : Text} {t : Tree} (h : Compile s (.ok t)) {p : Path} {n : Tree} {sz : Option Nat} (hn : t.descend p = some n)
    (hk : n.kind = .structure sz) : rustStructDecl t p n = .ok (.structure p.dropLast n.name (byteSize (n.children.filterMap declaredField))
      (n.fields.filterMap rangeEntry) (n.fields.map fun f => "set_".toList ++ escapeRust f.name) (isIndexPath t p)) ∧
      (n.fields.filterMap rangeEntry = [] ↔ ¬ RangedAt t p) := by
  have hc := compile_compiled h
  obtain ⟨h1, h2, h3⟩ := struct_facts h hn hk
  have hfield : ∀ f ∈ n.fields, ∃ b rg o, RangeOk f.kind ∧ (f.kind = .field (.basic b) rg (some o) ∨ ∃ r, f.kind = .field (.enum r b) rg (some o)) := by
    intro f hm
    obtain ⟨i, hi, hif⟩ := List.getElem_of_mem hm
    obtain ⟨f', e1, e2⟩ := h3 i _ (List.getElem?_eq_getElem (by omega))
    rw [List.getElem?_eq_getElem hi, hif] at e1
    cases e1
    obtain ⟨b, rg, _, _, _, hh⟩ := e2.typed
    refine ⟨b, rg, bitOffset (n.children.filterMap declaredField) i, hc.range _ _ e2.node, ?_⟩
    rcases hh with hh | ⟨ref, _, hh, _⟩
    · exact .inl hh
    · exact .inr ⟨_, hh⟩
  have hrange : ∀ f ∈ n.fields, rustFieldRange f = .ok (rangeEntry f) := by
    intro f hm
    obtain ⟨b, rg, o, hr, hh⟩ := hfield f hm
    rcases hh with hh | ⟨r, hh⟩
    all_goals
      rw [hh] at hr
      unfold rustFieldRange rangeEntry
      rw [hh]
      cases rg with
      | none => rfl
      | some rg =>
        cases rg with
        | nil => exact absurd hr (by rintro ⟨⟨_, h0, _⟩, _⟩; cases h0)
        | cons c rg => rfl
  constructor
  · unfold rustStructDecl
    rw [h1, mapM_map hrange]
    show Except.ok _ = Except.ok _
    rw [List.filterMap_map]
    rfl
  · rw [List.filterMap_eq_nil_iff]
    constructor
    · rintro ha ⟨n', hn', f, hfm, ty, rg, o, hfk⟩
      rw [hn] at hn'; cases hn'
      have hff : f ∈ n.fields := List.mem_filter.mpr ⟨hfm, by rw [hfk]; rfl⟩
      obtain ⟨b, rg', o', _, hh⟩ := hfield f hff
      have := ha f hff
      unfold rangeEntry at this
      rcases hh with hh | ⟨r, hh⟩
      all_goals
        rw [hfk] at hh
        cases hh
        rw [hfk] at this
        cases this
    · intro ha f hff
      by_contra hne
      refine ha ⟨n, hn, f, (List.mem_filter.mp hff).1, ?_⟩
      unfold rangeEntry at hne
      split at hne
      · rename_i hh; exact ⟨_, _, _, hh⟩
      · rename_i hh; exact ⟨_, _, _, hh⟩
      · exact absurd rfl hne

/-! ## Archives -/

/-- The path that the first reference of this kind refers to. -/
def firstTarget (r : Tree) (k : RefKind) : Path := ((childrenOf r (.ref k)).headD r).targetPath

/-- What is written for an element type of a multivector. -/
def elementText (p : Path) (ref : Tree) : Text × Text × Text :=
  (ref.targetPath.getLastD [], "add_".toList ++ camelToSnake (ref.targetPath.getLastD []), rustQualified p ref.targetPath)

/-- What is written for the bytes of a resource. -/
def containerText (p : Path) (r : Tree) : RustContainer :=
  match r.kind with
  | .resource .vector _ _ => .vector (rustQualified p (firstTarget r .structure))
  | .resource .instance _ _ => .instance (rustQualified p (firstTarget r .structure))
  | .resource (.multivector _) _ _ => .multivector (rustQualified p (firstTarget r .builtinStructure)) (upperCamel r.name)
      ((childrenOf r (.ref .structure)).map (elementText p))
  | .resource .archive _ _ => .archive (rustQualified p (firstTarget r .archive))
  | _ => .rawData

/-- What is written for a resource. -/
def resourceText (p : Path) (n r : Tree) : RustResourceText :=
  ⟨r.name, containerText p r, "schema::".toList ++ rustSchemaModule n.name ++ "::resources::".toList ++ upperName r.name, r.kind.isOptional, rustMaxSize r.kind.maxSize⟩

/-- The module with the schemas of an archive. -/
def schemaScope (p : Path) (n : Tree) : Path := p.dropLast ++ ["schema".toList, rustSchemaModule n.name]

/-- What is written for a node; `X` are the schemas. -/
def declsText (t : Tree) (X : Path → Text) (e : Path × Tree) : List RustDecl :=
  match e.2.kind with
  | .namespace => [.module e.1, .module (e.1 ++ ["schema".toList])]
  | .structure _ => [.structure e.1.dropLast e.2.name (byteSize (e.2.children.filterMap declaredField)) (e.2.fields.filterMap rangeEntry)
      (e.2.fields.map fun f => "set_".toList ++ escapeRust f.name) (isIndexPath t e.1)]
  | .enumeration _ => [.enumeration e.1.dropLast e.2.name]
  | .archive => .archive e.1.dropLast e.2.name ("schema::".toList ++ rustSchemaModule e.2.name ++ "::".toList ++ rustConstName e.2.name)
        (e.2.plainResources.map (resourceText e.1 e.2)) ::
      .module (schemaScope e.1 e.2) :: .module (schemaScope e.1 e.2 ++ ["resources".toList]) ::
      .constant (schemaScope e.1 e.2) (rustConstName e.2.name) (rustRawLiteral (X e.1)) ::
      e.2.plainResources.map fun r => .constant (schemaScope e.1 e.2 ++ ["resources".toList]) (upperName r.name) (rustRawLiteral (X (e.1 ++ [r.name])))
  | _ => []

/-- The references of a resource. -/
theorem resource_refs {s : Text} {t : Tree} (h : Compile s (.ok t)) {q : Path} {r : Tree} {k : ResKind} {o : Bool} {m : Option Nat}
    (hr : t.descend q = some r) (hrk : r.kind = .resource k o m) :
    (k = .vector ∨ k = .instance → ∃ ref, childrenOf r (.ref .structure) = [ref] ∧ childrenOf r (.ref .builtinStructure) = [] ∧ firstTarget r .structure = ref.targetPath) ∧
    (∀ w, k = .multivector w → ∃ ref, childrenOf r (.ref .builtinStructure) = [ref] ∧ firstTarget r .builtinStructure = ref.targetPath ∧ ref.targetPath = indexTypePath q w) ∧
    (k = .archive → ∃ ref, childrenOf r (.ref .archive) = [ref] ∧ firstTarget r .archive = ref.targetPath) ∧
    (∀ rk, ∀ ref ∈ childrenOf r (.ref rk), ref ∈ r.children ∧ ref.kind = .ref rk ∧ t.descend (q ++ [ref.name]) = some ref ∧ refPath t ref = .ok ref.targetPath ∧
      ∃ x, t.descend ref.targetPath = some x ∧ KindFits rk x.kind) := by
  have hc := compile_compiled h
  have hch := hc.resource q r k o m hr hrk
  have hsub : ∀ k, ∀ ref ∈ childrenOf r k, ref ∈ r.children ∧ ref.kind = k := by
    intro k ref hm
    have := List.mem_filter.mp hm
    simpa using this
  have one : ∀ {n : Nat}, childKinds r.children = List.replicate n .explicitReference ++ [.ref .structure] →
      ∃ ref, childrenOf r (.ref .structure) = [ref] ∧ childrenOf r (.ref .builtinStructure) = [] ∧ firstTarget r .structure = ref.targetPath := by
    intro n h
    obtain ⟨ref, h1, h2, h3⟩ := hc.oneChild hr (by simp) (by simp) h
    refine ⟨ref, h1, childrenOf_none (by simp) (by rw [h]; simp), ?_⟩
    unfold firstTarget
    rw [h1]; rfl
  refine ⟨?_, ?_, ?_, ?_⟩
  · rintro (rfl | rfl)
    · obtain ⟨n, h⟩ := hch; exact one h
    · obtain ⟨n, h⟩ := hch; exact one h
  · rintro w rfl
    obtain ⟨ref, h1⟩ := index_child h q r w o m hr hrk
    obtain ⟨h2, h3⟩ := hsub _ ref (by rw [h1]; simp)
    refine ⟨ref, h1, by unfold firstTarget; rw [h1]; rfl, ?_⟩
    exact targetPath_of (indexTypePath_nodot (descend_nodot hc.lk.good hr) w) (hc.index q r w o m hr hrk ref h2 h3)
  · rintro rfl
    obtain ⟨n, h⟩ := hch
    obtain ⟨ref, h1, h2, h3⟩ := hc.oneChild hr (by simp) (by simp) h
    exact ⟨ref, h1, by unfold firstTarget; rw [h1]; rfl⟩
  · intro rk ref hm
    obtain ⟨h1, h2⟩ := hsub _ ref hm
    have hd := hc.child hr h1
    obtain ⟨x, g1, g2, g3, _⟩ := hc.target hd h2
    exact ⟨h1, h2, hd, g1, x, g2, g3⟩

theorem plain_resource {n r : Tree} (hr : r ∈ n.plainResources) : r ∈ n.children ∧ ∃ k o m, r.kind = .resource k o m ∧ k ≠ .bound := by
  unfold Tree.plainResources Tree.childrenLike at hr
  obtain ⟨h1, h2⟩ := List.mem_filter.mp hr
  refine ⟨h1, ?_⟩
  cases hk : r.kind with
  | resource k o m =>
    refine ⟨k, o, m, rfl, ?_⟩
    rintro rfl
    rw [hk] at h2; simp [Kind.isBoundResource] at h2
  | _ => rw [hk] at h2; simp [Kind.isResource] at h2

/-- Structures with ranges are used in vectors only (C53). -/
theorem no_range {s : Text} {t : Tree} (h : Compile s (.ok t)) {q : Path} {r : Tree} {k : ResKind} {o : Bool} {m : Option Nat} (hr : t.descend q = some r)
    (hrk : r.kind = .resource k o m) (hk : k ≠ .vector) {ref : Tree} (href : ref ∈ childrenOf r (.ref .structure)) : ¬ RangedAt t ref.targetPath := by
  have hc := compile_compiled h
  obtain ⟨bs, _, h2, h3⟩ := compile_blocks h
  obtain ⟨_, hu⟩ := C53_ranges (fun b hb => lexical_plain (h2 b hb)) h3
  obtain ⟨_, _, _, h4⟩ := resource_refs h hr hrk
  obtain ⟨f1, f2, f3, f4, x, f5, _⟩ := h4 .structure ref href
  rintro ⟨n, hn, f, hf, ty, rg, off, hfk⟩
  rw [f5] at hn; cases hn
  obtain ⟨s2, g1, g2, g3, _⟩ := hc.lk.target f3 f2
  rw [f5] at g2; cases g2
  refine hk (hu q r ref _ k o m hr hrk f1 f2 g3 ⟨f, hf, ty, rg, off, hfk, ?_⟩)
  have := hc.range _ _ (hc.child f5 hf)
  rw [hfk] at this
  rintro rfl
  obtain ⟨⟨_, h0, _⟩, _⟩ := this
  cases h0

section
variable {source : Text} {blocks : List PBlock} {t : Tree} (hs : parseSource source = .ok blocks) (h : Compile source (.ok t)) (hf : Flat t) (hb : NoBuiltin t)
  (hno : ∀ b ∈ blocks, NoBuiltinEnd (splitDot b.name))
include hs h hf hb hno

theorem element_not_index {q : Path} {r ref : Tree} {k : ResKind} {o : Bool} {m : Option Nat} (hr : t.descend q = some r) (hrk : r.kind = .resource k o m)
    (hm : ref ∈ childrenOf r (.ref .structure)) : isIndexPath t ref.targetPath = false := by
  obtain ⟨_, _, _, h4⟩ := resource_refs h hr hrk
  obtain ⟨h5, h6, h7, _, x, h8, sz, h9⟩ := h4 .structure ref hm
  have hnb := hb _ ref .structure h7 h6 (by simp)
  rcases index_iff hs h hf hno h8 (by rw [h9]; rfl) with ⟨_, q', r', w, o', m', _, _, he⟩ | ⟨h0, _⟩
  · rw [he] at hnb
    exact absurd (by simp [indexTypePath]) hnb
  · exact h0

theorem container_ok (p : Path) {q : Path} {r : Tree} {k : ResKind} {o : Bool} {m : Option Nat} (hr : t.descend q = some r) (hrk : r.kind = .resource k o m)
    (hkb : k ≠ .bound) : rustContainer t p r = .ok (containerText p r) := by
  have hc := compile_compiled h
  obtain ⟨h1, h2, h3, h4⟩ := resource_refs h hr hrk
  have href : ∀ rk, ∀ ref ∈ childrenOf r (.ref rk), rustRefName t p ref = .ok (rustQualified p ref.targetPath) := by
    intro rk ref hm
    obtain ⟨_, _, _, g, _⟩ := h4 rk ref hm
    unfold rustRefName
    rw [g]; rfl
  unfold rustContainer containerText
  rw [hrk]
  cases k with
  | bound => exact absurd rfl hkb
  | rawData => rfl
  | vector =>
    obtain ⟨ref, e1, e2, e3⟩ := h1 (.inl rfl)
    have : referencedStructures r = [ref] := by
      unfold referencedStructures
      rw [childrenLike_eq, childrenLike_eq, e1, e2]; rfl
    simp only [this]
    rw [href .structure ref (by rw [e1]; simp), e3]; rfl
  | «instance» =>
    obtain ⟨ref, e1, e2, e3⟩ := h1 (.inr rfl)
    have : referencedStructures r = [ref] := by
      unfold referencedStructures
      rw [childrenLike_eq, childrenLike_eq, e1, e2]; rfl
    simp only [this]
    rw [href .structure ref (by rw [e1]; simp), e3]; rfl
  | archive =>
    obtain ⟨ref, e1, e3⟩ := h3 rfl
    simp only [childrenLike_eq, e1]
    rw [href .archive ref (by rw [e1]; simp), e3]; rfl
  | multivector w =>
    obtain ⟨ref, e1, e3, e4⟩ := h2 w rfl
    simp only [childrenLike_eq, e1]
    rw [href .builtinStructure ref (by rw [e1]; simp), e3]
    have hel : rustElements t r = childrenOf r (.ref .structure) := by
      unfold rustElements referencedStructures
      rw [childrenLike_eq, childrenLike_eq, e1, List.filter_append]
      have hi : isIndexPath t ref.targetPath = true := by
        obtain ⟨_, _, _, _, x, h8, sz, h9⟩ := h4 .builtinStructure ref (by rw [e1]; simp)
        rcases index_iff hs h hf hno h8 (by rw [h9]; rfl) with ⟨h0, _⟩ | ⟨_, h0⟩
        · exact h0
        · rw [e4] at h0
          refine absurd ?_ h0
          have : indexTypePath q w = (q.dropLast.dropLast ++ ["_builtin".toList, "multivector".toList]) ++ ["IndexType".toList ++ natText w] := by
            simp only [indexTypePath, List.append_assoc, List.cons_append, List.nil_append]
          rw [this, List.dropLast_concat]
          simp
      rw [List.filter_cons_of_neg (by simp [hi]), List.filter_nil, List.nil_append, List.filter_eq_self]
      intro ref' hm
      rw [element_not_index hs h hf hb hno hr hrk hm]; rfl
    rw [hel, mapM_map (g := elementText p)]
    · rfl
    · intro ref' hm
      obtain ⟨_, _, _, g, _⟩ := h4 .structure ref' hm
      unfold Gen.rustElement
      rw [g]; rfl

theorem decls_ok {sch : Path → Gen.M Text} {X : Path → Text} {e : Path × Tree} (hsch : ∀ q ∈ rustSchemaPaths e, sch q = .ok (X q))
    (he : t.descend e.1 = some e.2) : rustDecls t sch e = .ok (declsText t X e) := by
  have hc := compile_compiled h
  obtain ⟨p, n⟩ := e
  unfold rustDecls declsText
  cases hk : n.kind with
  | «structure» sz =>
    simp only
    rw [(struct_decl h he hk).1]; rfl
  | archive =>
    simp only
    unfold rustArchiveDecls
    have hres : ∀ r ∈ n.plainResources, rustResourceText t p n r = .ok (resourceText p n r) := by
      intro r hr
      obtain ⟨h1, k, o, m, h2, h3⟩ := plain_resource hr
      unfold rustResourceText
      rw [container_ok hs h hf hb hno p (hc.child he h1) h2 h3]; rfl
    have hpaths : rustSchemaPaths (p, n) = p :: n.plainResources.map fun r => p ++ [r.name] := by
      unfold rustSchemaPaths
      rw [if_pos hk]; rfl
    rw [hpaths] at hsch
    rw [mapM_map hres, hsch p (by simp)]
    simp only [bind, Except.bind]
    rw [mapM_map (g := fun r => RustDecl.constant (schemaScope p n ++ ["resources".toList]) (upperName r.name) (rustRawLiteral (X (p ++ [r.name]))))]
    · rfl
    · intro r hr
      obtain ⟨h1, k, o, m, h2, h3⟩ := plain_resource hr
      rw [hsch (p ++ [r.name]) (List.mem_cons_of_mem _ (List.mem_map.mpr ⟨r, hr, rfl⟩))]
      rfl
  | _ => rfl

end

/-! ## What is found under a path -/

theorem findSome?_only {α β : Type _} {f : α → Option β} {l : List α} {x : β} (hex : ∃ a ∈ l, f a = some x) (hall : ∀ a ∈ l, ∀ y, f a = some y → y = x) :
    l.findSome? f = some x := by
  induction l with
  | nil => obtain ⟨_, h, _⟩ := hex; cases h
  | cons a l ih =>
    rw [List.findSome?_cons]
    cases ha : f a with
    | some y => rw [hall a (by simp) y ha]
    | none =>
      refine ih ?_ fun b hb => hall b (by simp [hb])
      obtain ⟨b, hb, hfb⟩ := hex
      rcases List.mem_cons.mp hb with rfl | hb
      · rw [ha] at hfb; cases hfb
      · exact ⟨b, hb, hfb⟩

/-- The whole program. -/
def programText (t : Tree) (X : Path → Text) : List RustDecl := (rustNodes t).flatMap (declsText t X)

section
variable {source : Text} {t : Tree} (h : Compile source (.ok t)) (hf : Flat t) (X : Path → Text)
include h hf

theorem mem_program {d : RustDecl} : d ∈ programText t X ↔ ∃ e : Path × Tree, t.descend e.1 = some e.2 ∧ rustVisited t e.1 = true ∧ d ∈ declsText t X e := by
  have hc := compile_compiled h
  unfold programText rustNodes
  simp only [List.mem_flatMap, List.mem_filter, Prod.exists]
  constructor
  · rintro ⟨p, n, ⟨h1, h2⟩, h3⟩
    exact ⟨p, n, (iter_descend hc.lk.good).mp h1, h2, h3⟩
  · rintro ⟨p, n, h1, h2, h3⟩
    exact ⟨p, n, ⟨(iter_descend hc.lk.good).mpr h1, h2⟩, h3⟩

theorem definition_path {p : Path} {n : Tree} (hn : t.descend p = some n) (hd : Spec.Kind.isDefinition n.kind = true) : p.dropLast ++ [n.name] = p := by
  have hc := compile_compiled h
  obtain ⟨ns, k, rfl, rfl, _⟩ := hc.namespaces hf hn hd
  rw [List.dropLast_concat]

theorem struct_at {p : Path} {n : Tree} {sz : Option Nat} (hn : t.descend p = some n) (hk : n.kind = .structure sz) :
    rustStructAt (programText t X) p = some (byteSize (n.children.filterMap declaredField), n.fields.filterMap rangeEntry, isIndexPath t p) := by
  have hc := compile_compiled h
  unfold rustStructAt
  refine findSome?_only ?_ ?_
  · refine ⟨.structure p.dropLast n.name (byteSize (n.children.filterMap declaredField)) (n.fields.filterMap rangeEntry)
      (n.fields.map fun f => "set_".toList ++ escapeRust f.name) (isIndexPath t p), (mem_program h hf X).mpr
        ⟨(p, n), hn, rust_visited hc hf hn (by rw [hk]; rfl), ?_⟩, ?_⟩
    · unfold declsText
      simp only [hk]
      exact List.mem_singleton.mpr rfl
    · simp only [definition_path h hf hn (by rw [hk]; rfl), if_pos]
  · intro d hd y hy
    obtain ⟨⟨p', n'⟩, h1, _, h3⟩ := (mem_program h hf X).mp hd
    unfold declsText at h3
    cases hk' : n'.kind with
    | «structure» sz' =>
      simp only [hk', List.mem_singleton] at h3
      subst h3
      simp only [definition_path h hf h1 (by rw [hk']; rfl)] at hy
      split at hy
      · rename_i he
        subst he
        simp only at h1
        rw [hn] at h1; cases h1
        cases hy; rfl
      · cases hy
    | archive =>
      simp only [hk', List.mem_cons, List.mem_map] at h3
      rcases h3 with rfl | rfl | rfl | rfl | ⟨_, _, rfl⟩ <;> cases hy
    | «namespace» =>
      simp only [hk', List.mem_cons, List.not_mem_nil, or_false] at h3
      rcases h3 with rfl | rfl <;> cases hy
    | enumeration =>
      simp only [hk', List.mem_cons, List.not_mem_nil, or_false] at h3
      subst h3; cases hy
    | _ => simp only [hk', List.not_mem_nil] at h3

theorem archive_at {p : Path} {n : Tree} (hn : t.descend p = some n) (hk : n.kind = .archive) :
    rustArchiveAt (programText t X) p = some (n.name, "schema::".toList ++ rustSchemaModule n.name ++ "::".toList ++ rustConstName n.name,
      n.plainResources.map (resourceText p n)) := by
  have hc := compile_compiled h
  unfold rustArchiveAt
  refine findSome?_only ?_ ?_
  · refine ⟨.archive p.dropLast n.name ("schema::".toList ++ rustSchemaModule n.name ++ "::".toList ++ rustConstName n.name)
        (n.plainResources.map (resourceText p n)), (mem_program h hf X).mpr ⟨(p, n), hn, rust_visited hc hf hn (by rw [hk]; rfl), ?_⟩, ?_⟩
    · unfold declsText
      simp only [hk]
      exact List.mem_cons_self
    · simp only [definition_path h hf hn (by rw [hk]; rfl), if_pos]
  · intro d hd y hy
    obtain ⟨⟨p', n'⟩, h1, _, h3⟩ := (mem_program h hf X).mp hd
    unfold declsText at h3
    cases hk' : n'.kind with
    | archive =>
      simp only [hk', List.mem_cons, List.mem_map] at h3
      rcases h3 with rfl | rfl | rfl | rfl | ⟨_, _, rfl⟩
      · simp only [definition_path h hf h1 (by rw [hk']; rfl)] at hy
        split at hy
        · rename_i he
          subst he
          simp only at h1
          rw [hn] at h1; cases h1
          cases hy; rfl
        · cases hy
      all_goals cases hy
    | «structure» sz =>
      simp only [hk', List.mem_singleton] at h3
      subst h3; cases hy
    | «namespace» =>
      simp only [hk', List.mem_cons, List.not_mem_nil, or_false] at h3
      rcases h3 with rfl | rfl <;> cases hy
    | enumeration =>
      simp only [hk', List.mem_cons, List.not_mem_nil, or_false] at h3
      subst h3; cases hy
    | _ => simp only [hk', List.not_mem_nil] at h3

theorem no_schema_child (hr : RustArchivesNameable t) {ns : Path} {m c : Tree} (hm : t.descend ns = some m) (hmk : m.kind = .namespace)
    (hcd : t.descend (ns ++ ["schema".toList]) = some c) (hck : ∀ b v, c.kind ≠ .constant b v) : False := by
  obtain ⟨m', h1, h2, h3⟩ := descend_parent hcd
  rw [hm] at h1; cases h1
  have := (List.nodup_cons.mp (hr.types ns m hm hmk)).1
  refine this (List.mem_flatMap.mpr ⟨c, h2, ?_⟩)
  unfold moduleNames
  split
  · rw [← h3]; simp
  · rename_i hk; exact absurd hk (hck _ _)
  · rw [← h3]; simp

/-- Behind the path of a namespace, `schema` is the module with schemas. -/
theorem schema_split (hr : RustArchivesNameable t) {a b : Path} {m m' : Tree} (ha : t.descend a = some m) (hak : m.kind = .namespace)
    (hb : t.descend b = some m') (hbk : m'.kind = .namespace) {xs ys : Path} (he : a ++ "schema".toList :: xs = b ++ "schema".toList :: ys) : a = b ∧ xs = ys := by
  have key : ∀ {a b : Path} {m m' : Tree}, t.descend a = some m → m.kind = .namespace → t.descend b = some m' → m'.kind = .namespace → ∀ {c zs ys' : Path},
      b = a ++ c → "schema".toList :: zs = c ++ "schema".toList :: ys' → c = [] := by
    intro a b m m' ha hak hb hbk c zs ys' h1 h2
    cases c with
    | nil => rfl
    | cons x c =>
      rw [List.cons_append, List.cons.injEq] at h2
      obtain ⟨rfl, _⟩ := h2
      have := flat_prefix hf hb hbk (a.length + 1) (by omega) (by rw [h1]; simp)
      have ht : b.take (a.length + 1) = a ++ ["schema".toList] := by
        rw [h1, List.take_append, List.take_of_length_le (by omega)]
        simp
      rw [ht] at this
      unfold isNamespaceAt at this
      cases hd : t.descend (a ++ ["schema".toList]) with
      | none => rw [hd] at this; cases this
      | some c' =>
        rw [hd] at this
        exact (no_schema_child h hf hr ha hak hd (by
          intro b v hk
          simp [Tree.isNamespace, hk] at this)).elim
  rcases List.append_eq_append_iff.mp he with ⟨c, h1, h2⟩ | ⟨c, h1, h2⟩
  · have := key ha hak hb hbk h1 h2
    subst this
    rw [List.append_nil] at h1
    rw [List.nil_append, List.cons.injEq] at h2
    exact ⟨h1.symm, h2.2⟩
  · have := key hb hbk ha hak h1 h2
    subst this
    rw [List.append_nil] at h1
    rw [List.nil_append, List.cons.injEq] at h2
    exact ⟨h1, h2.2.symm⟩

/-- The archive of which a constant is a schema, and its value. -/
theorem program_constant {scope : Path} {name lit : Text} (hd : RustDecl.constant scope name lit ∈ programText t X) :
    ∃ p n, t.descend p = some n ∧ n.kind = .archive ∧
      ((scope = schemaScope p n ∧ name = rustConstName n.name ∧ lit = rustRawLiteral (X p)) ∨
       ∃ r ∈ n.plainResources, scope = schemaScope p n ++ ["resources".toList] ∧ name = upperName r.name ∧ lit = rustRawLiteral (X (p ++ [r.name]))) := by
  obtain ⟨⟨p', n'⟩, h1, _, h3⟩ := (mem_program h hf X).mp hd
  unfold declsText at h3
  cases hk' : n'.kind with
  | archive =>
    refine ⟨p', n', h1, hk', ?_⟩
    simp only [hk', List.mem_cons, List.mem_map] at h3
    rcases h3 with h3 | h3 | h3 | h3 | ⟨r, hr, h3⟩
    · cases h3
    · cases h3
    · cases h3
    · cases h3; exact .inl ⟨rfl, rfl, rfl⟩
    · cases h3; exact .inr ⟨r, hr, rfl, rfl, rfl⟩
  | «structure» sz => simp [hk'] at h3
  | «namespace» => simp [hk'] at h3
  | enumeration => simp [hk'] at h3
  | _ => simp only [hk', List.not_mem_nil] at h3

theorem archive_parent {p : Path} {n : Tree} (hn : t.descend p = some n) (hk : n.kind = .archive) :
    ∃ ns m, p = ns ++ [n.name] ∧ t.descend ns = some m ∧ m.kind = .namespace ∧ n ∈ m.children := by
  have hc := compile_compiled h
  obtain ⟨ns, k, rfl, rfl, _⟩ := hc.namespaces hf hn (by rw [hk]; rfl)
  obtain ⟨m, h1, h2, h3, _⟩ := hc.parents ns n.name n hn
  exact ⟨ns, m, rfl, h1, h3 (by rw [hk]; rfl), h2⟩

/-- The modules with schemas of different archives are different. -/
theorem scope_inj (hr : RustArchivesNameable t) {p p' : Path} {n n' : Tree} (hn : t.descend p = some n) (hk : n.kind = .archive) (hn' : t.descend p' = some n')
    (hk' : n'.kind = .archive) {xs ys : Path} (he : schemaScope p n ++ xs = schemaScope p' n' ++ ys) : p = p' ∧ n = n' ∧ xs = ys := by
  obtain ⟨ns, m, rfl, h1, h2, h3⟩ := archive_parent h hf hn hk
  obtain ⟨ns', m', rfl, h1', h2', h3'⟩ := archive_parent h hf hn' hk'
  unfold schemaScope at he
  rw [List.dropLast_concat, List.dropLast_concat, List.append_assoc, List.append_assoc, List.cons_append, List.cons_append] at he
  obtain ⟨rfl, he'⟩ := schema_split h hf hr h1 h2 h1' h2' he
  rw [h1] at h1'; cases h1'
  obtain ⟨he1, he2⟩ := List.cons.inj he'
  simp only [List.nil_append] at he2
  change xs = ys at he2
  have := hr.archives ns m h1 h2 n h3 n' h3' hk hk' he1
  subst this
  exact ⟨rfl, rfl, he2⟩

omit h hf in
theorem constant_at {scope : Path} {name lit : Text} {x : Text} (hd : RustDecl.constant scope name lit ∈ programText t X)
    (hlit : rawString "r#\"".toList "\"#".toList (lit ++ [';']) = some (x, [';']))
    (huniq : ∀ scope' name' lit', RustDecl.constant scope' name' lit' ∈ programText t X → scope' ++ [name'] = scope ++ [name] → lit' = lit) :
    rustConstantAt (programText t X) (scope ++ [name]) = some x := by
  unfold rustConstantAt
  refine findSome?_only ⟨_, hd, by simp only [if_pos, hlit]⟩ ?_
  intro d hdm y hy
  cases d with
  | constant scope' name' lit' =>
    simp only at hy
    split at hy
    · rename_i he
      rw [huniq _ _ _ hdm he, hlit] at hy
      cases hy; rfl
    · cases hy
  | _ => cases hy

theorem schema_constants (hr : RustArchivesNameable t) (hX : ∀ q m, t.descend q = some m → Printable m.kind = true → SchemaChars (X q)) {p : Path} {n : Tree}
    (hn : t.descend p = some n) (hk : n.kind = .archive) :
    rustConstantAt (programText t X) (schemaScope p n ++ [rustConstName n.name]) = some (X p) ∧
    ∀ r ∈ n.plainResources, rustConstantAt (programText t X) (schemaScope p n ++ ["resources".toList, upperName r.name]) = some (X (p ++ [r.name])) := by
  have hc := compile_compiled h
  have hmem : ∀ d ∈ declsText t X (p, n), d ∈ programText t X := fun d hd =>
    (mem_program h hf X).mpr ⟨(p, n), hn, rust_visited hc hf hn (by rw [hk]; rfl), hd⟩
  have hraw : ∀ q m, t.descend q = some m → Printable m.kind = true → rawString "r#\"".toList "\"#".toList (rustRawLiteral (X q) ++ [';']) = some (X q, [';']) := by
    intro q m hm hp
    have hx := hX q m hm hp
    exact (C58_raw (X q) [';'] ⟨fun hq => absurd (hx _ hq) (by decide), fun hq => absurd (hx _ hq) (by decide)⟩).2.1
  constructor
  · refine constant_at X (lit := rustRawLiteral (X p)) (hmem _ ?_) (hraw p n hn (by rw [hk]; rfl)) ?_
    · unfold declsText
      simp only [hk]
      simp
    · intro scope' name' lit' hd he
      obtain ⟨p', n', h1, h2, ⟨rfl, rfl, rfl⟩ | ⟨r, hrm, rfl, rfl, rfl⟩⟩ := program_constant h hf X hd
      · obtain ⟨rfl, rfl, _⟩ := scope_inj h hf hr h1 h2 hn hk he
        rfl
      · rw [List.append_assoc] at he
        obtain ⟨_, _, he2⟩ := scope_inj h hf hr h1 h2 hn hk he
        have := congrArg List.length he2
        simp at this
  · intro r hrm
    obtain ⟨g1, k, o, m, g2, g3⟩ := plain_resource hrm
    have := constant_at X (scope := schemaScope p n ++ ["resources".toList]) (name := upperName r.name) (lit := rustRawLiteral (X (p ++ [r.name]))) (hmem _ ?_)
      (hraw _ r (hc.child hn g1) (by rw [g2]; rfl)) ?_
    · rw [List.append_assoc] at this
      exact this
    · unfold declsText
      simp only [hk, List.mem_cons, List.mem_map]
      exact .inr (.inr (.inr (.inr ⟨r, hrm, rfl⟩)))
    · intro scope' name' lit' hd he
      obtain ⟨p', n', h1, h2, ⟨rfl, rfl, rfl⟩ | ⟨r', hrm', rfl, rfl, rfl⟩⟩ := program_constant h hf X hd
      · rw [List.append_assoc (schemaScope p n)] at he
        obtain ⟨_, _, he2⟩ := scope_inj h hf hr h1 h2 hn hk he
        have := congrArg List.length he2
        simp at this
      · rw [List.append_assoc, List.append_assoc] at he
        obtain ⟨rfl, rfl, he2⟩ := scope_inj h hf hr h1 h2 hn hk he
        simp only [List.cons_append, List.nil_append, List.cons.injEq, and_true, true_and] at he2
        rw [plainResources_eq] at hrm hrm'
        have := hr.resources _ n' hn hk r' hrm' r hrm he2
        subst this
        rfl

end

/-! ## What `open` reads -/

theorem splitCamel_mem {c : Char} {inside : Bool} {t : Text} (h : c ∈ splitCamel inside t) : c = '_' ∨ c ∈ t := by
  by_cases hc : c = '_'
  · exact .inl hc
  · have : c ∈ (splitCamel inside t).filter (fun c => decide (c ≠ '_')) := List.mem_filter.mpr ⟨h, by simpa using hc⟩
    rw [splitCamel_letters _ t (Nat.le_refl _)] at this
    exact .inr (List.mem_filter.mp this).1

theorem lowerChar_colon {c : Char} (h : lowerChar c = ':') : c = ':' := by
  unfold lowerChar at h
  split at h
  · rename_i hu
    have hr : 65 ≤ c.toNat ∧ c.toNat ≤ 90 := by simpa [isUpperChar] using hu
    obtain ⟨v, hv⟩ : ∃ v : Fin 26, c.toNat = 65 + v := ⟨⟨c.toNat - 65, by omega⟩, by simp; omega⟩
    have hall : ∀ v : Fin 26, Char.ofNat (65 + v + 32) ≠ ':' := by decide
    rw [hv] at h
    exact absurd h (hall v)
  · exact h

theorem upperChar_colon {c : Char} (h : upperChar c = ':') : c = ':' := by
  unfold upperChar at h
  split at h
  · rename_i hu
    have hr : 97 ≤ c.toNat ∧ c.toNat ≤ 122 := by simpa [isLowerChar] using hu
    obtain ⟨v, hv⟩ : ∃ v : Fin 26, c.toNat = 97 + v := ⟨⟨c.toNat - 97, by omega⟩, by simp; omega⟩
    have hall : ∀ v : Fin 26, Char.ofNat (97 + v - 32) ≠ ':' := by decide
    rw [hv] at h
    exact absurd h (hall v)
  · exact h

theorem camelToSnake_colon {t : Text} (h : ':' ∉ t) : ':' ∉ camelToSnake t := by
  unfold camelToSnake
  intro hm
  obtain ⟨c, hc, he⟩ := List.mem_map.mp hm
  have := lowerChar_colon he
  subst this
  rcases splitCamel_mem hc with h0 | h0
  · exact absurd h0 (by decide)
  · exact h h0

theorem upperName_colon {t : Text} (h : ':' ∉ t) : ':' ∉ upperName t := by
  unfold upperName
  intro hm
  obtain ⟨c, hc, he⟩ := List.mem_map.mp hm
  have := upperChar_colon he
  subst this
  exact h hc

theorem limitOf_eq (m : Option Nat) : rustMaxSize m = limitOf m := by
  unfold rustMaxSize limitOf
  cases m with
  | none => rfl
  | some n => cases n <;> rfl

/-- A path into the module with schemas. -/
theorem schema_path (ns : Path) {snake : Text} {rest : Path} (h1 : ':' ∉ snake) (h2 : ∀ k ∈ rest, ':' ∉ k) :
    rustPath ns ("schema::".toList ++ snake ++ colonPath rest) = some (ns ++ "schema".toList :: snake :: rest) := by
  unfold rustPath
  have : splitColons ("schema::".toList ++ snake ++ colonPath rest) = "schema".toList :: snake :: rest := by
    rw [show ("schema::".toList ++ snake ++ colonPath rest) = "schema".toList ++ ':' :: ':' :: (snake ++ colonPath rest) from by
      rw [List.append_assoc]; rfl]
    rw [splitColons_cons (by decide), splitColons_path h1 h2]
  rw [this]
  unfold rustLookup
  rw [if_neg (by decide)]

section
variable {source : Text} {blocks : List PBlock} {t : Tree} (hs : parseSource source = .ok blocks) (h : Compile source (.ok t)) (hf : Flat t) (hb : NoBuiltin t)
  (hno : ∀ b ∈ blocks, NoBuiltinEnd (splitDot b.name)) (hr : RustArchivesNameable t) {X : Path → Text}
include h hf hr

omit hf in
/-- What the name of a type means in the module of the archive. -/
theorem type_path {ns : Path} {k : Text} (hne : ns ≠ []) {q : Path} {x : Tree} (hx : t.descend q = some x) (hd : Spec.Kind.isDefinition x.kind = true)
    (hq : q ≠ []) : rustPath ns (rustQualified (ns ++ [k]) q) = some q := by
  have hc := compile_compiled h
  have hnames := hc.names hx (by intro rk hk; rw [hk] at hd; cases hd)
  refine (rustQualified_lookup hne (fun x hx => idChar_colon (hnames x hx).2) ?_ hq).1
  intro hh
  cases q with
  | nil => cases hh
  | cons a q =>
    cases hh
    obtain ⟨y, hy⟩ : ∃ y, t.descend ["super".toList] = some y := by
      have : ("super".toList :: q) = ["super".toList] ++ q := rfl
      rw [this] at hx
      cases hd' : t.descend ["super".toList] with
      | some y => exact ⟨y, rfl⟩
      | none =>
        rw [descend_append, hd'] at hx
        cases hx
    exact hr.super y hy

theorem struct_named {ns : Path} {k : Text} (hne : ns ≠ []) {q : Path} {x : Tree} {sz : Option Nat} (hx : t.descend q = some x) (hk : x.kind = .structure sz) :
    rustStructNamed (programText t X) ns (rustQualified (ns ++ [k]) q) =
      some (byteSize (x.children.filterMap declaredField), x.fields.filterMap rangeEntry, isIndexPath t q) := by
  unfold rustStructNamed
  have hd : Spec.Kind.isDefinition x.kind = true := by rw [hk]; rfl
  have hq : q ≠ [] := by
    obtain ⟨_, _, rfl, _⟩ := (compile_compiled h).namespaces hf hx hd
    simp
  rw [type_path h hr hne hx hd hq, Option.bind_some]
  exact struct_at h hf X hx hk

/-- A structure without ranges. -/
theorem plain_size {ns : Path} {k : Text} (hne : ns ≠ []) {q : Path} {x : Tree} {sz : Option Nat} (hx : t.descend q = some x) (hk : x.kind = .structure sz)
    (hran : ¬ RangedAt t q) : rustPlainSize (programText t X) ns (rustQualified (ns ++ [k]) q) = some (byteSize (x.children.filterMap declaredField)) := by
  unfold rustPlainSize
  rw [struct_named h hf hr hne hx hk, (struct_decl h hx hk).2.mpr hran]

include hs hno in
/-- The index of a multivector. -/
theorem index_width {ns : Path} {k : Text} (hne : ns ≠ []) {q : Path} {r : Tree} {w : Nat} {o : Bool} {m : Option Nat} (hrd : t.descend q = some r)
    (hrk : r.kind = .resource (.multivector w) o m) :
    rustIndexWidth (programText t X) ns (rustQualified (ns ++ [k]) (indexTypePath q w)) = some (if w = 0 then 64 else w) := by
  obtain ⟨x, f, h1, h2, h3, h4, h5⟩ := index_node hs h hno hrd hrk
  have hi : isIndexPath t (indexTypePath q w) = true := by
    rcases index_iff hs h hf hno h1 (by rw [h2]; rfl) with ⟨h0, _⟩ | ⟨_, h0⟩
    · exact h0
    · refine absurd ?_ h0
      have : indexTypePath q w = (q.dropLast.dropLast ++ ["_builtin".toList, "multivector".toList]) ++ ["IndexType".toList ++ natText w] := by
        simp only [indexTypePath, List.append_assoc, List.cons_append, List.nil_append]
      rw [this, List.dropLast_concat]
      simp
  have hsz : byteSize (x.children.filterMap declaredField) = ((if w = 0 then 64 else w) + 7) / 8 := by
    have := (struct_facts h h1 h2).1
    rw [h2] at this
    unfold Kind.sizeInBytes at this
    simpa using (Except.ok.inj this).symm
  unfold rustIndexWidth
  rw [struct_named h hf hr hne h1 h2, hi, h3]
  have : [f].filterMap rangeEntry = [("range".toList, 0, if w = 0 then 64 else w)] := by
    unfold rangeEntry
    simp only [List.filterMap_cons, h5, List.filterMap_nil]
    rfl
  rw [this]
  simp only [List.lookup, beq_self_eq_true, hsz, if_pos]

/-- The elements of a multivector. -/
theorem variants {ns : Path} {k : Text} (hne : ns ≠ []) {q : Path} {r : Tree} {w : Nat} {o : Bool} {m : Option Nat} (hrd : t.descend q = some r)
    (hrk : r.kind = .resource (.multivector w) o m) : ∃ decls, TypesAt t (childrenOf r (.ref .structure)) decls ∧
      rustVariants (programText t X) ns ((childrenOf r (.ref .structure)).map (elementText (ns ++ [k]))) = some (decls.map fun d => byteSize d.2) := by
  obtain ⟨_, _, _, h4⟩ := resource_refs h hrd hrk
  have hnd := hr.elements q r w o m hrd hrk
  have hnd1 : (((childrenOf r (.ref .structure)).map (elementText (ns ++ [k]))).map (·.1)).Nodup := by
    have : ((((childrenOf r (.ref .structure)).map (elementText (ns ++ [k]))).map (·.1)).map camelToSnake).Nodup := by
      simp only [List.map_map]; exact hnd
    exact List.Nodup.of_map _ this
  have hnd2 : (((childrenOf r (.ref .structure)).map (elementText (ns ++ [k]))).map (·.2.1)).Nodup := by
    have := hnd.map (f := fun x : Text => "add_".toList ++ x) (fun a b hab => List.append_cancel_left hab)
    simp only [List.map_map] at this ⊢
    exact this
  unfold rustVariants
  rw [if_pos ⟨hnd1, hnd2⟩]
  have hran : ∀ ref ∈ childrenOf r (.ref .structure), ¬ RangedAt t ref.targetPath := fun ref hm => no_range h hrd hrk (by simp) hm
  have key : ∀ l : List Tree, (∀ ref ∈ l, ref ∈ childrenOf r (.ref .structure)) → ∃ decls, TypesAt t l decls ∧
      ((l.map (elementText (ns ++ [k]))).mapM fun e => rustPlainSize (programText t X) ns e.2.2) = some (decls.map fun d => byteSize d.2) := by
    intro l
    induction l with
    | nil => exact fun _ => ⟨[], .nil, rfl⟩
    | cons ref l ih =>
      intro hl
      obtain ⟨decls, e1, e2⟩ := ih (fun ref' hm => hl ref' (by simp [hm]))
      obtain ⟨_, _, _, _, x, h8, sz, h9⟩ := h4 .structure ref (hl ref (by simp))
      refine ⟨_, .cons ⟨x, sz, h8, h9, rfl⟩ e1, ?_⟩
      rw [List.map_cons, List.mapM_cons, e2]
      have : rustPlainSize (programText t X) ns (elementText (ns ++ [k]) ref).2.2 = some (byteSize (x.children.filterMap declaredField)) :=
        plain_size h hf hr hne h8 h9 (hran ref (hl ref (by simp)))
      rw [this]
      rfl
  exact key _ fun _ hm => hm

include hs hb hno in
/-- What is read for a resource, if archives in it can be opened. -/
theorem resource_reads (hX : ∀ q m, t.descend q = some m → Printable m.kind = true → Schema t q (.ok (X q)) ∧ SchemaChars (X q)) {p : Path} {n : Tree}
    (hn : t.descend p = some n) (hk : n.kind = .archive)
    (hsub : ∀ r ∈ n.plainResources, ∀ ref ∈ childrenOf r (.ref .archive), ∃ name x rs, RustOpens (programText t X) ref.targetPath name x rs ∧
      RustArchiveAt t ref.targetPath name x rs) {r : Tree} (hrm : r ∈ n.plainResources) :
    ∃ x, RustReads (programText t X) p.dropLast (resourceText p n r) x ∧ RustResourceAt t (p ++ [r.name]) r x := by
  have hc := compile_compiled h
  obtain ⟨g1, k, o, m, hrk, hkb⟩ := plain_resource hrm
  have hrd := hc.child hn g1
  obtain ⟨ns, kn, rfl, hkn, hne, _⟩ := hc.namespaces hf hn (by rw [hk]; rfl)
  have hcolon : ':' ∉ n.name := by
    have := hc.names hn (by rw [hk]; simp) kn (by simp)
    rw [hkn]; exact idChar_colon this.2
  have hcolonr : ':' ∉ r.name := by
    have := hc.names hrd (by rw [hrk]; simp) r.name (by simp)
    exact idChar_colon this.2
  rw [List.dropLast_concat]
  have hsc : rustConstantNamed (programText t X) ns (resourceText (ns ++ [kn]) n r).schema = some (X (ns ++ [kn] ++ [r.name])) := by
    unfold rustConstantNamed
    have : (resourceText (ns ++ [kn]) n r).schema = "schema::".toList ++ rustSchemaModule n.name ++ colonPath ["resources".toList, upperName r.name] := by
      show "schema::".toList ++ rustSchemaModule n.name ++ "::resources::".toList ++ upperName r.name = _
      simp only [colonPath, List.flatMap_cons, List.flatMap_nil, List.append_nil, List.append_assoc]
      rfl
    rw [this, schema_path ns (snake := rustSchemaModule n.name) (camelToSnake_colon hcolon) (by
      intro k hk
      rcases List.mem_cons.mp hk with rfl | hk
      · decide
      · rw [List.mem_singleton.mp hk]; exact upperName_colon hcolonr), Option.bind_some]
    have := (schema_constants h hf X hr (fun q m hq hp => (hX q m hq hp).2) hn hk).2 r hrm
    unfold schemaScope at this
    rw [List.dropLast_concat, List.append_assoc] at this
    exact this
  have hxs := (hX _ r hrd (by rw [hrk]; rfl)).1
  obtain ⟨h1, h2, h3, h4⟩ := resource_refs h hrd hrk
  have ho : (resourceText (ns ++ [kn]) n r).optional = o := by
    show r.kind.isOptional = o
    rw [hrk]; rfl
  have hm : (resourceText (ns ++ [kn]) n r).maxSize = limitOf m := by
    show rustMaxSize r.kind.maxSize = _
    rw [hrk]; exact limitOf_eq m
  have hcon : (resourceText (ns ++ [kn]) n r).container = containerText (ns ++ [kn]) r := rfl
  unfold containerText at hcon
  rw [hrk] at hcon
  cases k with
  | bound => exact absurd rfl hkb
  | rawData =>
    refine ⟨_, .rawData hcon hsc, ?_⟩
    rw [ho, hm]
    exact .rawData hrk hxs
  | vector =>
    obtain ⟨ref, e1, e2, e3⟩ := h1 (.inl rfl)
    obtain ⟨_, _, _, _, x, h8, sz, h9⟩ := h4 .structure ref (by rw [e1]; simp)
    simp only [e3] at hcon
    refine ⟨_, .vector hcon (struct_named h hf hr hne h8 h9) hsc, ?_⟩
    rw [ho, hm]
    have : (!(x.fields.filterMap rangeEntry).isEmpty) = @decide (RangedAt t ref.targetPath) (Classical.propDecidable _) := by
      rw [Bool.eq_iff_iff]
      simp only [Bool.not_eq_true', decide_eq_true_eq, ← Bool.not_eq_true, List.isEmpty_iff, (struct_decl h h8 h9).2, not_not]
    rw [this]
    exact .vector hrk e1 ⟨x, sz, h8, h9, rfl⟩ hxs
  | «instance» =>
    obtain ⟨ref, e1, e2, e3⟩ := h1 (.inr rfl)
    obtain ⟨_, _, _, _, x, h8, sz, h9⟩ := h4 .structure ref (by rw [e1]; simp)
    simp only [e3] at hcon
    refine ⟨_, .instance hcon (plain_size h hf hr hne h8 h9 (no_range h hrd hrk (by simp) (by rw [e1]; simp))) hsc, ?_⟩
    rw [ho, hm]
    exact .instance hrk e1 ⟨x, sz, h8, h9, rfl⟩ hxs
  | multivector w =>
    obtain ⟨ref, e1, e3, e4⟩ := h2 w rfl
    obtain ⟨decls, _, e5⟩ := variants h hf hr (X := X) (k := kn) hne hrd hrk
    simp only [e3, e4] at hcon
    refine ⟨_, .multivector hcon (index_width hs h hf hno hr hne hrd hrk) e5 hsc, ?_⟩
    rw [ho, hm]
    exact .multivector hrk hxs
  | archive =>
    obtain ⟨ref, e1, e3⟩ := h3 rfl
    obtain ⟨_, _, _, _, x, h8, h9⟩ := h4 .archive ref (by rw [e1]; simp)
    have h9 : x.kind = .archive := h9
    obtain ⟨name, xs, rs, hop, hat⟩ := hsub r hrm ref (by rw [e1]; simp)
    simp only [e3] at hcon
    have hd : Spec.Kind.isDefinition x.kind = true := by rw [h9]; rfl
    have hq : ref.targetPath ≠ [] := by
      obtain ⟨_, _, hpe, _⟩ := hc.namespaces hf h8 hd
      rw [hpe]; simp
    refine ⟨_, .archive hcon (type_path h hr hne h8 hd hq) hop, ?_⟩
    rw [ho, hm]
    exact .archive hrk e1 hat

include hs hb hno in
theorem rust_archive_step (hX : ∀ q m, t.descend q = some m → Printable m.kind = true → Schema t q (.ok (X q)) ∧ SchemaChars (X q)) {p : Path} {n : Tree}
    (hn : t.descend p = some n) (hk : n.kind = .archive)
    (hsub : ∀ r ∈ n.plainResources, ∀ ref ∈ childrenOf r (.ref .archive), ∃ name x rs, RustOpens (programText t X) ref.targetPath name x rs ∧
      RustArchiveAt t ref.targetPath name x rs) : ∃ name x rs, RustOpens (programText t X) p name x rs ∧ RustArchiveAt t p name x rs := by
  have hc := compile_compiled h
  have hall : ∀ l : List Tree, (∀ r ∈ l, r ∈ n.plainResources) → ∃ rs, RustReadsAll (programText t X) p.dropLast (l.map (resourceText p n)) rs ∧
      RustResourcesAt t p l rs := by
    intro l
    induction l with
    | nil => exact fun _ => ⟨[], .nil, .nil⟩
    | cons r l ih =>
      intro hl
      obtain ⟨rs, e1, e2⟩ := ih fun r' hm => hl r' (by simp [hm])
      obtain ⟨x, e3, e4⟩ := resource_reads hs h hf hb hno hr hX hn hk hsub (hl r (by simp))
      exact ⟨x :: rs, .cons e3 e1, .cons e4 e2⟩
  obtain ⟨rs, e1, e2⟩ := hall n.plainResources fun _ hm => hm
  rw [plainResources_eq] at e2
  have hxs := (hX _ n hn (by rw [hk]; rfl)).1
  refine ⟨_, _, rs, .mk (archive_at h hf X hn hk) ?_ e1, .mk hn hk hxs e2⟩
  obtain ⟨ns, kn, rfl, hkn, hne, _⟩ := hc.namespaces hf hn (by rw [hk]; rfl)
  have hcolon : ':' ∉ n.name := by
    have := hc.names hn (by rw [hk]; simp) kn (by simp)
    rw [hkn]; exact idChar_colon this.2
  unfold rustConstantNamed
  have : "schema::".toList ++ rustSchemaModule n.name ++ "::".toList ++ rustConstName n.name =
      "schema::".toList ++ rustSchemaModule n.name ++ colonPath [rustConstName n.name] := by
    simp only [colonPath, List.flatMap_cons, List.flatMap_nil, List.append_nil, List.append_assoc]
  have hcn : ':' ∉ rustConstName n.name := upperName_colon (camelToSnake_colon hcolon)
  rw [this, List.dropLast_concat, schema_path ns (snake := rustSchemaModule n.name) (camelToSnake_colon hcolon) (by
    intro k hk
    rw [List.mem_singleton.mp hk]; exact hcn), Option.bind_some]
  have := (schema_constants h hf X hr (fun q m hq hp => (hX q m hq hp).2) hn hk).1
  unfold schemaScope at this
  rw [List.dropLast_concat, List.append_assoc] at this
  exact this

include hs hb hno in
/-- Every archive can be opened. -/
theorem rust_archive_opens (hX : ∀ q m, t.descend q = some m → Printable m.kind = true → Schema t q (.ok (X q)) ∧ SchemaChars (X q)) {p : Path} {n : Tree}
    (hn : t.descend p = some n) (hk : n.kind = .archive) : ∃ name x rs, RustOpens (programText t X) p name x rs ∧ RustArchiveAt t p name x rs := by
  have hc := compile_compiled h
  obtain ⟨_, events, _, hnd, hall, hbefore⟩ := order_exists h
  have key : ∀ (l done : List Path), dependencyOrder events = done ++ l →
      (∀ q ∈ done, ∀ m, t.descend q = some m → m.kind = .archive → ∃ name x rs, RustOpens (programText t X) q name x rs ∧ RustArchiveAt t q name x rs) →
      ∀ q ∈ done ++ l, ∀ m, t.descend q = some m → m.kind = .archive → ∃ name x rs, RustOpens (programText t X) q name x rs ∧ RustArchiveAt t q name x rs := by
    intro l
    induction l with
    | nil => intro done _ hd q hq; rw [List.append_nil] at hq; exact hd q hq
    | cons a l ih =>
      intro done he hd
      have := ih (done ++ [a]) (by rw [he]; simp) (by
        intro q hq m hm hmk
        rcases List.mem_append.mp hq with hq | hq
        · exact hd q hq m hm hmk
        · rw [List.mem_singleton] at hq
          subst hq
          refine rust_archive_step hs h hf hb hno hr hX hm hmk ?_
          intro r hrm ref href
          obtain ⟨g1, k, o, mx, hrk, hkb⟩ := plain_resource hrm
          have hrd := hc.child hm g1
          obtain ⟨_, _, _, h4⟩ := resource_refs h hrd hrk
          obtain ⟨f1, f2, _, _, x, f3, f4⟩ := h4 .archive ref href
          have hw := walk_resource hc hm g1 (by intro k hk; rw [hrk] at hk; cases hk) f1 f2 (by rfl)
          have hb' := hbefore q 1 ref.targetPath (by rw [he]; simp) hw
          rw [he] at hb' hnd
          exact hd _ (before_mem hnd hb') x f3 f4)
      intro q hq
      exact this q (by simpa using hq)
  exact key (dependencyOrder events) [] rfl (by simp) p (hall p n hn (by rw [hk]; simp)) n hn hk

end

/-! ## Names are different -/

/-- The node is a module, a struct, an enumeration or an archive. -/
def hasItem : Kind → Bool
  | .namespace | .structure _ | .enumeration _ | .archive => true
  | _ => false

/-- The modules inside of a module and for an archive. -/
def innerNames (e : Path × Tree) : List Path :=
  match e.2.kind with
  | .namespace => [e.1 ++ ["schema".toList]]
  | .archive => [schemaScope e.1 e.2, schemaScope e.1 e.2 ++ ["resources".toList]]
  | _ => []

section
variable {source : Text} {t : Tree} (h : Compile source (.ok t)) (hf : Flat t) (X : Path → Text)
include h hf

theorem item_parent {p : Path} {n : Tree} (hn : t.descend p = some n) (hk : hasItem n.kind = true) :
    ∃ ns m, p = ns ++ [n.name] ∧ t.descend ns = some m ∧ n ∈ m.children ∧ (m.kind = .namespace ∨ ns = [] ∧ n.kind = .namespace) := by
  have hc := compile_compiled h
  by_cases hd : Spec.Kind.isDefinition n.kind = true
  · obtain ⟨ns, k, rfl, rfl, _⟩ := hc.namespaces hf hn hd
    obtain ⟨m, h1, h2, h3, _⟩ := hc.parents ns n.name n hn
    exact ⟨ns, m, rfl, h1, h2, .inl (h3 hd)⟩
  · have hns : n.kind = .namespace := by
      cases hk' : n.kind <;> rw [hk'] at hk hd <;> first | rfl | (cases hk; done) | exact absurd rfl hd
    cases p using List.reverseRecOn with
    | nil =>
      simp only [Tree.descend, Option.some.injEq] at hn
      subst hn
      rw [hc.rootKind] at hns; cases hns
    | append_singleton q k =>
      obtain ⟨m, h1, h2, h3⟩ := descend_parent hn
      subst h3
      refine ⟨q, m, rfl, h1, h2, ?_⟩
      rcases hf q n.name n hn hns with h4 | ⟨m', h4, h5⟩
      · exact .inr ⟨h4, hns⟩
      · rw [h1] at h4; cases h4
        exact .inl h5

theorem typeNames_eq {e : Path × Tree} (he : t.descend e.1 = some e.2) : (declsText t X e).flatMap rustTypeNames =
    (if hasItem e.2.kind then (moduleNames e.2).map fun x => e.1.dropLast ++ [x] else []) ++ innerNames e := by
  obtain ⟨p, n⟩ := e
  have hpar := fun hk => item_parent h hf he hk
  simp only at he hpar ⊢
  unfold declsText innerNames moduleNames
  cases hk : n.kind with
  | «namespace» =>
    obtain ⟨ns, m, rfl, _⟩ := hpar (by rw [hk]; rfl)
    simp [hasItem, rustTypeNames]
  | «structure» => simp [hasItem, rustTypeNames]
  | enumeration => simp [hasItem, rustTypeNames]
  | archive =>
    simp only [hasItem, if_true, List.flatMap_cons, rustTypeNames, List.map_cons]
    have h1 : (n.plainResources.map fun r => RustDecl.constant (schemaScope p n ++ ["resources".toList]) (upperName r.name) (rustRawLiteral (X (p ++ [r.name])))).flatMap
        rustTypeNames = [] := by
      rw [List.flatMap_eq_nil_iff]
      intro d hd
      obtain ⟨r, _, rfl⟩ := List.mem_map.mp hd
      rfl
    rw [h1, plainResources_eq]
    have h2 : ∀ l : List Tree, ((l.map (resourceText p n)).flatMap fun r => match r.container with
        | .multivector _ v _ => [p.dropLast ++ [v], p.dropLast ++ [v ++ "Ref".toList], p.dropLast ++ [v ++ "Builder".toList]]
        | _ => []) = (l.flatMap fun r => match r.kind with
          | .resource (.multivector _) _ _ => [upperCamel r.name, upperCamel r.name ++ "Ref".toList, upperCamel r.name ++ "Builder".toList]
          | _ => []).map fun x => p.dropLast ++ [x] := by
      intro l
      induction l with
      | nil => rfl
      | cons r l ih =>
        rw [List.map_cons, List.flatMap_cons, List.flatMap_cons, ih, List.map_append]
        congr 1
        show (match containerText p r with | .multivector _ v _ => _ | _ => _) = _
        unfold containerText
        cases hrk : r.kind with
        | resource k o m => cases k <;> rfl
        | _ => rfl
    exact congrArg (fun z => (p.dropLast ++ [n.name]) :: (p.dropLast ++ [n.name ++ "Builder".toList]) ::
      (z ++ [schemaScope p n, schemaScope p n ++ ["resources".toList]])) (h2 (resourcesOf n))
  | _ => simp [hasItem]

theorem no_schema_prefix (hr : RustArchivesNameable t) {a b c : Path} {m m' : Tree} (ha : t.descend a = some m) (hak : m.kind = .namespace)
    (hb : t.descend b = some m') (hbk : m'.kind = .namespace) (he : b = a ++ "schema".toList :: c) : False := by
  have h1 : b ++ "schema".toList :: [] = a ++ "schema".toList :: (c ++ ["schema".toList]) := by rw [he]; simp
  obtain ⟨h2, _⟩ := schema_split h hf hr hb hbk ha hak h1
  rw [h2] at he
  have := congrArg List.length he
  simp at this

/-- The modules inside, and where they are. -/
theorem inner_split {e : Path × Tree} (he : t.descend e.1 = some e.2) {x : Path} (hx : x ∈ innerNames e) :
    ∃ a m rest, t.descend a = some m ∧ m.kind = .namespace ∧ x = a ++ "schema".toList :: rest ∧
      ((e.2.kind = .namespace ∧ a = e.1 ∧ rest = []) ∨
       (e.2.kind = .archive ∧ e.1 = a ++ [e.2.name] ∧ e.2 ∈ m.children ∧ (rest = [camelToSnake e.2.name] ∨ rest = [camelToSnake e.2.name, "resources".toList]))) := by
  obtain ⟨p, n⟩ := e
  unfold innerNames at hx
  split at hx
  · rename_i hk
    rw [List.mem_singleton] at hx
    exact ⟨p, n, [], he, hk, hx, .inl ⟨hk, rfl, rfl⟩⟩
  · rename_i hk
    obtain ⟨ns, m, hp, h1, h2, h3⟩ := archive_parent h hf he hk
    simp only at hp
    subst hp
    unfold schemaScope at hx
    rw [List.dropLast_concat] at hx
    rcases List.mem_cons.mp hx with rfl | hx
    · exact ⟨ns, m, _, h1, h2, rfl, .inr ⟨hk, rfl, h3, .inl rfl⟩⟩
    · rw [List.mem_singleton] at hx
      subst hx
      exact ⟨ns, m, _, h1, h2, by rw [List.append_assoc]; rfl, .inr ⟨hk, rfl, h3, .inr rfl⟩⟩
  · cases hx

/-- What is defined in a module is not called `schema`. -/
theorem item_inner (hr : RustArchivesNameable t) {e e' : Path × Tree} (he : t.descend e.1 = some e.2) (hk : hasItem e.2.kind = true)
    (he' : t.descend e'.1 = some e'.2) {x : Path} (hx : x ∈ (moduleNames e.2).map fun x => e.1.dropLast ++ [x]) (hx' : x ∈ innerNames e') : False := by
  obtain ⟨p, n⟩ := e
  obtain ⟨ns, m, hp, h1, h2, h3⟩ := item_parent h hf he hk
  obtain ⟨a, m', rest, g1, g2, g3, _⟩ := inner_split h hf he' hx'
  obtain ⟨y, hy, rfl⟩ := List.mem_map.mp hx
  simp only at hp
  subst hp
  rw [List.dropLast_concat] at g3
  cases rest using List.reverseRecOn with
  | nil =>
    obtain ⟨rfl, hy'⟩ := List.append_inj' g3 rfl
    rw [h1] at g1; cases g1
    injection hy' with hy'
    have := (List.nodup_cons.mp (hr.types _ m h1 g2)).1
    exact this (List.mem_flatMap.mpr ⟨n, h2, hy' ▸ hy⟩)
  | append_singleton rest z =>
    have : a ++ "schema".toList :: (rest ++ [z]) = (a ++ "schema".toList :: rest) ++ [z] := by simp
    rw [this] at g3
    obtain ⟨rfl, _⟩ := List.append_inj' g3 rfl
    rcases h3 with h3 | ⟨h3, _⟩
    · exact no_schema_prefix h hf hr g1 g2 h1 h3 rfl
    · have := congrArg List.length h3
      simp at this

/-- No module defines a type or a module twice. -/
theorem types_nodup (hr : RustArchivesNameable t) : ((programText t X).flatMap rustTypeNames).Nodup := by
  have hc := compile_compiled h
  have hnode : ∀ e ∈ rustNodes t, t.descend e.1 = some e.2 := fun e he => (iter_descend hc.lk.good).mp (List.mem_filter.mp he).1
  have hflat : (programText t X).flatMap rustTypeNames = (rustNodes t).flatMap fun e => (declsText t X e).flatMap rustTypeNames := by
    unfold programText
    rw [List.flatMap_assoc]
  rw [hflat, List.nodup_flatMap]
  constructor
  · intro e he
    have hd := hnode e he
    rw [typeNames_eq h hf X hd]
    by_cases hk : hasItem e.2.kind = true
    · rw [if_pos hk, List.nodup_append]
      refine ⟨?_, ?_, ?_⟩
      · obtain ⟨ns, m, hp, h1, h2, h3⟩ := item_parent h hf hd hk
        refine List.Nodup.map (fun a b hab => by simpa using hab) ?_
        rcases h3 with h3 | ⟨_, h3⟩
        · exact (List.nodup_flatMap.mp (List.nodup_cons.mp (hr.types ns m h1 h3)).2).1 _ h2
        · unfold moduleNames
          rw [h3]
          simp
      · unfold innerNames
        split
        · simp
        · rw [List.nodup_cons]
          refine ⟨?_, by simp⟩
          intro hm
          have := congrArg List.length (List.mem_singleton.mp hm)
          simp at this
        · simp
      · intro a ha b hb hab
        subst hab
        exact item_inner h hf hr hd hk hd ha hb
    · rw [if_neg hk, List.nil_append]
      unfold innerNames
      split
      · simp
      · rename_i hk'; rw [hk'] at hk; exact absurd rfl hk
      · simp
  · have hnd : ((rustNodes t).map (·.1)).Nodup := (List.filter_sublist.map _).nodup (iter_nodup t hc.lk.good [])
    unfold List.Nodup at hnd
    rw [List.pairwise_map] at hnd
    refine hnd.imp_of_mem ?_
    intro e e' he he' hne
    have hd := hnode e he
    have hd' := hnode e' he'
    show List.Disjoint ((declsText t X e).flatMap rustTypeNames) ((declsText t X e').flatMap rustTypeNames)
    rw [typeNames_eq h hf X hd, typeNames_eq h hf X hd']
    intro x hx hx'
    rcases List.mem_append.mp hx with hx | hx <;> rcases List.mem_append.mp hx' with hx' | hx'
    · split at hx
      · rename_i hk
        split at hx'
        · rename_i hk'
          obtain ⟨p, n⟩ := e
          obtain ⟨p', n'⟩ := e'
          obtain ⟨ns, m, hp, h1, h2, h3⟩ := item_parent h hf hd hk
          obtain ⟨ns', m', hp', h1', h2', h3'⟩ := item_parent h hf hd' hk'
          simp only at hp hp'
          subst hp hp'
          obtain ⟨y, hy, rfl⟩ := List.mem_map.mp hx
          obtain ⟨y', hy', hyy⟩ := List.mem_map.mp hx'
          simp only [List.dropLast_concat] at hyy
          obtain ⟨rfl, hyy2⟩ := List.append_inj' hyy rfl
          injection hyy2 with hyy2
          subst hyy2
          rw [h1] at h1'; cases h1'
          rcases h3 with h3 | ⟨_, h3⟩
          · have hpw := (List.nodup_flatMap.mp (List.nodup_cons.mp (hr.types _ m h1 h3)).2).2
            have hnn : n ≠ n' := by rintro rfl; exact hne rfl
            have : List.Disjoint (moduleNames n) (moduleNames n') := @List.Pairwise.forall _ _ _ ⟨fun _ _ hd => List.Disjoint.symm hd⟩ hpw _ h2 _ h2' hnn
            exact this hy hy'
          · rcases h3' with h3' | ⟨_, h3'⟩
            · have hpw := (List.nodup_flatMap.mp (List.nodup_cons.mp (hr.types _ m h1 h3')).2).2
              have hnn : n ≠ n' := by rintro rfl; exact hne rfl
              have : List.Disjoint (moduleNames n) (moduleNames n') := @List.Pairwise.forall _ _ _ ⟨fun _ _ hd => List.Disjoint.symm hd⟩ hpw _ h2 _ h2' hnn
              exact this hy hy'
            · unfold moduleNames at hy hy'
              rw [h3] at hy
              rw [h3'] at hy'
              simp only [List.mem_singleton] at hy hy'
              apply hne
              simp only
              rw [← hy, ← hy']
        · cases hx'
      · cases hx
    · split at hx
      · rename_i hk
        exact item_inner h hf hr hd hk hd' hx hx'
      · cases hx
    · split at hx'
      · rename_i hk
        exact item_inner h hf hr hd' hk hd hx' hx
      · cases hx'
    · obtain ⟨a, m, rest, g1, g2, g3, g4⟩ := inner_split h hf hd hx
      obtain ⟨a', m', rest', g1', g2', g3', g4'⟩ := inner_split h hf hd' hx'
      rw [g3] at g3'
      obtain ⟨rfl, rfl⟩ := schema_split h hf hr g1 g2 g1' g2' g3'
      rw [g1] at g1'; cases g1'
      rcases g4 with ⟨f1, f2, f3⟩ | ⟨f1, f2, f3, f4⟩ <;> rcases g4' with ⟨f1', f2', f3'⟩ | ⟨f1', f2', f3', f4'⟩
      · exact hne (f2.symm.trans f2')
      · rw [f3] at f4'
        rcases f4' with f4' | f4' <;> cases f4'
      · rw [f3'] at f4
        rcases f4 with f4 | f4 <;> cases f4
      · have hcs : camelToSnake e.2.name = camelToSnake e'.2.name := by
          rcases f4 with f4 | f4 <;> rcases f4' with f4' | f4' <;> rw [f4] at f4'
          · exact (List.cons.inj f4').1
          · exact (List.cons.inj f4').1
          · exact (List.cons.inj f4').1
          · exact (List.cons.inj f4').1
        have := hr.archives a m g1 g2 _ f3 _ f3' f1 f1' hcs
        rw [this] at f2
        exact hne (f2.trans f2'.symm)

omit h hf in
theorem valueNames_eq (e : Path × Tree) : (declsText t X e).flatMap rustValueNames =
    if e.2.kind = .archive then (schemaScope e.1 e.2 ++ [rustConstName e.2.name]) :: e.2.plainResources.map fun r => schemaScope e.1 e.2 ++ ["resources".toList, upperName r.name]
    else [] := by
  unfold declsText
  cases hk : e.2.kind with
  | archive =>
    simp only [List.flatMap_cons, rustValueNames, if_true]
    have : ∀ l : List Tree, (l.map fun r => RustDecl.constant (schemaScope e.1 e.2 ++ ["resources".toList]) (upperName r.name) (rustRawLiteral (X (e.1 ++ [r.name])))).flatMap
        rustValueNames = l.map fun r => schemaScope e.1 e.2 ++ ["resources".toList, upperName r.name] := by
      intro l
      induction l with
      | nil => rfl
      | cons r l ih =>
        rw [List.map_cons, List.flatMap_cons, ih]
        simp [rustValueNames]
    rw [this]
    rfl
  | _ => simp [rustValueNames]

/-- No module defines a constant twice. -/
theorem values_nodup (hr : RustArchivesNameable t) : ((programText t X).flatMap rustValueNames).Nodup := by
  have hc := compile_compiled h
  have hnode : ∀ e ∈ rustNodes t, t.descend e.1 = some e.2 := fun e he => (iter_descend hc.lk.good).mp (List.mem_filter.mp he).1
  have hflat : (programText t X).flatMap rustValueNames = (rustNodes t).flatMap fun e => (declsText t X e).flatMap rustValueNames := by
    unfold programText
    rw [List.flatMap_assoc]
  rw [hflat, List.nodup_flatMap]
  have hsplit : ∀ e : Path × Tree, ∀ x ∈ (declsText t X e).flatMap rustValueNames, e.2.kind = .archive ∧ ∃ rest, x = schemaScope e.1 e.2 ++ rest := by
    intro e x hx
    rw [valueNames_eq X] at hx
    split at hx
    · rename_i hk
      refine ⟨hk, ?_⟩
      rcases List.mem_cons.mp hx with rfl | hx
      · exact ⟨_, rfl⟩
      · obtain ⟨r, _, rfl⟩ := List.mem_map.mp hx
        exact ⟨_, rfl⟩
    · cases hx
  constructor
  · intro e he
    have hd := hnode e he
    rw [valueNames_eq X]
    split
    · rename_i hk
      rw [List.nodup_cons]
      constructor
      · intro hm
        obtain ⟨r, _, hre⟩ := List.mem_map.mp hm
        have := congrArg List.length hre
        simp at this
      · refine List.Nodup.map_on ?_ ?_
        · intro r hrm r' hrm' hrr
          rw [plainResources_eq] at hrm hrm'
          refine hr.resources e.1 e.2 hd hk r hrm r' hrm' ?_
          have := List.append_cancel_left hrr
          simpa using this
        · exact (List.Nodup.of_map _ (descend_good hc.lk.good hd).nodup).filter _
    · simp
  · have hnd : ((rustNodes t).map (·.1)).Nodup := (List.filter_sublist.map _).nodup (iter_nodup t hc.lk.good [])
    unfold List.Nodup at hnd
    rw [List.pairwise_map] at hnd
    refine hnd.imp_of_mem ?_
    intro e e' he he' hne
    show List.Disjoint ((declsText t X e).flatMap rustValueNames) ((declsText t X e').flatMap rustValueNames)
    intro x hx hx'
    obtain ⟨hk, rest, rfl⟩ := hsplit e x hx
    obtain ⟨hk', rest', hxx⟩ := hsplit e' _ hx'
    exact hne (scope_inj h hf hr (hnode e he) hk (hnode e' he') hk' hxx).1

end

section
variable {source : Text} {blocks : List PBlock} {t : Tree} (hs : parseSource source = .ok blocks) (h : Compile source (.ok t)) (hf : Flat t) (hb : NoBuiltin t)
  (hno : ∀ b ∈ blocks, NoBuiltinEnd (splitDot b.name)) (X : Path → Text)
include hs h hf hno

theorem program_distinct (hr : RustArchivesNameable t) : RustDistinct (programText t X) := by
  refine ⟨types_nodup h hf X hr, values_nodup h hf X hr, ?_⟩
  intro d hd
  obtain ⟨⟨p, n⟩, h1, _, h3⟩ := (mem_program h hf X).mp hd
  unfold declsText at h3
  cases hk : n.kind with
  | «structure» sz =>
    simp only [hk, List.mem_singleton] at h3
    subst h3
    cases hi : isIndexPath t p with
    | false => trivial
    | true =>
      rcases index_iff hs h hf hno h1 (by rw [hk]; rfl) with ⟨_, q, r, w, o, m, g1, g2, rfl⟩ | ⟨h0, _⟩
      · obtain ⟨x, f, e1, e2, e3, e4, e5⟩ := index_node hs h hno g1 g2
        simp only at h1
        rw [h1] at e1; cases e1
        refine ⟨⟨("range".toList, 0, if w = 0 then 64 else w), ?_, rfl⟩, ?_⟩
        · rw [e3]
          unfold rangeEntry
          simp only [List.filterMap_cons, e5, List.filterMap_nil, List.mem_singleton]
          rfl
        · rw [e3]
          simp only [List.map_cons, List.map_nil, e4, List.mem_singleton]
          decide +kernel
      · simp only at h0
        rw [hi] at h0; cases h0
  | archive =>
    simp only [hk, List.mem_cons, List.mem_map] at h3
    rcases h3 with rfl | rfl | rfl | rfl | ⟨_, _, rfl⟩ <;> trivial
  | «namespace» =>
    simp only [hk, List.mem_cons, List.not_mem_nil, or_false] at h3
    rcases h3 with rfl | rfl <;> trivial
  | enumeration =>
    simp only [hk, List.mem_singleton] at h3
    subst h3; trivial
  | _ => simp only [hk, List.not_mem_nil] at h3

include hb in
/-- The generator writes one program. -/
theorem program_exists : ∃ Y : Path → Text, RustArchives t (.ok (programText t Y)) ∧ (∀ out, RustArchives t out → out = .ok (programText t Y)) ∧
    ∀ q m, t.descend q = some m → Printable m.kind = true → Schema t q (.ok (Y q)) ∧ SchemaChars (Y q) := by
  have hc := compile_compiled h
  let L := (t.iter []).map (·.1)
  have hmemL : ∀ {p : Path} {m : Tree}, t.descend p = some m → p ∈ L := by
    intro p m hm
    simp only [L, List.mem_map, Prod.exists, exists_and_right, exists_eq_right, iter_descend hc.lk.good]
    exact ⟨m, hm⟩
  obtain ⟨N, hn1⟩ := common_bound (P := fun q n => ∀ m, t.descend q = some m → Printable m.kind = true → ∃ x, schemaN t q n = some (.ok x))
    (by
      intro q n m hP hnm u hu hp
      obtain ⟨x, hx⟩ := hP u hu hp
      exact ⟨x, schemaN_mono hx hnm⟩) L (by
      intro q _
      by_cases hq : ∃ m, t.descend q = some m ∧ Printable m.kind = true
      · obtain ⟨m, hm, hp⟩ := hq
        have hp' := hp
        unfold Printable at hp'
        rw [Bool.or_eq_true] at hp'
        obtain ⟨x, ⟨n, hx⟩, _⟩ := C56_schema h hf hb hm hp'
        exact ⟨n, fun _ _ _ => ⟨x, hx⟩⟩
      · exact ⟨0, fun m hm hp => absurd ⟨m, hm, hp⟩ hq⟩)
  let sch : Nat → Path → Gen.M Text := fun N q => (schemaN t q N).getD (throw .runtimeError)
  let Y : Path → Text := fun q => match sch N q with | .ok x => x | .error _ => []
  have hget : ∀ M, N ≤ M → ∀ q m, t.descend q = some m → Printable m.kind = true → schemaN t q M = some (.ok (Y q)) := by
    intro M hM q m hm hp
    obtain ⟨x, hx⟩ := hn1 q (hmemL hm) m hm hp
    have : Y q = x := by simp only [Y, sch]; rw [hx]; rfl
    rw [this]
    exact schemaN_mono hx hM
  have hpaths : ∀ e ∈ rustNodes t, ∀ q ∈ rustSchemaPaths e, ∃ m, t.descend q = some m ∧ Printable m.kind = true := by
    intro e he q hq
    have hd := (iter_descend hc.lk.good).mp (List.mem_filter.mp he).1
    unfold rustSchemaPaths at hq
    split at hq
    · rename_i hk
      unfold schemaPaths at hq
      rcases List.mem_cons.mp hq with rfl | hq
      · exact ⟨e.2, hd, by rw [hk]; rfl⟩
      · obtain ⟨r, hr, rfl⟩ := List.mem_map.mp hq
        obtain ⟨g1, k, o, m, g2, _⟩ := plain_resource hr
        exact ⟨r, hc.child hd g1, by rw [g2]; rfl⟩
    · cases hq
  have hrun : ∀ M, (∀ e ∈ rustNodes t, ∀ q ∈ rustSchemaPaths e, schemaN t q M = some (.ok (Y q))) → rustArchivesN t M = some (.ok (programText t Y)) := by
    intro M hM
    unfold rustArchivesN
    rw [if_pos]
    · have : (rustNodes t).mapM (rustDecls t fun q => (schemaN t q M).getD (throw .runtimeError)) = .ok ((rustNodes t).map (declsText t Y)) := by
        refine mapM_map fun e he => ?_
        refine decls_ok hs h hf hb hno (fun q hq => ?_) ((iter_descend hc.lk.good).mp (List.mem_filter.mp he).1)
        rw [hM e he q hq]; rfl
      rw [this]
      show some (Except.ok _) = _
      unfold programText
      rw [List.flatMap_def]
    · rw [List.all_eq_true]
      intro q hq
      obtain ⟨e, he, hq⟩ := List.mem_flatMap.mp hq
      rw [hM e he q hq]; rfl
  refine ⟨Y, ⟨N, hrun N fun e he q hq => ?_⟩, ?_, ?_⟩
  · obtain ⟨m, hm, hp⟩ := hpaths e he q hq
    exact hget N (Nat.le_refl _) q m hm hp
  · rintro out ⟨M, hM⟩
    have hall : ∀ e ∈ rustNodes t, ∀ q ∈ rustSchemaPaths e, schemaN t q M = some (.ok (Y q)) := by
      intro e he q hq
      obtain ⟨m, hm, hp⟩ := hpaths e he q hq
      unfold rustArchivesN at hM
      split at hM
      · rename_i hall
        rw [List.all_eq_true] at hall
        have := hall q (List.mem_flatMap.mpr ⟨e, he, hq⟩)
        obtain ⟨z, hz⟩ := Option.isSome_iff_exists.mp this
        have h1 := schemaN_mono hz (Nat.le_max_right N M)
        rw [hget _ (Nat.le_max_left N M) q m hm hp] at h1
        cases h1
        exact hz
      · cases hM
    rw [hrun M hall] at hM
    exact (Option.some.inj hM).symm
  · intro q m hm hp
    have hx := hget N (Nat.le_refl _) q m hm hp
    exact ⟨⟨N, hx⟩, hc.schars hf hb hm hp ⟨N, hx⟩⟩

end

end Props
