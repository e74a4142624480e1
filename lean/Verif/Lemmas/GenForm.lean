import Verif.Lemmas.GenNeat
import Verif.Props.Gen.Ast

/-! # What accepted schema texts look like as trees -/

namespace Gen
open Spec Props

/-- Facts about the tree of an accepted text. -/
structure Form (t : Tree) : Prop where
  lk : Lk t
  root : ∀ q n, t.descend q = some n → n.kind = .root → q = []
  refName : ∀ q r rk, t.descend q = some r → r.kind = .ref rk → ∃ body, r.name = '@' :: body
  name : ∀ q n, t.descend q = some n → NameOk n.kind n.name
  range : ∀ q n, t.descend q = some n → RangeOk n.kind
  furnished : ∀ q n, t.descend q = some n → Furnished n.kind (n.children.map Tree.kind)
  resource : ∀ q n k o m, t.descend q = some n → n.kind = .resource k o m → ChildrenOk (.resource k o none) (childKinds n.children)
  explicit : ∀ q n, t.descend q = some n → n.kind = .explicitReference → childKinds n.children = [.ref .resource, .ref .field, .ref .structure]
  typed : ∀ q n ty rg o, t.descend q = some n → n.kind = .field ty rg o → (∃ b, ty = .basic b) ∨
    ∃ ref ∈ n.children, ∃ w m b, ref.kind = .ref (.enumeration w) ∧ t.descend ref.targetPath = some m ∧ m.kind = .enumeration b ∧ ty = .enum ref.name b
  laidOut : ∀ q, LaidOutAt t q
  parents : ∀ q k n, t.descend (q ++ [k]) = some n → ∃ m, t.descend q = some m ∧ n ∈ m.children ∧
    (Spec.Kind.isDefinition n.kind = true → m.kind = .namespace) ∧ (n.kind.isResource = true → m.kind = .archive)

theorem blank_infos {t t' : Tree} (hg : Good t) (hg' : Good t') (hs : Same t t') {p : Path} {n n' : Tree} (h : t.descend p = some n)
    (h' : t'.descend p = some n') : n'.children.map (fun c => (c.name, c.kind.blank)) = n.children.map (fun c => (c.name, c.kind.blank)) := by
  obtain ⟨n2, h1, _, _, h4⟩ := hs.node h
  rw [h'] at h1; cases h1
  have key : ∀ (u x : Tree), Good u → u.descend p = some x →
      x.children.map (fun c => (c.name, c.kind.blank)) = (x.children.map Tree.name).map fun k => (k, ((kindAt u (p ++ [k])).map Kind.blank).getD .root) := by
    intro u x hu hx
    rw [List.map_map]
    apply List.map_congr_left
    intro c hcm
    simp only [Function.comp, kindAt, descend_child hu hx hcm, Option.map_some, Option.getD_some]
  rw [key t' n' hg' h', key t n hg h, h4]
  apply List.map_congr_left
  intro k _
  have := congrArg (Option.map fun x : Text × Kind × List Text => x.2.1) (hs (p ++ [k]))
  simp only [skel, Option.map_map, Function.comp_def] at this
  simp only [kindAt, Option.map_map, Function.comp_def, this]

/-- References and explicit references have no attributes. -/
def Kind.fixed : Kind → Bool
  | .ref _ | .explicitReference | .enumValue .. => true
  | _ => false

theorem blank_fixed {k : Kind} (h : k.blank.fixed = true) : k.blank = k := by cases k <;> simp_all [Kind.blank, Kind.fixed]

theorem blank_namespace {k : Kind} : k.blank = .namespace ↔ k = .namespace := by cases k <;> simp [Kind.blank]

theorem childKinds_blank (cs : List Tree) : (childKinds cs).map Kind.blank = (cs.map fun c => c.kind.blank).filter (· ≠ .namespace) := by
  unfold childKinds
  induction cs with
  | nil => rfl
  | cons c cs ih =>
    by_cases hc : c.kind = .namespace
    · simp only [List.map_cons, List.filter_cons, hc]
      simpa [Kind.blank] using ih
    · have : c.kind.blank ≠ .namespace := fun h => hc (blank_namespace.mp h)
      simp only [List.map_cons, List.filter_cons, decide_eq_true_eq, ne_eq, hc, not_false_eq_true, if_true, this, ih]

theorem blank_list {ks ks' : List Kind} (h : ks.map Kind.blank = ks') (hf : ∀ k ∈ ks', k.fixed = true) : ks = ks' := by
  rw [← h]
  symm
  conv_rhs => rw [← List.map_id ks]
  apply List.map_congr_left
  intro k hk
  exact blank_fixed (hf _ (h ▸ List.mem_map_of_mem hk))

theorem resource_fixed {k : ResKind} {o : Bool} {ks : List Kind} (h : ChildrenOk (.resource k o none) ks) : ∀ x ∈ ks, x.fixed = true := by
  cases k <;> simp only [ChildrenOk] at h
  case multivector =>
    obtain ⟨a, b, c, rfl⟩ := h
    intro x hx
    simp only [List.mem_append, List.mem_replicate] at hx
    rcases hx with (⟨_, rfl⟩ | ⟨_, rfl⟩) | ⟨_, rfl⟩ <;> rfl
  all_goals
    obtain ⟨a, rfl⟩ := h
    intro x hx
    simp only [List.mem_append, List.mem_replicate, List.mem_singleton] at hx
    grind [Kind.fixed]

theorem blank_map_fixed {ks : List Kind} (hf : ∀ k ∈ ks, k.fixed = true) : ks.map Kind.blank = ks := by
  conv_rhs => rw [← List.map_id ks]
  apply List.map_congr_left
  intro k hk
  have := hf k hk
  cases k <;> simp_all [Kind.blank, Kind.fixed]

theorem nameOk_blank {k k' : Kind} (h : k.blank = k'.blank) {n : Text} (hn : NameOk k n) : NameOk k' n := by
  cases k <;> cases k' <;> simp_all [Kind.blank, NameOk]

theorem rangeOk_blank {k k' : Kind} (h : k.blank = k'.blank) (hn : RangeOk k) : RangeOk k' := by
  cases k <;> cases k' <;> simp_all [Kind.blank, RangeOk]
  rename_i r1 _ _ r2 _
  subst h
  cases r1 <;> exact hn

theorem blank_resource {k : Kind} {rk : ResKind} {o : Bool} {m : Option Nat} (h : k.blank = (Kind.resource rk o m).blank) : ∃ m', k = .resource rk o m' := by
  cases k <;> simp [Kind.blank] at h
  obtain ⟨rfl, rfl⟩ := h; exact ⟨_, rfl⟩

theorem blank_enumeration {k : Kind} {b : BasicType} (h : k.blank = (Kind.enumeration b).blank) : k = .enumeration b := by
  cases k <;> simp [Kind.blank] at h
  rw [h]

theorem blank_explicit {k : Kind} (h : k.blank = Kind.explicitReference.blank) : k = .explicitReference := by
  cases k <;> simp [Kind.blank] at h
  rfl

theorem blank_root {k : Kind} (h : k.blank = Kind.root.blank) : k = .root := by
  cases k <;> simp [Kind.blank] at h
  rfl

theorem blank_archive {k : Kind} (h : k.blank = Kind.archive.blank) : k = .archive := by
  cases k <;> simp [Kind.blank] at h
  rfl

theorem unsized_field {k : Kind} {ty : FieldType} {rg : Option Text} {o : Option Nat} (h : k.unsized = (Kind.field ty rg o).unsized) : ∃ o', k = .field ty rg o' := by
  cases k <;> simp [Kind.unsized] at h
  obtain ⟨rfl, rfl⟩ := h; exact ⟨_, rfl⟩

theorem untyped_field {k : Kind} {ty : FieldType} {rg : Option Text} {o : Option Nat} (h : k.untyped = (Kind.field ty rg o).untyped) : ∃ ty', k = .field ty' rg o := by
  cases k <;> simp [Kind.untyped] at h
  obtain ⟨rfl, rfl⟩ := h; exact ⟨_, rfl⟩

theorem unlimited_structure {k : Kind} {sz : Option Nat} (h : k.unlimited = (Kind.structure sz).unlimited) : k = .structure sz := by
  cases k <;> simp [Kind.unlimited] at h
  rw [h]

theorem furnished_blank {k k' : Kind} {ks ks' : List Kind} (h : k.blank = k'.blank) (hk : ks.map Kind.blank = ks'.map Kind.blank) (hn : Furnished k ks) :
    Furnished k' ks' := by
  have hfix : ∀ x ∈ ks, x.fixed = true → x ∈ ks' := by
    intro x hx hf
    have hb : x.blank = x := by cases x <;> simp_all [Kind.blank, Kind.fixed]
    have : x.blank ∈ ks'.map Kind.blank := hk ▸ List.mem_map_of_mem hx
    obtain ⟨y, hy, he⟩ := List.mem_map.mp this
    have hyf : y.blank.fixed = true := by rw [he, hb]; exact hf
    rw [← hb, ← he, blank_fixed hyf]; exact hy
  cases k <;> cases k' <;> simp only [Kind.blank, reduceCtorEq] at h <;> try (trivial)
  · obtain ⟨v, hv⟩ := hn; exact ⟨v, hfix _ hv rfl⟩
  · obtain ⟨x, hx, hxf⟩ := hn
    have : x.blank ∈ ks'.map Kind.blank := hk ▸ List.mem_map_of_mem hx
    obtain ⟨y, hy, he⟩ := List.mem_map.mp this
    exact ⟨y, hy, by rw [← hxf]; exact blank_isField he⟩
  · simp only [Kind.resource.injEq] at h
    obtain ⟨rfl, rfl, _⟩ := h
    rename_i rk _ _ _ _
    cases rk
    case multivector => exact hfix _ hn rfl
    case bound => exact hfix _ hn rfl
    all_goals trivial

/-- Which nodes have definitions and resources as children. -/
theorem childrenOk_parent {k x : Kind} {ks : List Kind} (h : ChildrenOk k ks) (hx : x ∈ ks) :
    (Spec.Kind.isDefinition x = true → k = .namespace) ∧ (x.isResource = true → k = .archive) := by
  have nodef : ∀ {x : Kind}, x.fixed = true → ¬ Spec.Kind.isDefinition x = true ∧ ¬ x.isResource = true := by
    intro x hx; cases x <;> simp_all [Kind.fixed, Spec.Kind.isDefinition, Kind.isResource]
  have viaFixed : x.fixed = true → (Spec.Kind.isDefinition x = true → k = .namespace) ∧ (x.isResource = true → k = .archive) :=
    fun hf => ⟨fun h => ((nodef hf).1 h).elim, fun h => ((nodef hf).2 h).elim⟩
  cases k with
  | root => rw [show ks = [] from h] at hx; cases hx
  | «namespace» =>
    have := h x hx
    refine ⟨fun _ => rfl, fun hr => ?_⟩
    cases x <;> simp_all [Spec.Kind.isDefinition, Kind.isResource]
  | constant => rw [show ks = [] from h] at hx; cases hx
  | enumeration =>
    have := h x hx
    refine viaFixed ?_
    cases x <;> simp_all [Spec.Kind.isEnumValue, Kind.fixed]
  | enumValue => rw [show ks = [] from h] at hx; cases hx
  | «structure» =>
    have := h x hx
    cases x <;> simp_all [Kind.isField, Spec.Kind.isDefinition, Kind.isResource]
  | field ty =>
    have hf : x.fixed = true := by
      have hc : ∀ {x : Kind}, x.isConstantReference = true → x.fixed = true := by
        intro x hx; cases x <;> simp_all [Kind.isConstantReference, Kind.fixed]
      cases ty with
      | basic => exact hc (h x hx)
      | enum =>
        obtain ⟨cs, w, rfl, hcs⟩ := h
        rcases List.mem_append.mp hx with hx | hx
        · exact hc (hcs x hx)
        · simp only [List.mem_singleton] at hx; subst hx; rfl
      | none =>
        obtain ⟨cs, w, rfl, hcs⟩ := h
        rcases List.mem_append.mp hx with hx | hx
        · exact hc (hcs x hx)
        · simp only [List.mem_singleton] at hx; subst hx; rfl
    exact viaFixed hf
  | archive =>
    have := h x hx
    refine ⟨fun hd => ?_, fun _ => rfl⟩
    cases x <;> simp_all [Spec.Kind.isDefinition, Kind.isResource]
  | resource rk o m =>
    refine viaFixed (resource_fixed (k := rk) (o := o) (ks := ks) ?_ x hx)
    cases rk <;> exact h
  | explicitReference =>
    rw [show ks = _ from h] at hx
    refine viaFixed ?_
    simp only [List.mem_cons, List.not_mem_nil, or_false] at hx
    rcases hx with rfl | rfl | rfl <;> rfl
  | ref => rw [show ks = [] from h] at hx; cases hx

theorem blank_isDefinition {k k' : Kind} (h : k.blank = k'.blank) : Spec.Kind.isDefinition k = Spec.Kind.isDefinition k' := by
  cases k <;> cases k' <;> simp_all [Kind.blank, Spec.Kind.isDefinition]

theorem blank_isResource {k k' : Kind} (h : k.blank = k'.blank) : k.isResource = k'.isResource := by
  cases k <;> cases k' <;> simp_all [Kind.blank, Kind.isResource]

section
variable {blocks : List PBlock} {t : Tree} (s : Stages blocks t) (hl : ∀ b ∈ blocks, Lexical b)
include s hl

theorem Stages.neatR : Neat s.resolved := by
  have h := s.h1
  unfold buildResolved at h
  obtain ⟨t0, h1, h⟩ := bind_ok h
  obtain ⟨t1, h2, h⟩ := bind_ok h
  have hm := (built_merged h1).1
  have hw := (built_named (fun b hb => lexical_plain (hl b hb)) h1).1
  have hr := appendBuiltins_ready ⟨hm.good, hw, hm.name, hm.kind⟩ h2
  obtain ⟨hren, _⟩ := resolve_renamed hr.good hr.named hr.name h
  refine renamed_neat hren (foldlM_neat ?_ hm.good (built_neat hl h1) h2)
  rintro ⟨p, w⟩ he
  obtain ⟨pos, n, o, m, g1, g2, g3⟩ := multivectors_mem.mp he
  exact neat_path (built_neat hl h1) hw (fun q m hm hk => shaped_root (built_shaped h1) hm hk)
    (n := n) (by simp only; rw [← g2]; exact descend_namesAt hm.good g1) (by rw [g3]; simp)

/-- Every node of the result that is not a reference to a constant was there after references had been resolved. -/
theorem Stages.origin {q : Path} {n : Tree} (hn : t.descend q = some n) :
    (∃ r ext, s.resolved.descend q = some r ∧ r.name = n.name ∧ r.kind.blank = n.kind.blank ∧
      n.children.map (fun c => (c.name, c.kind.blank)) = r.children.map (fun c => (c.name, c.kind.blank)) ++ ext ∧
      (n.kind ≠ .archive → ext = []) ∧ ∀ k ∈ ext, k.2 = .ref .constantValue) ∨
    (n.kind = .ref .constantValue ∧ n.children = [] ∧ ∃ body, n.name = '@' :: body) := by
  have hb : ∀ b ∈ blocks, PlainNames b := fun b hb => lexical_plain (hl b hb)
  obtain ⟨hlr, hshr⟩ := s.linked hb
  obtain ⟨hlc, hgrow, hback⟩ := appendConstantRefs_spec hlr s.h2
  have hsame := s.sameCT hb
  have hgt := (s.maxSpec hb).1
  obtain ⟨c, c1, c2, c3, _⟩ := hsame.symm.node hn
  have hinfo := blank_infos hlc.good hgt hsame c1 hn
  rcases hback q c c1 with ⟨r, r1, r2⟩ | ⟨_, _, _, _, x, _, _, e2, e3⟩
  · left
    obtain ⟨c', ext, g1, g2, g3, g4, g5⟩ := hgrow q r r1
    rw [c1] at g1; cases g1
    refine ⟨r, ext.map fun e => (e.1, e.2.blank), r1, g2.symm.trans c2, by rw [← g3, c3], ?_, ?_, ?_⟩
    · rw [hinfo]
      have := congrArg (List.map fun e : Text × Kind => (e.1, e.2.blank)) g4
      simpa [info, Function.comp_def] using this
    · intro hne
      have : r.kind ≠ .archive := by
        intro ha; apply hne
        rw [← g3] at ha
        rw [ha] at c3
        exact blank_archive c3.symm
      rw [g5, if_neg this]; rfl
    · intro k hk
      obtain ⟨e, he, rfl⟩ := List.mem_map.mp hk
      rw [g5] at he
      split at he
      · obtain ⟨y, _, rfl⟩ := List.mem_map.mp he; rfl
      · cases he
  · right
    have hk : n.kind = .ref .constantValue := by
      rw [e3] at c3; exact blank_ref.mp c3.symm
    refine ⟨hk, (s.lkT hb).leaf q n _ hn hk, ?_⟩
    rw [← c2, e2]; exact ⟨_, rfl⟩

theorem Stages.typedForm : ∀ q n ty rg o, t.descend q = some n → n.kind = .field ty rg o → (∃ b, ty = .basic b) ∨
    ∃ ref ∈ n.children, ∃ w m b, ref.kind = .ref (.enumeration w) ∧ t.descend ref.targetPath = some m ∧ m.kind = .enumeration b ∧ ty = .enum ref.name b := by
  have hb : ∀ b ∈ blocks, PlainNames b := fun b hb => lexical_plain (hl b hb)
  intro q n ty rg o hn hk
  have hlc := s.linkedC hb
  obtain ⟨_, h2, h3, h4⟩ := updateFieldTypes_spec hlc.lk s.h4
  obtain ⟨z, z1, _, z3, _⟩ := (s.maxSpec hb).2.1.symm.node hn
  obtain ⟨y, y1, _, y3, _⟩ := (s.sizedSpec hb).2.1.symm.node z1
  have hz : z.kind = .field ty rg o := unlimited_field (by rw [z3, hk]; rfl)
  have hy : ∃ o', y.kind = .field ty rg o' := by
    rw [hz] at y3
    exact unsized_field y3
  obtain ⟨o', hy⟩ := hy
  obtain ⟨c, c1, _, c3, _⟩ := h2.symm.node y1
  rw [hy] at c3
  have hck : ∃ ty0, c.kind = .field ty0 rg o' := by
    exact untyped_field c3
  obtain ⟨ty0, hck⟩ := hck
  have hok := hlc.kindOk q c c1
  rw [hck] at hok
  have hyk : kindAt s.typed q = some (.field ty rg o') := kindAt_some.mpr ⟨y, y1, hy⟩
  rcases hok with ⟨_, rfl | ⟨b, rfl, hw⟩⟩
  · obtain ⟨ref, e1, w, m, bt, e2, e3, e4, e5, _⟩ := h4 q c rg o' c1 hck
    rw [hyk] at e5
    simp only [Option.some.injEq, Kind.field.injEq, and_true] at e5
    right
    have hsame := s.sameCT hb
    obtain ⟨ref', q1, q2, q3, _⟩ := hsame.mem hlc.good c1 hn e1
    obtain ⟨m', m1, _, m3, _⟩ := hsame.node e3
    have ht : ref'.targetPath = ref.targetPath := by unfold Tree.targetPath Tree.target; rw [q2]
    refine ⟨ref', q1, w, m', bt, Same.ref_eq q3.symm e2, by rw [ht]; exact m1, ?_, by rw [q2]; exact e5⟩
    rw [e4] at m3
    exact blank_enumeration m3
  · left
    have := h3 q (.field (.basic b) rg o') (kindAt_some.mpr ⟨c, c1, hck⟩) (by simp)
    rw [hyk] at this
    simp only [Option.some.injEq, Kind.field.injEq, and_true] at this
    exact ⟨b, this⟩

theorem Stages.laidOutForm : ∀ q, LaidOutAt t q := by
  have hb : ∀ b ∈ blocks, PlainNames b := fun b hb => lexical_plain (hl b hb)
  intro q n sz hn hk
  obtain ⟨g1, g2, _⟩ := s.maxSpec hb
  have hz := (s.sizedSpec hb).2.2.1 q
  refine laidOutAt_congr (s.sizedSpec hb).1 g1 g2 ?_ ?_ hz n sz hn hk
  · obtain ⟨z, z1, _, z3, _⟩ := g2.symm.node hn
    rw [kindAt, kindAt, hn, z1, Option.map_some, Option.map_some, hk]
    rw [hk] at z3
    rw [unlimited_structure z3]
  · intro k
    have := congrArg (Option.map fun x : Text × Kind × List Text => x.2.1.outline) (g2 (q ++ [k]))
    have hu : ∀ x : Kind, x.unlimited.outline = x.outline := by intro x; cases x <;> rfl
    simpa only [skel, Option.map_map, Function.comp_def, hu, kindAt] using this


theorem Stages.parents {q : Path} {k : Text} {n : Tree} (hn : t.descend (q ++ [k]) = some n) : ∃ m, t.descend q = some m ∧ n ∈ m.children ∧
    (Spec.Kind.isDefinition n.kind = true → m.kind = .namespace) ∧ (n.kind.isResource = true → m.kind = .archive) := by
  have hb : ∀ b ∈ blocks, PlainNames b := fun b hb => lexical_plain (hl b hb)
  obtain ⟨hlr, hshr⟩ := s.linked hb
  obtain ⟨m, hm, hmem, _⟩ := descend_parent hn
  refine ⟨m, hm, hmem, ?_⟩
  rcases s.origin hl hn with ⟨r, _, h1, _, h3, _⟩ | ⟨h, _⟩
  · obtain ⟨m0, hm0, hmem0, _⟩ := descend_parent h1
    have hmk : m0.kind.blank = m.kind.blank := by
      rcases s.origin hl hm with ⟨r', _, g1, _, g3, _⟩ | ⟨g, g2, _⟩
      · rw [hm0] at g1; cases g1; exact g3
      · rw [g2] at hmem; cases hmem
    have key : ∀ hr : r.kind ≠ .namespace, (Spec.Kind.isDefinition r.kind = true → m0.kind = .namespace) ∧ (r.kind.isResource = true → m0.kind = .archive) := by
      intro hr
      refine childrenOk_parent (shaped_descend hshr hm0).kinds ?_
      unfold childKinds
      simp only [List.mem_filter, List.mem_map, ne_eq, decide_eq_true_eq]
      exact ⟨⟨r, hmem0, rfl⟩, hr⟩
    constructor
    · intro hd
      rw [← blank_isDefinition h3] at hd
      have := (key (by intro e; rw [e] at hd; cases hd)).1 hd
      rw [this] at hmk
      exact blank_namespace.mp hmk.symm
    · intro hd
      rw [← blank_isResource h3] at hd
      have := (key (by intro e; rw [e] at hd; cases hd)).2 hd
      rw [this] at hmk
      exact blank_archive hmk.symm
  · rw [h]
    exact ⟨(fun h => by cases h), (fun h => by cases h)⟩

theorem Stages.form : Form t := by
  have hb : ∀ b ∈ blocks, PlainNames b := fun b hb => lexical_plain (hl b hb)
  obtain ⟨hlr, hshr⟩ := s.linked hb
  have hneat := s.neatR hl
  have hkinds : ∀ {a b : List Tree} {ext : List (Text × Kind)},
      b.map (fun c => (c.name, c.kind.blank)) = a.map (fun c => (c.name, c.kind.blank)) ++ ext →
      b.map (fun c => c.kind.blank) = a.map (fun c => c.kind.blank) ++ ext.map Prod.snd := by
    intro a b ext h
    have := congrArg (List.map Prod.snd) h
    simpa [Function.comp_def] using this
  have hsub : ∀ {q : Path} {n : Tree}, t.descend q = some n → n.kind ≠ .archive → (∀ rk, n.kind ≠ .ref rk) → ∃ r, s.resolved.descend q = some r ∧
      r.kind.blank = n.kind.blank ∧ n.children.map (fun c => c.kind.blank) = r.children.map (fun c => c.kind.blank) := by
    intro q n hn hna hnr
    rcases s.origin hl hn with ⟨r, ext, h1, _, h3, h4, h5, _⟩ | ⟨h, _⟩
    · refine ⟨r, h1, h3, ?_⟩
      have := hkinds h4
      rw [h5 hna] at this
      simpa using this
    · exact absurd h (hnr _)
  have hck : ∀ {n r : Tree}, n.children.map (fun c => c.kind.blank) = r.children.map (fun c => c.kind.blank) →
      (childKinds n.children).map Kind.blank = (childKinds r.children).map Kind.blank := by
    intro n r h
    rw [childKinds_blank, childKinds_blank, h]
  refine ⟨s.lkT hb, ?_, ?_, ?_, ?_, ?_, ?_, ?_, ?_, ?_, ?_⟩
  · intro q n hn hk
    rcases s.origin hl hn with ⟨r, ext, h1, _, h3, _⟩ | ⟨h, _⟩
    · refine shaped_root hshr h1 ?_
      rw [hk] at h3
      exact blank_root h3
    · rw [hk] at h; cases h
  · intro q r rk hr hk
    rcases s.origin hl hr with ⟨r0, ext, h1, h2, h3, _⟩ | ⟨_, _, h⟩
    · rw [hk] at h3
      have h3' := blank_ref.mp h3
      rw [← h2]
      have hw := wellNamed_descend hlr.named h1
      obtain ⟨b, hb', _⟩ := hw.ref_name h3'
      exact ⟨b, hb'⟩
    · exact h
  · intro q n hn
    rcases s.origin hl hn with ⟨r0, ext, h1, h2, h3, _⟩ | ⟨h, _⟩
    · rw [← h2]
      exact nameOk_blank h3 (neat_descend hneat h1).name
    · rw [h]; trivial
  · intro q n hn
    rcases s.origin hl hn with ⟨r0, ext, h1, h2, h3, _⟩ | ⟨h, _⟩
    · exact rangeOk_blank h3 (neat_descend hneat h1).range
    · rw [h]; trivial
  · intro q n hn
    rcases s.origin hl hn with ⟨r0, ext, h1, h2, h3, h4, h5, _⟩ | ⟨h, _⟩
    · by_cases ha : n.kind = .archive
      · rw [ha]; trivial
      · refine furnished_blank h3 ?_ (neat_descend hneat h1).furnished
        have := hkinds h4
        rw [h5 ha] at this
        simpa [Function.comp_def] using this.symm
    · rw [h]; trivial
  · intro q n k o m hn hk
    obtain ⟨r, h1, h2, h3⟩ := hsub hn (by rw [hk]; simp) (by rw [hk]; simp)
    have hr : r.kind = .resource k o none := by
      rw [hk] at h2
      have h4 := (shaped_descend hshr h1).kindOk
      obtain ⟨m', hm'⟩ := blank_resource h2
      rw [hm'] at h4 ⊢
      rw [show m' = none from h4]
    have hs := (shaped_descend hshr h1).kinds
    rw [hr] at hs
    have hfix := resource_fixed hs
    have := hck h3
    rw [blank_map_fixed hfix] at this
    rw [blank_list this hfix]; exact hs
  · intro q n hn hk
    obtain ⟨r, h1, h2, h3⟩ := hsub hn (by rw [hk]; simp) (by rw [hk]; simp)
    have hr : r.kind = .explicitReference := by
      rw [hk] at h2
      exact blank_explicit h2
    have hs := (shaped_descend hshr h1).kinds
    rw [hr] at hs
    have hs : childKinds r.children = [.ref .resource, .ref .field, .ref .structure] := hs
    have hfix : ∀ k ∈ [Kind.ref .resource, .ref .field, .ref .structure], k.fixed = true := by decide
    have := hck h3
    rw [hs, blank_map_fixed hfix] at this
    exact blank_list this hfix
  · exact s.typedForm hl
  · exact s.laidOutForm hl
  · intro q k n hn; exact s.parents hl hn

end

/-- The tree of an accepted text. -/
theorem compiled_form {blocks : List PBlock} (hl : ∀ b ∈ blocks, Lexical b) {t : Tree} (h : BuildAst blocks (.ok t)) : Form t := by
  obtain ⟨s, _⟩ := buildAst_stages h
  exact s.form hl

end Gen
