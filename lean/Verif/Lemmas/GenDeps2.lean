import Verif.Lemmas.GenDeps
import Verif.Lemmas.GenAgainSame

/-! # Dependencies and records (for C107) -/

namespace Gen
open Spec Props

def pathOfText (x : Text) : Path := (splitDot x).tail

theorem targetPath_text (r : Tree) : r.targetPath = pathOfText r.target := rfl

section
variable {t : Tree} (hg : Ground t)
include hg

theorem Ground.structAs {p : Path} {m : Tree} {sz : Option Nat} (hm : t.descend p = some m) (hk : m.kind = .structure sz) (hp : ¬ InBuiltin p) :
    ∃ x, StructAs t p x m := by
  obtain ⟨s, hs⟩ := hg.source
  obtain ⟨bl, h1, h2, h3⟩ := compile_blocks hs
  rcases C66_only h1 hs hm (by rw [hk]; rfl) with ⟨b, hb, k, hkm, rfl⟩ | ⟨q, r, w, o, mx, _, _, rfl⟩
  · simp only [List.mem_append, List.mem_map] at hkm
    rcases hkm with ((⟨x, hx, rfl⟩ | ⟨x, hx, rfl⟩) | ⟨x, hx, rfl⟩) | ⟨x, hx, rfl⟩
    · obtain ⟨n, n1, n2⟩ := C66_constants h1 hs hb hx
      rw [hm] at n1; cases n1
      have := n2.kind; rw [hk] at this; cases this
    · obtain ⟨n, n1, n2⟩ := C66_enumerations h1 hs hb hx
      rw [hm] at n1; cases n1
      have := n2.kind; rw [hk] at this; cases this
    · obtain ⟨n, n1, n2⟩ := C66_structures h1 hs hb hx
      rw [hm] at n1; cases n1
      exact ⟨x, n2⟩
    · obtain ⟨n, n1, n2⟩ := C66_archives h1 hs hb hx
      rw [hm] at n1; cases n1
      have := n2.kind; rw [hk] at this; cases this
  · exact absurd (by unfold InBuiltin; simp) hp

theorem Ground.members_eq {p : Path} {m : Tree} (hm : t.descend p = some m) (h1 : m.kind ≠ .namespace) (h2 : m.kind ≠ .root) (h3 : m.kind ≠ .archive)
    (h4 : m.kind.isResource = false) : members m = m.children := by
  unfold members
  rw [List.filter_eq_self]
  intro c hcm
  obtain ⟨s, hs⟩ := hg.source
  have g1 := (hg.kid hm h1 h2 hcm).1
  have g2 : c.kind ≠ .ref .builtinStructure := by
    intro e
    obtain ⟨w, o, mx, e'⟩ := builtin_parent hs hm hcm e
    rw [e'] at h4; cases h4
  simp [g1, g2, h3]

def IsConstRef (c : Tree) : Prop := c.kind = .ref .constantValue ∨ c.kind = .ref .invalidValue

theorem Ground.fieldKids {p : Path} {m f : Tree} {sz : Option Nat} (hm : t.descend p = some m) (hk : m.kind = .structure sz) (hp : ¬ InBuiltin p) (hf : f ∈ m.children) :
    (∃ b rg o, f.kind = .field (.basic b) rg o ∧ ∀ c ∈ f.children, IsConstRef c) ∨
    ∃ nm b rg o l e w, f.kind = .field (.enum nm b) rg o ∧ f.children = l ++ [e] ∧ e.kind = .ref (.enumeration w) ∧ e.target = dereferencify nm ∧ ∀ c ∈ l, IsConstRef c := by
  obtain ⟨x, hx⟩ := hg.structAs hm hk hp
  have hc := hg.compiled
  have hmm := hg.members_eq hm (by rw [hk]; simp) (by rw [hk]; simp) (by rw [hk]; simp) (by rw [hk]; rfl)
  obtain ⟨pf, _, hfa⟩ := forall₂_mem_right hx.fields (by rw [hmm]; exact hf)
  obtain ⟨ty, off, refs, hfk, hty, hall⟩ := hfa.is
  have hfd := hc.child hm hf
  rw [hg.members_eq hfd (by rw [hfk]; simp) (by rw [hfk]; simp) (by rw [hfk]; simp) (by rw [hfk]; rfl)] at hall
  have hdec : ∀ {l : List Tree}, List.Forall₂ (RefersAs t (p ++ [pf.name])) (decorationRefs pf) l → ∀ c ∈ l, IsConstRef c := by
    intro l hl c hcm
    obtain ⟨d, hd, hr⟩ := forall₂_mem_right hl hcm
    unfold decorationRefs at hd
    obtain ⟨y, _, hy⟩ := List.mem_filterMap.mp hd
    have := hr.kind
    cases y <;> simp at hy <;> subst hy
    · exact .inl this
    · exact .inr this
  cases hty with
  | @basic b hb hw => exact .inl ⟨_, _, _, hfk, hdec (by simpa using hall)⟩
  | @enumeration q m' bt nm hb hq hm' hkm hn hw =>
    right
    obtain ⟨l, l', e1, e2, e3⟩ := forall₂_split hall
    cases e3 with
    | cons hr hnil =>
      cases hnil
      rename_i e
      refine ⟨nm, bt, _, _, l, e, _, hfk, e1, hr.kind, ?_, hdec e2⟩
      rcases hc.typed _ f _ _ _ hfd hfk with ⟨b', hb'⟩ | ⟨ref, hmem, w, m2, b', g1, g2, g3, g4⟩
      · cases hb'
      · cases g4
        rw [e1] at hmem
        rcases List.mem_append.mp hmem with h | h
        · rcases hdec e2 ref h with h | h <;> rw [g1] at h <;> cases h
        · simp only [List.mem_singleton] at h
          subst h; rfl

/-- All children of the node are references to definitions that are printed. -/
theorem Ground.refsBelow_leaves {p : Path} {f : Tree} (hf : t.descend p = some f) (h : ∀ c ∈ f.children, c.kind.isTypeReference = true ∧ c.kind ≠ .ref .builtinStructure) :
    refsBelow (isDef t) f = f.children.map Tree.targetPath := by
  rw [refsBelow_eq]
  have h1 : (f.children.filter fun c => !c.kind.isReference) = [] := by
    rw [List.filter_eq_nil_iff]
    intro c hcm
    have := (h c hcm).1
    cases hck : c.kind <;> rw [hck] at this <;> first | (cases this; done) | simp [Kind.isReference]
  have h2 : (f.children.filter fun c => c.kind.isTypeReference) = f.children := List.filter_eq_self.mpr fun c hcm => (h c hcm).1
  rw [h1, h2, List.flatMap_nil, List.nil_append, List.filter_eq_self]
  intro x hx
  obtain ⟨c, hcm, rfl⟩ := List.mem_map.mp hx
  exact (hg.isDef_target hf hcm (h c hcm).1).mpr (h c hcm).2

end

theorem split_constRefs : ∀ {l : List Tree}, (∀ c ∈ l, IsConstRef c) → (l.Pairwise fun x y => ¬ (x.kind = .ref .invalidValue ∧ y.kind = .ref .constantValue)) →
    l = (l.filter fun c => c.kind = .ref .constantValue) ++ l.filter fun c => c.kind = .ref .invalidValue := by
  intro l
  induction l with
  | nil => intro _ _; rfl
  | cons a l ih =>
    intro h hp
    obtain ⟨h1, h2⟩ := List.pairwise_cons.mp hp
    have ih := ih (fun c hc => h c (by simp [hc])) h2
    rcases h a (by simp) with ha | ha
    · rw [List.filter_cons_of_pos (by simp [ha]), List.filter_cons_of_neg (by simp [ha]), List.cons_append, ← ih]
    · have hn : (l.filter fun c => c.kind = .ref .constantValue) = [] := by
        rw [List.filter_eq_nil_iff]
        intro c hc hk
        exact h1 c hc ⟨ha, by simpa using hk⟩
      rw [List.filter_cons_of_neg (by simp [ha]), List.filter_cons_of_pos (by simp [ha])]
      rw [hn, List.nil_append] at ih ⊢
      rw [← ih]

/-- The definitions to which a field refers. -/
def fieldDeps (pf : PField) : List Path :=
  (decorationRefs pf).map (fun d => pathOfText d.2) ++ (if pf.type.head? = some '.' then [pathOfText pf.type] else [])

section
variable {t : Tree} (hg : Ground t)
include hg

theorem Ground.field_deps {p : Path} {m f : Tree} {sz : Option Nat} (hm : t.descend p = some m) (hk : m.kind = .structure sz) (hp : ¬ InBuiltin p) (hf : f ∈ m.children)
    (hi : InvalidLast f) : ∃ pf, fieldRecord f = some pf ∧ refsBelow (isDef t) f = fieldDeps pf := by
  have hc := hg.compiled
  have hfd := hc.child hm hf
  have hty : ∀ c, IsConstRef c → c.kind.isTypeReference = true ∧ c.kind ≠ .ref .builtinStructure := by
    rintro c (h | h) <;> rw [h] <;> simp [Kind.isTypeReference, RefKind.isType]
  rcases hg.fieldKids hm hk hp hf with ⟨b, rg, o, h1, h2⟩ | ⟨nm, b, rg, o, l, e, w, h1, h2, h3, h4, h5⟩
  · refine ⟨_, by unfold fieldRecord; rw [h1], ?_⟩
    rw [hg.refsBelow_leaves hfd fun c hcm => hty c (h2 c hcm)]
    unfold fieldDeps
    rw [decorationRefs_record (f := f) (rg := rg) rfl, if_neg (basic_no_dot _), List.append_nil, List.map_append, List.map_map, List.map_map]
    conv_lhs => rw [split_constRefs h2 hi]
    rw [List.map_append]
    rfl
  · refine ⟨_, by unfold fieldRecord; rw [h1], ?_⟩
    rw [hg.refsBelow_leaves hfd (by
      intro c hcm
      rw [h2] at hcm
      rcases List.mem_append.mp hcm with hcm | hcm
      · exact hty c (h5 c hcm)
      · simp only [List.mem_singleton] at hcm
        subst hcm
        rw [h3]; simp [Kind.isTypeReference, RefKind.isType])]
    have hed : (dereferencify nm).head? = some '.' := by
      obtain ⟨_, _, _, _, _, _, hh⟩ := hc.target (hc.child hfd (by rw [h2]; simp)) h3
      rw [← h4]; exact hh
    unfold fieldDeps
    rw [decorationRefs_record (f := f) (rg := rg) rfl, if_pos hed, List.map_append, List.map_map, List.map_map]
    have hchild : ∀ rk, (∀ w, rk ≠ .enumeration w) → childrenOf f (.ref rk) = l.filter fun c => c.kind = .ref rk := by
      intro rk hrk
      unfold childrenOf
      rw [h2, List.filter_append, List.filter_singleton]
      have : ¬ (e.kind = .ref rk) := by rw [h3]; intro e; injection e with e; exact hrk _ e.symm
      simp [this]
    rw [hchild _ (by simp), hchild _ (by simp), h2, List.map_append, ← h4]
    have hi' := hi
    unfold InvalidLast at hi'
    rw [h2] at hi'
    conv_lhs => rw [split_constRefs h5 (List.pairwise_append.mp hi').1]
    rw [List.map_append]
    rfl

/-- The definitions to which a structure refers. -/
theorem Ground.structure_deps {p : Path} {m : Tree} {sz : Option Nat} (hm : t.descend p = some m) (hk : m.kind = .structure sz) (hp : ¬ InBuiltin p)
    (hi : ∀ f ∈ m.children, InvalidLast f) : defDeps t p = (structureRecord m).fields.flatMap fieldDeps := by
  have hl : defDeps t p = refsBelow (isDef t) m := by unfold defDeps; rw [hm]
  have hfields : ∀ f ∈ m.children, f.kind.isField = true := by
    intro f hf
    rcases hg.fieldKids hm hk hp hf with ⟨b, rg, o, h1, h2⟩ | ⟨nm, b, rg, o, l, e, w, h1, _⟩ <;> rw [h1] <;> rfl
  rw [hl, refsBelow_eq]
  have h1 : (m.children.filter fun c => c.kind.isTypeReference) = [] := by
    rw [List.filter_eq_nil_iff]
    intro c hcm
    have := hfields c hcm
    cases hck : c.kind <;> rw [hck] at this <;> first | (cases this; done) | simp [Kind.isTypeReference]
  have h2 : (m.children.filter fun c => !c.kind.isReference) = m.children := List.filter_eq_self.mpr fun c hcm => by
    have := hfields c hcm
    cases hck : c.kind <;> rw [hck] at this <;> first | (cases this; done) | simp [Kind.isReference]
  rw [h1, h2, List.map_nil, List.filter_nil, List.append_nil]
  unfold structureRecord
  dsimp only
  have : ∀ l : List Tree, (∀ f ∈ l, f ∈ m.children) → l.flatMap (refsBelow (isDef t)) = (l.filterMap fieldRecord).flatMap fieldDeps := by
    intro l
    induction l with
    | nil => intro _; rfl
    | cons f l ih =>
      intro h
      obtain ⟨pf, e1, e2⟩ := hg.field_deps hm hk hp (h f (by simp)) (hi f (h f (by simp)))
      rw [List.filterMap_cons_some e1, List.flatMap_cons, List.flatMap_cons, e2, ih fun x hx => h x (by simp [hx])]
  exact this _ fun _ h => h

/-! ## Archives -/

omit hg in
def typeDeps : PResType → List Path
  | .vector s => [pathOfText s]
  | .multivector _ ss => ss.map pathOfText
  | .object s => [pathOfText s]
  | .rawData => []
  | .archive a => [pathOfText a]

omit hg in
def decoDeps : PResDeco → List Path
  | .optional => []
  | .explicitReference s _ _ => [pathOfText s]

omit hg in
/-- The definitions to which a resource refers. -/
def resDeps (pr : PResource) : List Path := pr.decorations.flatMap decoDeps ++ typeDeps pr.type

theorem Ground.explicit_deps {p : Path} {e : Tree} (he : t.descend p = some e) (hk : e.kind = .explicitReference) :
    ∃ d, explicitRecord e = some d ∧ refsBelow (isDef t) e = decoDeps d := by
  obtain ⟨d, f, s, h1, h2, h3, h4⟩ := hg.compiled.explicitChildren hg.flat he hk
  refine ⟨.explicitReference s.target (f.targetPath.getLastD []) d.target, ?_, ?_⟩
  · unfold explicitRecord childrenOf
    simp [h1, h2, h3, h4]
  · have hs := (hg.isDef_target he (r := s) (by rw [h1]; simp) (by rw [h4]; rfl)).mpr (by rw [h4]; simp)
    rw [targetPath_text] at hs
    rw [refsBelow_eq, h1]
    simp [h2, h3, h4, Kind.isReference, Kind.isTypeReference, RefKind.isType, hs, decoDeps, targetPath_text]

theorem Ground.typeRefs {p : Path} {r : Tree} (hr : t.descend p = some r) :
    ((r.children.filter fun c => c.kind.isTypeReference).map Tree.targetPath).filter (isDef t) =
      (r.children.filter fun c => c.kind.isTypeReference && !decide (c.kind = .ref .builtinStructure)).map Tree.targetPath := by
  rw [List.filter_map, List.filter_filter]
  congr 1
  apply List.filter_congr
  intro c hcm
  cases hk : c.kind.isTypeReference with
  | false => simp
  | true =>
    have := hg.isDef_target hr hcm hk
    simp only [Function.comp, Bool.and_true, Bool.true_and]
    by_cases hb : c.kind = .ref .builtinStructure
    · simp only [hb, ne_eq, not_true_eq_false, iff_false, Bool.not_eq_true] at this
      simp [this, hb]
    · simp only [hb, ne_eq, not_false_eq_true, iff_true] at this
      simp [this, hb]

theorem Ground.resource_deps {p : Path} {r : Tree} {k : ResKind} {o : Bool} {mx : Option Nat} (hr : t.descend p = some r) (hk : r.kind = .resource k o mx) :
    (∃ pr, resourceRecord r = some pr ∧ refsBelow (isDef t) r = resDeps pr) ∨ (resourceRecord r = none ∧ refsBelow (isDef t) r = [] ∧ k = .bound) := by
  have hc := hg.compiled
  have hch := hc.resource p r k o mx hr hk
  rw [hc.resourceKinds hg.flat hr (by rw [hk]; rfl)] at hch
  -- explicit references
  have hex : (childrenOf r .explicitReference).flatMap (refsBelow (isDef t)) = ((childrenOf r .explicitReference).filterMap explicitRecord).flatMap decoDeps := by
    have : ∀ l : List Tree, (∀ e ∈ l, e ∈ childrenOf r .explicitReference) → l.flatMap (refsBelow (isDef t)) = (l.filterMap explicitRecord).flatMap decoDeps := by
      intro l
      induction l with
      | nil => intro _; rfl
      | cons e l ih =>
        intro h
        obtain ⟨h1, h2⟩ := List.mem_filter.mp (h e (by simp))
        obtain ⟨d, e1, e2⟩ := hg.explicit_deps (hc.child hr h1) (by simpa using h2)
        rw [List.filterMap_cons_some e1, List.flatMap_cons, List.flatMap_cons, e2, ih fun x hx => h x (by simp [hx])]
    exact this _ fun _ h => h
  have hkinds : ∀ c ∈ r.children, c.kind = .explicitReference ∨ c.kind.isReference = true := by
    intro c hcm
    have hm : c.kind ∈ r.children.map Tree.kind := List.mem_map_of_mem hcm
    cases k <;> simp only [ChildrenOk] at hch
    case multivector =>
      obtain ⟨a, b, d, e⟩ := hch
      rw [e] at hm
      simp only [List.mem_append, List.mem_replicate] at hm
      rcases hm with (⟨_, e⟩ | ⟨_, e⟩) | ⟨_, e⟩ <;> rw [e] <;> simp [Kind.isReference]
    all_goals
      obtain ⟨a, e⟩ := hch
      rw [e] at hm
      simp only [List.mem_append, List.mem_replicate, List.mem_singleton] at hm
      grind [Kind.isReference]
  have hnon : (r.children.filter fun c => !c.kind.isReference) = childrenOf r .explicitReference := by
    unfold childrenOf
    apply List.filter_congr
    intro c hcm
    rcases hkinds c hcm with h | h
    · simp [h, Kind.isReference]
    · have : c.kind ≠ .explicitReference := by intro e; rw [e] at h; cases h
      simp [h, this]
  have hrefs : ∀ rk, (∀ c ∈ r.children, c.kind.isTypeReference = true → c.kind = .ref rk ∨ c.kind = .ref .builtinStructure) → rk.isType = true → rk ≠ .builtinStructure →
      ((r.children.filter fun c => c.kind.isTypeReference).map Tree.targetPath).filter (isDef t) = ((childrenOf r (.ref rk)).map Tree.target).map pathOfText := by
    intro rk h h1 h2
    rw [hg.typeRefs hr, List.map_map]
    show _ = List.map Tree.targetPath _
    congr 1
    unfold childrenOf
    apply List.filter_congr
    intro c hcm
    by_cases hck : c.kind = .ref rk
    · simp [hck, Kind.isTypeReference, h1, h2]
    · simp only [hck, decide_false, Bool.and_eq_false_imp, Bool.not_eq_eq_eq_not, Bool.not_false, decide_eq_true_eq]
      intro ht
      exact (h c hcm ht).resolve_left hck
  have hmap : ∀ rk, (childrenOf r (.ref rk)).map Tree.kind = (r.children.map Tree.kind).filter fun k => k = .ref rk := by
    intro rk
    unfold childrenOf
    rw [List.filter_map]
    rfl
  have htr : ∀ rk, (∀ k ∈ r.children.map Tree.kind, k.isTypeReference = true → k = .ref rk ∨ k = .ref .builtinStructure) →
      ∀ c ∈ r.children, c.kind.isTypeReference = true → c.kind = .ref rk ∨ c.kind = .ref .builtinStructure := fun rk h c hcm => h _ (List.mem_map_of_mem hcm)
  have hone : ∀ {rk : RefKind} {n : Nat}, r.children.map Tree.kind = List.replicate n .explicitReference ++ [.ref rk] → ∃ x, childrenOf r (.ref rk) = [x] := by
    intro rk n h
    have := hmap rk
    rw [h, List.filter_append] at this
    simp only [List.filter_singleton, decide_true, if_true, cond_true] at this
    rw [List.filter_eq_nil_iff.mpr (by intro k hk; rw [List.mem_replicate] at hk; rw [hk.2]; simp), List.nil_append] at this
    match hl : childrenOf r (.ref rk), this with
    | [x], _ => exact ⟨x, rfl⟩
    | [], h => simp [hl] at h
    | _ :: _ :: _, h => simp [hl] at h
  have hrep : ∀ {rk : RefKind} {n : Nat}, r.children.map Tree.kind = List.replicate n .explicitReference ++ [.ref rk] →
      ∀ k ∈ r.children.map Tree.kind, k.isTypeReference = true → k = .ref rk ∨ k = .ref .builtinStructure := by
    intro rk n h k hk hk'
    rw [h, List.mem_append, List.mem_replicate, List.mem_singleton] at hk
    rcases hk with ⟨_, e⟩ | e
    · rw [e] at hk'; cases hk'
    · exact .inl e
  have hdeco : ∀ b : Bool, (((childrenOf r .explicitReference).filterMap explicitRecord ++ (if b then [PResDeco.optional] else [])).flatMap decoDeps) =
      ((childrenOf r .explicitReference).filterMap explicitRecord).flatMap decoDeps := by
    intro b
    rw [List.flatMap_append]
    cases b <;> simp [decoDeps]
  have finish : ∀ {ty : PResType}, resourceTypeRecord r = some ty →
      ((r.children.filter fun c => c.kind.isTypeReference).map Tree.targetPath).filter (isDef t) = typeDeps ty →
      (∃ pr, resourceRecord r = some pr ∧ refsBelow (isDef t) r = resDeps pr) := by
    intro ty h1 h2
    refine ⟨_, by unfold resourceRecord; rw [h1], ?_⟩
    rw [refsBelow_eq, hnon, hex, h2]
    unfold resDeps
    dsimp only
    rw [hdeco]
  cases k <;> simp only [ChildrenOk] at hch
  case vector =>
    left
    obtain ⟨n, e⟩ := hch
    obtain ⟨x, hx⟩ := hone e
    refine finish (ty := .vector x.target) (by unfold resourceTypeRecord; simp only [hk, hx, List.map_cons, List.map_nil]) ?_
    rw [hrefs .structure (htr _ (hrep e)) rfl (by simp), hx]; rfl
  case «instance» =>
    left
    obtain ⟨n, e⟩ := hch
    obtain ⟨x, hx⟩ := hone e
    refine finish (ty := .object x.target) (by unfold resourceTypeRecord; simp only [hk, hx, List.map_cons, List.map_nil]) ?_
    rw [hrefs .structure (htr _ (hrep e)) rfl (by simp), hx]; rfl
  case multivector w =>
    left
    obtain ⟨a, b, d, e⟩ := hch
    refine finish (ty := .multivector w ((childrenOf r (.ref .structure)).map Tree.target)) (by unfold resourceTypeRecord; simp only [hk]) ?_
    rw [hrefs .structure (htr _ (by
      rw [e]; intro k hk hk'
      simp only [List.mem_append, List.mem_replicate] at hk
      rcases hk with (⟨_, e⟩ | ⟨_, e⟩) | ⟨_, e⟩
      · rw [e] at hk'; cases hk'
      · exact .inl e
      · exact .inr e)) rfl (by simp)]; rfl
  case rawData =>
    left
    obtain ⟨n, e⟩ := hch
    refine finish (ty := .rawData) (by unfold resourceTypeRecord; simp only [hk]) ?_
    have h0 : (r.children.filter fun c => c.kind.isTypeReference) = [] := by
      rw [List.filter_eq_nil_iff]
      intro c hcm
      have : c.kind ∈ r.children.map Tree.kind := List.mem_map_of_mem hcm
      rw [e, List.mem_replicate] at this
      rw [this.2]; simp [Kind.isTypeReference]
    rw [h0]; rfl
  case archive =>
    left
    obtain ⟨n, e⟩ := hch
    obtain ⟨x, hx⟩ := hone e
    refine finish (ty := .archive x.target) (by unfold resourceTypeRecord; simp only [hk, hx]) ?_
    rw [hrefs .archive (htr _ (hrep e)) rfl (by simp), hx]; rfl
  case bound =>
    right
    obtain ⟨n, e⟩ := hch
    have hall : ∀ c ∈ r.children, c.kind = .ref .resource := by
      intro c hcm
      have : c.kind ∈ r.children.map Tree.kind := List.mem_map_of_mem hcm
      rw [e, List.mem_replicate] at this
      exact this.2
    refine ⟨?_, ?_, rfl⟩
    · unfold resourceRecord resourceTypeRecord
      simp only [hk]
    · have h0 : (r.children.filter fun c => c.kind.isTypeReference) = [] := by
        rw [List.filter_eq_nil_iff]
        intro c hcm; rw [hall c hcm]; simp [Kind.isTypeReference, RefKind.isType]
      have h1 : (r.children.filter fun c => !c.kind.isReference) = [] := by
        rw [List.filter_eq_nil_iff]
        intro c hcm; rw [hall c hcm]; simp [Kind.isReference]
      rw [refsBelow_eq, h0, h1]; rfl

/-- The definitions to which an archive refers: those of its resources, and the constants to which no field refers. -/
theorem Ground.archive_deps {p : Path} {m : Tree} (hm : t.descend p = some m) (hk : m.kind = .archive) :
    defDeps t p = (archiveRecord m).resources.flatMap resDeps ++ (childrenOf m (.ref .constantValue)).map Tree.targetPath := by
  have hc := hg.compiled
  have hl : defDeps t p = refsBelow (isDef t) m := by unfold defDeps; rw [hm]
  obtain ⟨s, hs⟩ := hg.source
  obtain ⟨k0, ks, e1, e2, e3⟩ := compiled_kinds hs hm
  have hk0 : k0 = .archive := by rw [hk] at e1; cases k0 <;> simp [Kind.blank] at e1; rfl
  subst hk0
  have hkid : ∀ c ∈ m.children, c.kind.isResource = true ∨ c.kind = .ref .constantValue := by
    intro c hcm
    rcases e3 c hcm (hg.kid hm (by rw [hk]; simp) (by rw [hk]; simp) hcm).1 with ⟨x, x1, x2⟩ | ⟨_, h⟩
    · left
      have := e2 _ x1
      cases x <;> first | (cases this; done) | skip
      cases hck : c.kind <;> rw [hck] at x2 <;> simp [Kind.blank] at x2
      rfl
    · exact .inr h
  rw [hl, refsBelow_eq, hg.typeRefs hm]
  congr 1
  · unfold archiveRecord
    dsimp only
    have : ∀ l : List Tree, (∀ f ∈ l, f ∈ m.children) → (l.filter fun c => !c.kind.isReference).flatMap (refsBelow (isDef t)) = (l.filterMap resourceRecord).flatMap resDeps := by
      intro l
      induction l with
      | nil => intro _; rfl
      | cons c l ih =>
        intro h
        have ih := ih fun x hx => h x (by simp [hx])
        rcases hkid c (h c (by simp)) with hr | hr
        · rw [List.filter_cons_of_pos (by cases hck : c.kind <;> rw [hck] at hr <;> first | (cases hr; done) | simp [Kind.isReference]), List.flatMap_cons, ih]
          cases hck : c.kind <;> rw [hck] at hr <;> first | (cases hr; done) | skip
          rcases hg.resource_deps (hc.child hm (h c (by simp))) hck with ⟨pr, h1, h2⟩ | ⟨h1, h2, _⟩
          · rw [List.filterMap_cons_some h1, List.flatMap_cons, h2]
          · rw [List.filterMap_cons_none h1, h2, List.nil_append]
        · rw [List.filter_cons_of_neg (by rw [hr]; simp [Kind.isReference]), List.filterMap_cons_none (by unfold resourceRecord resourceTypeRecord; simp only [hr]), ih]
    exact this _ fun _ h => h
  · unfold childrenOf
    congr 1
    apply List.filter_congr
    intro c hcm
    rcases hkid c hcm with hr | hr
    · cases hck : c.kind <;> rw [hck] at hr <;> first | (cases hr; done) | simp [Kind.isTypeReference]
    · rw [hr]; simp [Kind.isTypeReference, RefKind.isType]

/-- Constants and enumerations refer to nothing. -/
theorem Ground.plain_deps {p : Path} {m : Tree} (hm : t.descend p = some m) (hk : (∃ b, m.kind = .enumeration b) ∨ ∃ b v, m.kind = .constant b v) : defDeps t p = [] := by
  have hc := hg.compiled
  obtain ⟨s, hs⟩ := hg.source
  have hl : defDeps t p = refsBelow (isDef t) m := by unfold defDeps; rw [hm]
  obtain ⟨k0, ks, e1, e2, e3⟩ := compiled_kinds hs hm
  have hnk : m.kind ≠ .namespace ∧ m.kind ≠ .root ∧ m.kind ≠ .archive := by
    rcases hk with ⟨b, h⟩ | ⟨b, v, h⟩ <;> rw [h] <;> simp
  have hvals : ∀ c ∈ m.children, Spec.Kind.isEnumValue c.kind = true := by
    intro c hcm
    rcases e3 c hcm (hg.kid hm hnk.1 hnk.2.1 hcm).1 with ⟨x, x1, x2⟩ | ⟨h, _⟩
    · rcases hk with ⟨b, h⟩ | ⟨b, v, h⟩ <;> rw [h] at e1 <;> cases k0 <;> simp [Kind.blank] at e1
      · have := e2 _ x1
        cases x <;> first | (cases this; done) | skip
        cases hck : c.kind <;> rw [hck] at x2 <;> simp [Kind.blank] at x2
        rfl
      · rw [show ks = [] from e2] at x1; cases x1
    · exact absurd h hnk.2.2
  have h0 : (m.children.filter fun c => c.kind.isTypeReference) = [] := by
    rw [List.filter_eq_nil_iff]
    intro c hcm
    have := hvals c hcm
    cases hck : c.kind <;> rw [hck] at this <;> first | (cases this; done) | simp [Kind.isTypeReference]
  rw [hl, refsBelow_eq, h0, List.map_nil, List.filter_nil, List.append_nil, List.flatMap_eq_nil_iff]
  intro v hv
  have hvm := (List.mem_filter.mp hv).1
  have hvk := hvals v hvm
  have hvd := hc.child hm hvm
  obtain ⟨k0, ks, e1, e2, e3⟩ := compiled_kinds hs hvd
  have hnone : v.children = [] := by
    rw [List.eq_nil_iff_forall_not_mem]
    intro r hr
    cases hck : v.kind <;> rw [hck] at hvk e1 e3 <;> first | (cases hvk; done) | skip
    rcases e3 r hr (hg.kid hvd (by rw [hck]; simp) (by rw [hck]; simp) hr).1 with ⟨x, x1, _⟩ | ⟨h, _⟩
    · cases k0 <;> simp [Kind.blank] at e1
      rw [show ks = [] from e2] at x1; cases x1
    · cases h
  rw [refsBelow_eq, hnone]; rfl
end

end Gen
