import Verif.Props.Gen.ExplicitField
import Verif.Lemmas.GenModule
import Verif.Spec.Again
import Verif.Props.Gen.NativeClasses

/-! # Compiling the schema of a definition again: the nodes that are created from records -/

namespace Gen
open Spec Props

def plainExplicit (e : Tree) : Tree := .mk (fullExplicitName e) .explicitReference e.children

def enumRefs (f : Tree) (b : BasicType) : List Tree :=
  (f.children.filter fun c => c.kind.isEnumerationReference).map fun c => .mk c.name (.ref (.enumeration (some b.width))) []

def fieldConstants (f : Tree) : List Tree := childrenOf f (.ref .constantValue) ++ childrenOf f (.ref .invalidValue)

def plainField (f : Tree) : Tree :=
  match f.kind with
  | .field (.basic b) rg _ => .mk f.name (.field (.basic b) rg none) (fieldConstants f)
  | .field (.enum _ b) rg _ => .mk f.name (.field .none rg none) (fieldConstants f ++ enumRefs f b)
  | _ => f

def plainResKind : Kind → Kind
  | .resource .bound _ _ => .resource .bound false none
  | .resource k o _ => .resource k o none
  | k => k

def typeChildren (r : Tree) : List Tree := childrenOf r (.ref .structure) ++ childrenOf r (.ref .archive) ++ childrenOf r (.ref .resource)

def plainResource (r : Tree) : Tree := .mk r.name (plainResKind r.kind) ((childrenOf r .explicitReference).map plainExplicit ++ typeChildren r)

def isPlainRes (r : Tree) : Bool := r.kind.isResource && !r.kind.isBoundResource
def isBoundRes (r : Tree) : Bool := r.kind.isBoundResource

def plainArchive (a : Tree) : Tree :=
  .mk a.name .archive ((a.children.filter isPlainRes).map plainResource ++ (a.children.filter isBoundRes).map plainResource)

def plainStructure (n : Tree) : Tree := .mk n.name (.structure none) (n.children.map plainField)

/-- A new node for a definition. -/
def entryCreate : PEntry → M Tree
  | .constant c => createConstant c
  | .struct s => createStruct s
  | .enumeration e => createEnum e
  | .archive a => createArchive a
  | .comment => .error .assertionError

/-! ## Lists -/

theorem names_nodup {l L : List Tree} (h : (l.map Tree.name).Nodup) (hL : L.Nodup) (hs : ∀ x ∈ L, x ∈ l) : (L.map Tree.name).Nodup := by
  refine hL.map_on ?_
  intro x hx y hy he
  exact List.inj_on_of_nodup_map h (hs x hx) (hs y hy) he

theorem nodup_of_names {l : List Tree} (h : (l.map Tree.name).Nodup) : l.Nodup := h.of_map

theorem filters_nodup {l : List Tree} {P Q : Tree → Bool} (h : l.Nodup) (hd : ∀ x ∈ l, P x = true → Q x = true → False) :
    (l.filter P ++ l.filter Q).Nodup := by
  rw [List.nodup_append]
  refine ⟨h.filter _, h.filter _, ?_⟩
  rintro x hx y hy rfl
  rw [List.mem_filter] at hx hy
  exact hd x hx.1 hx.2 hy.2

theorem created_both {a b : List (M Tree)} {x y : List Tree} (h1 : Created a x) (h2 : Created b y) : Created (a ++ b) (x ++ y) := by
  induction h1 with
  | nil => exact h2
  | cons h _ ih => exact .cons h ih

theorem created_of_map {α : Type} {l : List α} {f : α → M Tree} {g : α → Tree} (h : ∀ x ∈ l, f x = .ok (g x)) : Created (l.map f) (l.map g) := by
  induction l with
  | nil => exact .nil
  | cons x l ih => exact .cons (h x (by simp)) (ih fun y hy => h y (by simp [hy]))

theorem created_filterMap {β : Type} {l : List Tree} {rec : Tree → Option β} {f : β → M Tree} {g : Tree → Tree} {P : Tree → Bool}
    (h1 : ∀ x ∈ l, P x = true → ∃ b, rec x = some b ∧ f b = .ok (g x)) (h2 : ∀ x ∈ l, P x = false → rec x = none) :
    Created ((l.filterMap rec).map f) ((l.filter P).map g) := by
  induction l with
  | nil => exact .nil
  | cons x l ih =>
    have ih := ih (fun y hy => h1 y (by simp [hy])) fun y hy => h2 y (by simp [hy])
    cases hp : P x with
    | false =>
      rw [List.filterMap_cons_none (h2 x (by simp) hp), List.filter_cons_of_neg (by simp [hp])]
      exact ih
    | true =>
      obtain ⟨b, e1, e2⟩ := h1 x (by simp) hp
      rw [List.filterMap_cons_some e1, List.filter_cons_of_pos hp]
      exact .cons e2 ih

theorem created_unique {cs : List (M Tree)} {a b : List Tree} (h1 : Created cs a) (h2 : Created cs b) : a = b := by
  induction h1 generalizing b with
  | nil => cases h2; rfl
  | cons h _ ih =>
    cases h2 with
    | cons h' t => rw [h] at h'; cases h'; rw [ih t]

theorem insertEach_eq {cs : List (M Tree)} {ds : List Tree} (hc : Created cs ds) {t : Tree} (h : (t.children.map Tree.name ++ ds.map Tree.name).Nodup) :
    insertEach t cs = .ok (.mk t.name t.kind (t.children ++ ds)) := by
  obtain ⟨t', ht'⟩ := insertEach_succ hc h
  obtain ⟨ds', h1, rfl⟩ := insertEach_ok ht'
  rw [ht', created_unique hc h1]

theorem create_eq {n : Text} {k : Kind} (h1 : '.' ∉ n) (h2 : n ≠ []) : Tree.create n k = .ok (.mk n k []) := by
  unfold Tree.create; rw [if_neg h1, if_neg h2]; rfl

theorem good_names {t n : Tree} {q : Path} (hg : Good t) (hn : t.descend q = some n) : (n.children.map Tree.name).Nodup := by
  cases good_descend hg hn; assumption

theorem ident_name {n : Text} (h : Ident n) : '.' ∉ n ∧ n ≠ [] := by
  refine ⟨fun hm => ?_, ?_⟩
  · have := h.2 _ hm; revert this; decide
  · rintro rfl
    obtain ⟨c, hc, _⟩ := h.1
    cases hc

section
variable {t : Tree} (hc : Compiled t)
include hc

theorem Compiled.isRef {q : Path} {r : Tree} {rk : RefKind} (hr : t.descend q = some r) (hk : r.kind = .ref rk) : mkRef rk r.target = .ok r := by
  obtain ⟨body, hb⟩ := hc.refName q r rk hr hk
  have hl := hc.lk.leaf q r rk hr hk
  have hd : '.' ∉ r.name := by have := good_descend hc.lk.good hr; cases this; assumption
  have : referencify r.target = r.name := by
    unfold Tree.target
    rw [hb] at hd ⊢
    exact referencify_dereferencify (fun h => hd (by simp [h]))
  rw [mkRef_eq, this]
  cases r with
  | mk n k cs =>
    simp only [Tree.name, Tree.kind, Tree.children] at hl hk ⊢
    rw [hl, hk]

theorem Compiled.refChild {q : Path} {n c : Tree} {rk : RefKind} (hn : t.descend q = some n) (hcm : c ∈ childrenOf n (.ref rk)) : mkRef rk c.target = .ok c := by
  unfold childrenOf at hcm
  rw [List.mem_filter, decide_eq_true_iff] at hcm
  exact hc.isRef (hc.child hn hcm.1) hcm.2

theorem Compiled.refName' {q : Path} {n c : Tree} {rk : RefKind} (hn : t.descend q = some n) (hcm : c ∈ n.children) (hk : c.kind = .ref rk) :
    ∃ body, c.name = '@' :: body := hc.refName _ c rk (hc.child hn hcm) hk

/-! ## Fields -/

omit hc in
theorem basicOfText_text (b : BasicName) : basicOfText b.text = some b := by cases b <;> decide

omit hc in
theorem basicOfText_dot (x : Text) : basicOfText ('.' :: x) = none := by
  unfold basicOfText
  rw [List.find?_eq_none]
  intro b _
  cases b <;> simp [BasicName.text]

omit hc in
theorem fieldRange_decorations (f : Tree) (rg : Option Text) : fieldRange (fieldDecorations f rg) = rg := by
  unfold fieldDecorations
  cases rg with
  | some r => rfl
  | none =>
    have key : ∀ (a b : List Tree), fieldRange (a.map (fun r => PFieldDeco.constRef r.target) ++ b.map (fun r => .invalidValue r.target)) = none := by
      intro a b
      induction a with
      | nil =>
        induction b with
        | nil => rfl
        | cons x b ih => exact ih
      | cons x a ih => exact ih
    exact key _ _

omit hc in
theorem fieldRefs_append (a b : List PFieldDeco) : fieldRefs (a ++ b) = fieldRefs a ++ fieldRefs b := by
  induction a with
  | nil => rfl
  | cons x a ih => cases x <;> simp [fieldRefs, ih]

omit hc in
theorem fieldRefs_decorations (f : Tree) (rg : Option Text) : fieldRefs (fieldDecorations f rg) =
    (childrenOf f (.ref .constantValue)).map (fun r => mkRef .constantValue r.target) ++ (childrenOf f (.ref .invalidValue)).map (fun r => mkRef .invalidValue r.target) := by
  unfold fieldDecorations
  rw [fieldRefs_append, fieldRefs_append]
  have h1 : fieldRefs (rg.toList.map PFieldDeco.range) = [] := by cases rg <;> rfl
  have h2 : ∀ l : List Tree, fieldRefs (l.map fun r => PFieldDeco.constRef r.target) = l.map fun r => mkRef .constantValue r.target := by
    intro l; induction l with
    | nil => rfl
    | cons x l ih => simp [fieldRefs, ih]
  have h3 : ∀ l : List Tree, fieldRefs (l.map fun r => PFieldDeco.invalidValue r.target) = l.map fun r => mkRef .invalidValue r.target := by
    intro l; induction l with
    | nil => rfl
    | cons x l ih => simp [fieldRefs, ih]
  rw [h1, h2, h3, List.nil_append]

theorem Compiled.fieldCreated (hw : ∀ q f ty rg o, t.descend q = some f → f.kind = .field ty rg o → ∃ b, (ty = .basic b ∨ ∃ e, ty = .enum e b) ∧ b.width ≤ b.name.width)
    (hone : ∀ q f ty rg o, t.descend q = some f → f.kind = .field ty rg o → ∀ a ∈ f.children, ∀ b ∈ f.children, a.kind.isEnumerationReference = true →
      b.kind.isEnumerationReference = true → a = b)
    {q : Path} {f : Tree} (hn : t.descend q = some f) (hk : f.kind.isField = true) :
    ∃ rec, fieldRecord f = some rec ∧ createField rec = .ok (plainField f) := by
  cases hfk : f.kind <;> rw [hfk] at hk <;> first | (cases hk; done) | skip
  rename_i ty rg o
  have hname := hc.name q f hn
  rw [hfk] at hname
  obtain ⟨hd, hne⟩ := ident_name (show Ident f.name from hname)
  have hnd := good_names hc.lk.good hn
  have hcre : Created (fieldRefs (fieldDecorations f rg)) (fieldConstants f) := by
    rw [fieldRefs_decorations]
    have h1 := created_of_map (l := childrenOf f (.ref .constantValue)) (f := fun r => mkRef .constantValue r.target) (g := fun r => r) fun x hx => hc.refChild hn hx
    have h2 := created_of_map (l := childrenOf f (.ref .invalidValue)) (f := fun r => mkRef .invalidValue r.target) (g := fun r => r) fun x hx => hc.refChild hn hx
    have := created_both h1 h2
    simpa [fieldConstants] using this
  have hcn : (fieldConstants f).Nodup := by
    refine filters_nodup (nodup_of_names hnd) ?_
    intro x _ h1 h2
    simp only [decide_eq_true_eq] at h1 h2
    rw [h1] at h2; cases h2
  have hsub : ∀ x ∈ fieldConstants f, x ∈ f.children := by
    intro x hx
    rcases List.mem_append.mp hx with hx | hx <;> exact (List.mem_filter.mp hx).1
  have hins : insertEach (.mk f.name (.field .none rg none) []) (fieldRefs (fieldDecorations f rg)) = .ok (.mk f.name (.field .none rg none) (fieldConstants f)) := by
    rw [insertEach_eq hcre (by simpa [Tree.children] using names_nodup hnd hcn hsub)]; rfl
  obtain ⟨b, hb, hwb⟩ := hw q f ty rg o hn hfk
  rcases hb with rfl | ⟨e, rfl⟩
  · refine ⟨_, by unfold fieldRecord; rw [hfk], ?_⟩
    unfold createField plainField
    rw [hfk]
    simp only [fieldRange_decorations, create_eq hd hne, bind, Except.bind, hins, basicOfText_text]
    unfold BasicType.create
    simp only [Option.getD_some]
    rw [if_neg (by omega)]
    rfl
  · refine ⟨_, by unfold fieldRecord; rw [hfk], ?_⟩
    rcases hc.typed q f _ rg o hn hfk with ⟨b', hb'⟩ | ⟨ref, hrm, w, m, b', hrk, hrd, hmk, hty⟩
    · cases hb'
    injection hty with hty1 hty2
    subst hty1 hty2
    have hr := hc.child hn hrm
    have href := hc.isRef hr hrk
    obtain ⟨m', _, _, _, hpt, _⟩ := hc.target hr hrk
    have hdot : basicOfText (dereferencify ref.name) = none := by
      have : dereferencify ref.name = pathText ref.targetPath := hpt.symm
      rw [this]
      have hne : ref.targetPath ≠ [] := by
        intro h0
        rw [h0] at hrd
        simp only [Tree.descend, Option.some.injEq] at hrd
        subst hrd
        rw [hc.rootKind] at hmk; cases hmk
      obtain ⟨k, ks, hks⟩ := List.exists_cons_of_ne_nil hne
      rw [hks]
      exact basicOfText_dot _
    have hfil : f.children.filter (fun c => c.kind.isEnumerationReference) = [ref] := by
      have h1 : ref ∈ f.children.filter (fun c => c.kind.isEnumerationReference) := List.mem_filter.mpr ⟨hrm, by rw [hrk]; rfl⟩
      have h2 : (f.children.filter (fun c => c.kind.isEnumerationReference)).Nodup := (nodup_of_names hnd).filter _
      have h3 : ∀ x ∈ f.children.filter (fun c => c.kind.isEnumerationReference), x = ref := by
        intro x hx
        rw [List.mem_filter] at hx
        exact hone q f _ rg o hn hfk x hx.1 ref hrm hx.2 (by rw [hrk]; rfl)
      revert h1 h2 h3
      generalize f.children.filter (fun c => c.kind.isEnumerationReference) = l
      intro h1 h2 h3
      match l with
      | [] => cases h1
      | [x] => rw [h3 x (by simp)]
      | x :: y :: l =>
        rw [h3 x (by simp), h3 y (by simp)] at h2
        simp at h2
    have hmk2 : mkRef (.enumeration (some b.width)) (dereferencify ref.name) = .ok (.mk ref.name (.ref (.enumeration (some b.width))) []) := by
      rw [mkRef_eq] at href ⊢
      injection href with href
      have : referencify (dereferencify ref.name) = ref.name := by
        conv_rhs => rw [← href]
        rfl
      rw [this]
    unfold createField plainField
    rw [hfk]
    simp only [fieldRange_decorations, create_eq hd hne, bind, Except.bind, hins, hdot, hmk2]
    rw [insert_succ]
    · unfold enumRefs; rw [hfil]; rfl
    · simp only [Tree.children, Tree.name, List.mem_map, not_exists, not_and]
      intro x hx hxn
      have := List.inj_on_of_nodup_map hnd (hsub x hx) hrm hxn
      subst this
      rcases List.mem_append.mp hx with hx | hx <;> (rw [childrenOf, List.mem_filter, decide_eq_true_iff, hrk] at hx; cases hx.2)

/-! ## Resources -/

omit hc in
theorem dotsToUnderscores_nodot (x : Text) : '.' ∉ dotsToUnderscores x := by
  unfold dotsToUnderscores
  simp only [List.mem_map, not_exists, not_and]
  intro c _
  split
  · decide
  · assumption

omit hc in
theorem fullExplicitName_ok (e : Tree) : '.' ∉ fullExplicitName e ∧ ∃ u, fullExplicitName e = 'e' :: u := by
  refine ⟨?_, _, rfl⟩
  unfold fullExplicitName
  simp only [List.mem_append, List.mem_cons, not_or]
  exact ⟨⟨by decide, dotsToUnderscores_nodot _⟩, by decide, dotsToUnderscores_nodot _⟩

omit hc in
theorem theChild_eq {e : Tree} {k : Kind} {c : Tree} (h : childrenOf e k = [c]) : theChild e k = c := by unfold theChild; rw [h]; rfl

/-- The children of an explicit reference. -/
theorem Compiled.explicitChildren (hf : Flat t) {q : Path} {e : Tree} (he : t.descend q = some e) (hk : e.kind = .explicitReference) :
    ∃ d f s, e.children = [d, f, s] ∧ d.kind = .ref .resource ∧ f.kind = .ref .field ∧ s.kind = .ref .structure := by
  have h := hc.explicit q e he hk
  have hall : childKinds e.children = e.children.map Tree.kind := by
    unfold childKinds
    rw [List.filter_eq_self]
    intro k hkm
    simp only [ne_eq, decide_eq_true_eq]
    rintro rfl
    obtain ⟨c, hcm, hck⟩ := List.mem_map.mp hkm
    rcases hf q c.name c (hc.child he hcm) hck with rfl | ⟨m, hm, hmk⟩
    · simp only [Tree.descend, Option.some.injEq] at he
      subst he
      rw [hc.rootKind] at hk; cases hk
    · rw [he] at hm; cases hm
      rw [hk] at hmk; cases hmk
  rw [hall] at h
  have hl := congrArg List.length h
  rw [List.length_map] at hl
  obtain ⟨d, f, s, hch⟩ := List.length_eq_three.mp hl
  rw [hch] at h
  simp only [List.map_cons, List.map_nil, List.cons.injEq, and_true] at h
  exact ⟨d, f, s, hch, h.1, h.2.1, h.2.2⟩

theorem Compiled.explicitCreated (hf : Flat t)
    (h105 : ∀ q e s f, t.descend q = some e → e.kind = .explicitReference → s ∈ e.children → s.kind = .ref .structure → f ∈ e.children →
      f.kind = .ref .field → ∃ k, f.targetPath = s.targetPath ++ [k])
    {q : Path} {e : Tree} (he : t.descend q = some e) (hk : e.kind = .explicitReference) :
    ∃ a b c, explicitRecord e = some (.explicitReference a b c) ∧ createExplicitReference a b c = .ok (plainExplicit e) := by
  obtain ⟨d, f, s, hch, hd, hfk, hs⟩ := hc.explicitChildren hf he hk
  have c1 : childrenOf e (.ref .structure) = [s] := by unfold childrenOf; rw [hch]; simp [hd, hfk, hs]
  have c2 : childrenOf e (.ref .field) = [f] := by unfold childrenOf; rw [hch]; simp [hd, hfk, hs]
  have c3 : childrenOf e (.ref .resource) = [d] := by unfold childrenOf; rw [hch]; simp [hd, hfk, hs]
  have hdm : d ∈ e.children := by rw [hch]; simp
  have hfm : f ∈ e.children := by rw [hch]; simp
  have hsm : s ∈ e.children := by rw [hch]; simp
  obtain ⟨k, hkey⟩ := h105 q e s f he hk hsm hs hfm hfk
  obtain ⟨_, _, _, _, ts, _⟩ := hc.target (hc.child he hsm) hs
  obtain ⟨_, _, _, _, tf, _⟩ := hc.target (hc.child he hfm) hfk
  have hfield : s.target ++ '.' :: k = f.target := by
    rw [← ts, ← tf, hkey, pathText, pathText, List.flatMap_append]
    simp
  refine ⟨s.target, k, d.target, ?_, ?_⟩
  · unfold explicitRecord
    rw [c1, c2, c3]
    simp only [hkey]
    simp
  · unfold createExplicitReference
    have hname : "er_".toList ++ dotsToUnderscores f.target ++ '_' :: dotsToUnderscores d.target = fullExplicitName e := by
      unfold fullExplicitName
      rw [theChild_eq c2, theChild_eq c3]
    simp only [hfield, hname]
    obtain ⟨n1, u, n2⟩ := fullExplicitName_ok e
    have hnd := good_names hc.lk.good he
    rw [create_eq n1 (by rw [n2]; simp)]
    simp only [bind, Except.bind]
    have hcre : Created [mkRef .resource d.target, mkRef .field f.target, mkRef .structure s.target] e.children := by
      rw [hch]
      exact .cons (hc.isRef (hc.child he hdm) hd) (.cons (hc.isRef (hc.child he hfm) hfk) (.cons (hc.isRef (hc.child he hsm) hs) .nil))
    rw [insertEach_eq hcre (by simpa [Tree.children] using hnd)]
    rfl

theorem Compiled.resourceRefsCreated (hf : Flat t)
    (h105 : ∀ q e s f, t.descend q = some e → e.kind = .explicitReference → s ∈ e.children → s.kind = .ref .structure → f ∈ e.children →
      f.kind = .ref .field → ∃ k, f.targetPath = s.targetPath ++ [k])
    {q : Path} {r : Tree} (hr : t.descend q = some r) (opt : List PResDeco) (hopt : opt = [] ∨ opt = [.optional]) :
    Created (resourceRefs ((childrenOf r .explicitReference).filterMap explicitRecord ++ opt)) ((childrenOf r .explicitReference).map plainExplicit) := by
  have key : ∀ l : List Tree, (∀ e ∈ l, e ∈ r.children ∧ e.kind = .explicitReference) →
      Created (resourceRefs (l.filterMap explicitRecord ++ opt)) (l.map plainExplicit) := by
    intro l
    induction l with
    | nil => intro _; rcases hopt with rfl | rfl <;> exact .nil
    | cons e l ih =>
      intro h
      obtain ⟨h1, h2⟩ := h e (by simp)
      obtain ⟨a, b, c, e1, e2⟩ := hc.explicitCreated hf h105 (hc.child hr h1) h2
      rw [List.filterMap_cons_some e1]
      exact .cons e2 (ih fun x hx => h x (by simp [hx]))
  refine key _ fun e he => ?_
  unfold childrenOf at he
  rw [List.mem_filter, decide_eq_true_iff] at he
  exact he

theorem Compiled.resourceNames {q : Path} {r : Tree} (hr : t.descend q = some r) (ha : ExplicitApart r) :
    (((childrenOf r .explicitReference).map plainExplicit ++ typeChildren r).map Tree.name).Nodup := by
  have hnd := good_names hc.lk.good hr
  have hn := nodup_of_names hnd
  have hsub : ∀ x ∈ typeChildren r, x ∈ r.children ∧ ∃ rk, x.kind = .ref rk := by
    intro x hx
    unfold typeChildren childrenOf at hx
    simp only [List.mem_append, List.mem_filter, decide_eq_true_eq] at hx
    rcases hx with (⟨h1, h2⟩ | ⟨h1, h2⟩) | ⟨h1, h2⟩ <;> exact ⟨h1, _, h2⟩
  rw [List.map_append, List.nodup_append]
  refine ⟨?_, ?_, ?_⟩
  · rw [List.map_map]
    refine (hn.filter _).map_on ?_
    intro x hx y hy he
    rw [List.mem_filter, decide_eq_true_iff] at hx hy
    exact ha x hx.1 y hy.1 hx.2 hy.2 he
  · refine names_nodup hnd ?_ fun x hx => (hsub x hx).1
    have h1 : (childrenOf r (.ref .structure) ++ childrenOf r (.ref .archive)).Nodup := by
      refine filters_nodup hn ?_
      intro x _ h1 h2
      simp only [decide_eq_true_eq] at h1 h2
      rw [h1] at h2; cases h2
    unfold typeChildren
    rw [List.nodup_append]
    refine ⟨h1, hn.filter _, ?_⟩
    rintro x hx y hy rfl
    rw [List.mem_append] at hx
    unfold childrenOf at hx hy
    rw [List.mem_filter, decide_eq_true_iff] at hy
    simp only [List.mem_filter, decide_eq_true_eq] at hx
    rcases hx with ⟨_, hx⟩ | ⟨_, hx⟩ <;> (rw [hy.2] at hx; cases hx)
  · rintro a ha' b hb rfl
    rw [List.map_map] at ha'
    obtain ⟨x, _, rfl⟩ := List.mem_map.mp ha'
    obtain ⟨y, hy, he⟩ := List.mem_map.mp hb
    obtain ⟨h1, rk, h2⟩ := hsub y hy
    obtain ⟨body, h3⟩ := hc.refName' hr h1 h2
    obtain ⟨_, u, h4⟩ := fullExplicitName_ok x
    have : y.name = fullExplicitName x := he
    rw [h3, h4] at this
    simp at this

omit hc in
theorem typeChildren_vector {r : Tree} {n : Nat} {x : Kind} (h : r.children.map Tree.kind = List.replicate n .explicitReference ++ [x]) (k : Kind)
    (hk : k ≠ .explicitReference) (hkx : k ≠ x) : childrenOf r k = [] := by
  unfold childrenOf
  rw [List.filter_eq_nil_iff]
  intro c hc
  have hm : c.kind ∈ r.children.map Tree.kind := List.mem_map_of_mem hc
  rw [h] at hm
  simp only [decide_eq_true_eq]
  rcases List.mem_append.mp hm with hm | hm
  · rw [List.eq_of_mem_replicate hm]; exact hk.symm
  · simp only [List.mem_singleton] at hm; rw [hm]; exact hkx.symm

omit hc in
theorem childrenOf_length {r : Tree} {k : Kind} : (childrenOf r k).length = (r.children.map Tree.kind).count k := by
  unfold childrenOf
  rw [List.count, List.countP_map, List.countP_eq_length_filter]
  congr 1

omit hc in
theorem childrenOf_absent {r : Tree} {k : Kind} (h : k ∉ r.children.map Tree.kind) : childrenOf r k = [] := by
  rw [← List.length_eq_zero_iff, childrenOf_length, List.count_eq_zero]; exact h

omit hc in
theorem childrenOf_single {r : Tree} {k : Kind} {n : Nat} (h : r.children.map Tree.kind = List.replicate n .explicitReference ++ [k]) (hk : k ≠ .explicitReference) :
    ∃ c, childrenOf r k = [c] := by
  rw [← List.length_eq_one_iff, childrenOf_length, h, List.count_append, List.count_replicate, if_neg (by simpa using hk.symm)]
  simp

theorem Compiled.resourceCreated (hf : Flat t)
    (h105 : ∀ q e s f, t.descend q = some e → e.kind = .explicitReference → s ∈ e.children → s.kind = .ref .structure → f ∈ e.children →
      f.kind = .ref .field → ∃ k, f.targetPath = s.targetPath ++ [k])
    {q : Path} {r : Tree} (hr : t.descend q = some r) (hp : isPlainRes r = true) (ha : ExplicitApart r) :
    ∃ rec, resourceRecord r = some rec ∧ createResource rec = .ok (plainResource r) := by
  unfold isPlainRes at hp
  rw [Bool.and_eq_true] at hp
  obtain ⟨hres, hnb⟩ := hp
  have hkinds := hc.resourceKinds hf hr hres
  cases hk : r.kind <;> rw [hk] at hres hnb <;> first | (cases hres; done) | skip
  rename_i k o m
  have hch := hc.resource q r k o m hr hk
  rw [hkinds] at hch
  obtain ⟨hd, hne⟩ := ident_name (show Ident r.name by have := hc.name q r hr; rw [hk] at this; exact this)
  -- the type
  have htype : ∃ ty, resourceTypeRecord r = some ty ∧ ty.kind = k ∧ Created (typeRefs ty) (typeChildren r) := by
    unfold resourceTypeRecord
    simp only [hk]
    have one : ∀ {rk : RefKind} {c : Tree}, childrenOf r (.ref rk) = [c] → mkRef rk c.target = .ok c := by
      intro rk c h; exact hc.refChild hr (by rw [h]; simp)
    cases k with
    | vector =>
      obtain ⟨n, hch⟩ := hch
      obtain ⟨c, e1⟩ := childrenOf_single hch (by simp)
      have e2 := typeChildren_vector hch (.ref .archive) (by simp) (by simp)
      have e3 := typeChildren_vector hch (.ref .resource) (by simp) (by simp)
      refine ⟨.vector c.target, by rw [e1]; rfl, rfl, ?_⟩
      unfold typeChildren; rw [e1, e2, e3]
      exact .cons (one e1) .nil
    | «instance» =>
      obtain ⟨n, hch⟩ := hch
      obtain ⟨c, e1⟩ := childrenOf_single hch (by simp)
      have e2 := typeChildren_vector hch (.ref .archive) (by simp) (by simp)
      have e3 := typeChildren_vector hch (.ref .resource) (by simp) (by simp)
      refine ⟨.object c.target, by rw [e1]; rfl, rfl, ?_⟩
      unfold typeChildren; rw [e1, e2, e3]
      exact .cons (one e1) .nil
    | multivector w =>
      obtain ⟨n, m', b, hch⟩ := hch
      have e2 : childrenOf r (.ref .archive) = [] := childrenOf_absent (by rw [hch]; simp)
      have e3 : childrenOf r (.ref .resource) = [] := childrenOf_absent (by rw [hch]; simp)
      refine ⟨.multivector w _, rfl, rfl, ?_⟩
      unfold typeChildren; rw [e2, e3]
      show Created (((childrenOf r (.ref .structure)).map Tree.target).map (mkRef .structure)) _
      rw [List.map_map, List.append_nil, List.append_nil]
      have := created_of_map (l := childrenOf r (.ref .structure)) (f := mkRef .structure ∘ Tree.target) (g := fun r => r) fun x hx => hc.refChild hr hx
      simpa using this
    | rawData =>
      obtain ⟨n, hch⟩ := hch
      have e1 : childrenOf r (.ref .structure) = [] := childrenOf_absent (by rw [hch]; simp)
      have e2 : childrenOf r (.ref .archive) = [] := childrenOf_absent (by rw [hch]; simp)
      have e3 : childrenOf r (.ref .resource) = [] := childrenOf_absent (by rw [hch]; simp)
      refine ⟨.rawData, rfl, rfl, ?_⟩
      unfold typeChildren; rw [e1, e2, e3]
      exact .nil
    | archive =>
      obtain ⟨n, hch⟩ := hch
      obtain ⟨c, e1⟩ := childrenOf_single hch (by simp)
      have e2 := typeChildren_vector hch (.ref .structure) (by simp) (by simp)
      have e3 := typeChildren_vector hch (.ref .resource) (by simp) (by simp)
      refine ⟨.archive c.target, by rw [e1], rfl, ?_⟩
      unfold typeChildren; rw [e1, e2, e3]
      exact .cons (one e1) .nil
    | bound => simp [Kind.isBoundResource] at hnb
  obtain ⟨ty, t1, t2, t3⟩ := htype
  refine ⟨_, by unfold resourceRecord; rw [t1], ?_⟩
  unfold createResource
  have hopt : (if isOptionalResource r.kind then [PResDeco.optional] else []) = [] ∨ (if isOptionalResource r.kind then [PResDeco.optional] else []) = [.optional] := by
    split <;> simp
  have hcre := created_both (hc.resourceRefsCreated hf h105 hr _ hopt) t3
  have hdec : decide (PResDeco.optional ∈ (childrenOf r .explicitReference).filterMap explicitRecord ++ if isOptionalResource r.kind then [PResDeco.optional] else []) = o := by
    have hno : PResDeco.optional ∉ (childrenOf r .explicitReference).filterMap explicitRecord := by
      intro hm
      obtain ⟨e, _, he⟩ := List.mem_filterMap.mp hm
      unfold explicitRecord at he
      split at he <;> simp at he
    rw [hk]
    simp only [isOptionalResource, List.mem_append, hno, false_or]
    cases o <;> simp
  have hpk : plainResKind r.kind = .resource k o none := by
    rw [hk]
    cases k <;> first | rfl | (simp [Kind.isBoundResource] at hnb)
  simp only [create_eq hd hne, bind, Except.bind]
  rw [insertEach_eq hcre (by simpa [Tree.children] using hc.resourceNames hr ha)]
  unfold plainResource
  rw [hpk]
  simp only [t2, Tree.name, Tree.kind, Tree.children, List.nil_append]
  congr 4

theorem Compiled.boundCreated (hf : Flat t) {q : Path} {r : Tree} (hr : t.descend q = some r) (hp : isBoundRes r = true) :
    ∃ rec, boundRecord r = some rec ∧ createBound rec = .ok (plainResource r) := by
  unfold isBoundRes at hp
  have hres : r.kind.isResource = true := by cases hk : r.kind <;> rw [hk] at hp <;> first | (cases hp; done) | rfl
  have hkinds := hc.resourceKinds hf hr hres
  cases hk : r.kind <;> rw [hk] at hres hp <;> first | (cases hres; done) | skip
  rename_i k o m
  have hch := hc.resource q r k o m hr hk
  rw [hkinds] at hch
  obtain ⟨hd, hne⟩ := ident_name (show Ident r.name by have := hc.name q r hr; rw [hk] at this; exact this)
  cases k <;> first | (simp [Kind.isBoundResource] at hp; done) | skip
  obtain ⟨n, hch⟩ := hch
  have e0 : childrenOf r .explicitReference = [] := childrenOf_absent (by rw [hch]; simp)
  have e1 : childrenOf r (.ref .structure) = [] := childrenOf_absent (by rw [hch]; simp)
  have e2 : childrenOf r (.ref .archive) = [] := childrenOf_absent (by rw [hch]; simp)
  refine ⟨_, by unfold boundRecord; rw [hk], ?_⟩
  unfold createBound
  simp only [create_eq hd hne, bind, Except.bind, List.map_map]
  have hcre := created_of_map (l := childrenOf r (.ref .resource)) (f := mkRef .resource ∘ Tree.target) (g := fun r => r) fun x hx => hc.refChild hr hx
  rw [List.map_id'] at hcre
  have hnd := good_names hc.lk.good hr
  rw [insertEach_eq hcre (by
    show ((childrenOf r (.ref .resource)).map Tree.name).Nodup
    exact names_nodup hnd ((nodup_of_names hnd).filter _) fun x hx => (List.mem_filter.mp hx).1)]
  unfold plainResource typeChildren
  rw [hk, e0, e1, e2]
  rfl

/-! ## Archives and structures -/

theorem Compiled.archiveCreated (hf : Flat t)
    (h105 : ∀ q e s f, t.descend q = some e → e.kind = .explicitReference → s ∈ e.children → s.kind = .ref .structure → f ∈ e.children →
      f.kind = .ref .field → ∃ k, f.targetPath = s.targetPath ++ [k])
    {q : Path} {n : Tree} (hn : t.descend q = some n) (hk : n.kind = .archive) (ha : ∀ r ∈ n.children, ExplicitApart r) :
    createArchive (archiveRecord n) = .ok (plainArchive n) := by
  obtain ⟨hd, hne⟩ := ident_name (show Ident n.name by have := hc.name q n hn; rw [hk] at this; exact this)
  unfold createArchive archiveRecord plainArchive
  have h1 : Created ((n.children.filterMap resourceRecord).map createResource) ((n.children.filter isPlainRes).map plainResource) := by
    refine created_filterMap (fun x hx hp => hc.resourceCreated hf h105 (hc.child hn hx) hp (ha x hx)) ?_
    intro x _ hp
    unfold resourceRecord resourceTypeRecord
    unfold isPlainRes at hp
    cases hxk : x.kind <;> rw [hxk] at hp <;> simp [Kind.isResource, Kind.isBoundResource] at hp ⊢
    split at hp <;> simp_all
  have h2 : Created ((n.children.filterMap boundRecord).map createBound) ((n.children.filter isBoundRes).map plainResource) := by
    refine created_filterMap (fun x hx hp => hc.boundCreated hf (hc.child hn hx) hp) ?_
    intro x _ hp
    unfold boundRecord
    unfold isBoundRes at hp
    cases hxk : x.kind <;> rw [hxk] at hp <;> simp [Kind.isBoundResource] at hp ⊢
    split at hp <;> simp_all
  have hnd := good_names hc.lk.good hn
  simp only [create_eq hd hne, bind, Except.bind]
  rw [insertEach_eq (created_both h1 h2)]
  · rfl
  · simp only [Tree.children, List.map_nil, List.nil_append]
    rw [← List.map_append, List.map_map]
    have : (Tree.name ∘ plainResource) = Tree.name := rfl
    rw [this]
    refine names_nodup hnd (filters_nodup (nodup_of_names hnd) ?_) ?_
    · intro x _ h1 h2
      unfold isPlainRes at h1; unfold isBoundRes at h2
      rw [h2] at h1; simp at h1
    · intro x hx
      rcases List.mem_append.mp hx with hx | hx <;> exact (List.mem_filter.mp hx).1

omit hc in
theorem plainField_name (f : Tree) : (plainField f).name = f.name := by
  unfold plainField; split <;> rfl

theorem Compiled.structureCreated (hw : ∀ q f ty rg o, t.descend q = some f → f.kind = .field ty rg o → ∃ b, (ty = .basic b ∨ ∃ e, ty = .enum e b) ∧ b.width ≤ b.name.width)
    (hone : ∀ q f ty rg o, t.descend q = some f → f.kind = .field ty rg o → ∀ a ∈ f.children, ∀ b ∈ f.children, a.kind.isEnumerationReference = true →
      b.kind.isEnumerationReference = true → a = b)
    {q : Path} {n : Tree} {sz : Option Nat} (hn : t.descend q = some n) (hk : n.kind = .structure sz) (hall : ∀ c ∈ n.children, c.kind.isField = true) :
    createStruct (structureRecord n) = .ok (plainStructure n) := by
  obtain ⟨hd, hne⟩ := ident_name (show Ident n.name by have := hc.name q n hn; rw [hk] at this; exact this)
  unfold createStruct structureRecord plainStructure
  have h1 := created_filterMap (l := n.children) (rec := fieldRecord) (f := createField) (g := plainField) (P := fun _ => true)
    (fun x hx _ => hc.fieldCreated hw hone (hc.child hn hx) (hall x hx)) (by simp)
  rw [List.filter_true] at h1
  have hnd := good_names hc.lk.good hn
  simp only [create_eq hd hne, bind, Except.bind]
  rw [insertEach_eq h1]
  · rfl
  · simp only [Tree.children, List.map_nil, List.nil_append, List.map_map]
    have : (Tree.name ∘ plainField) = Tree.name := funext plainField_name
    rw [this]; exact hnd

end
end Gen
