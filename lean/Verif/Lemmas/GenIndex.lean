import Verif.Lemmas.GenStages
import Verif.Lemmas.GenText

/-! # Index types of multivectors -/

namespace Gen
open Spec Props

/-! ## Definitions have no references to index types -/

/-- No node is a reference to an index type. -/
inductive NoIndex : Tree → Prop
  | mk {n k cs} : k ≠ .ref .builtinStructure → (∀ c ∈ cs, NoIndex c) → NoIndex (.mk n k cs)

theorem NoIndex.kind {t : Tree} (h : NoIndex t) : t.kind ≠ .ref .builtinStructure := by cases h; assumption
theorem NoIndex.children {t : Tree} (h : NoIndex t) : ∀ c ∈ t.children, NoIndex c := by cases h; assumption

theorem create_noIndex {n k t} (hk : k ≠ .ref .builtinStructure) (h : Tree.create n k = .ok t) : NoIndex t := by
  obtain ⟨rfl, _⟩ := create_ok h
  exact .mk hk (by simp)

theorem insert_noIndex {t u t' : Tree} (ht : NoIndex t) (hu : NoIndex u) (h : t.insert u = .ok t') : NoIndex t' := by
  obtain ⟨_, rfl⟩ := insert_ok h
  refine .mk ht.kind ?_
  intro c hc
  rcases List.mem_append.mp hc with hc | hc
  · exact ht.children c hc
  · simp only [List.mem_singleton] at hc; exact hc ▸ hu

theorem insertEach_noIndex {cs : List (M Tree)} {t t' : Tree} (ht : NoIndex t) (hcs : ∀ c ∈ cs, ∀ d, c = .ok d → NoIndex d)
    (h : insertEach t cs = .ok t') : NoIndex t' := by
  obtain ⟨ds, hds, rfl⟩ := insertEach_ok h
  refine .mk ht.kind ?_
  intro c hc
  rcases List.mem_append.mp hc with hc | hc
  · exact ht.children c hc
  · obtain ⟨x, hx, he⟩ := created_mem hds hc
    exact hcs x hx c he

theorem mkRef_noIndex {k n t} (hk : k ≠ .builtinStructure) (h : mkRef k n = .ok t) : NoIndex t :=
  create_noIndex (by simpa using hk) h

theorem fieldRefs_noIndex (ds : List PFieldDeco) : ∀ c ∈ fieldRefs ds, ∀ d, c = .ok d → NoIndex d := by
  induction ds with
  | nil => simp [fieldRefs]
  | cons d ds ih =>
    cases d <;> simp only [fieldRefs, List.forall_mem_cons]
    · exact ih
    · exact ⟨fun d hd => mkRef_noIndex (by simp) hd, ih⟩
    · exact ⟨fun d hd => mkRef_noIndex (by simp) hd, ih⟩

theorem createField_noIndex {f t} (h : createField f = .ok t) : NoIndex t := by
  obtain ⟨t0, h0, h⟩ := bind_ok h
  obtain ⟨t1, h1, h⟩ := bind_ok h
  have key : NoIndex t1 := insertEach_noIndex (create_noIndex (by simp) h0) (fieldRefs_noIndex _) h1
  split at h
  · obtain ⟨r, hr, h⟩ := bind_ok h
    exact insert_noIndex key (mkRef_noIndex (by simp) hr) h
  · obtain ⟨bt, hbt, h⟩ := bind_ok h
    cases h
    exact .mk (by simp) key.children

theorem createStruct_noIndex {s t} (h : createStruct s = .ok t) : NoIndex t := by
  obtain ⟨t0, h0, h⟩ := bind_ok h
  refine insertEach_noIndex (create_noIndex (by simp) h0) ?_ h
  intro c hc d hd
  obtain ⟨f, _, rfl⟩ := List.mem_map.mp hc
  exact createField_noIndex hd

theorem resourceRefs_noIndex (ds : List PResDeco) : ∀ c ∈ resourceRefs ds, ∀ d, c = .ok d → NoIndex d := by
  induction ds with
  | nil => simp [resourceRefs]
  | cons d ds ih =>
    cases d <;> simp only [resourceRefs, List.forall_mem_cons]
    · refine ⟨fun d hd => ?_, ih⟩
      obtain ⟨t0, h0, h⟩ := bind_ok hd
      refine insertEach_noIndex (create_noIndex (by simp) h0) ?_ h
      intro c hc d hd
      simp only [List.mem_cons, List.not_mem_nil, or_false] at hc
      rcases hc with rfl | rfl | rfl <;> exact mkRef_noIndex (by simp) hd
    · exact ih

theorem typeRefs_noIndex (t : PResType) : ∀ c ∈ typeRefs t, ∀ d, c = .ok d → NoIndex d := by
  cases t <;> simp only [typeRefs, List.mem_singleton, List.mem_map, List.not_mem_nil]
  · rintro _ rfl d hd; exact mkRef_noIndex (by simp) hd
  · rintro _ ⟨_, _, rfl⟩ d hd; exact mkRef_noIndex (by simp) hd
  · rintro _ rfl d hd; exact mkRef_noIndex (by simp) hd
  · simp
  · rintro _ rfl d hd; exact mkRef_noIndex (by simp) hd

theorem createArchive_noIndex {a t} (h : createArchive a = .ok t) : NoIndex t := by
  obtain ⟨t0, h0, h⟩ := bind_ok h
  refine insertEach_noIndex (create_noIndex (by simp) h0) ?_ h
  intro c hc d hd
  rcases List.mem_append.mp hc with hc | hc
  · obtain ⟨r, _, rfl⟩ := List.mem_map.mp hc
    obtain ⟨t0, h0, h⟩ := bind_ok hd
    refine insertEach_noIndex (create_noIndex (by simp) h0) ?_ h
    intro c hc d hd
    rcases List.mem_append.mp hc with hc | hc
    · exact resourceRefs_noIndex _ c hc d hd
    · exact typeRefs_noIndex _ c hc d hd
  · obtain ⟨r, _, rfl⟩ := List.mem_map.mp hc
    obtain ⟨t0, h0, h⟩ := bind_ok hd
    refine insertEach_noIndex (create_noIndex (by simp) h0) ?_ h
    intro c hc d hd
    obtain ⟨x, _, rfl⟩ := List.mem_map.mp hc
    exact mkRef_noIndex (by simp) hd

theorem blockDefs_noIndex (b : PBlock) : ∀ c ∈ blockDefs b, ∀ d, c = .ok d → NoIndex d := by
  intro c hc d hd
  simp only [blockDefs, List.mem_append, List.mem_map] at hc
  rcases hc with ((⟨x, _, rfl⟩ | ⟨x, _, rfl⟩) | ⟨x, _, rfl⟩) | ⟨x, _, rfl⟩
  · obtain ⟨r, _, h⟩ := bind_ok hd; exact create_noIndex (by simp) h
  · exact createStruct_noIndex hd
  · obtain ⟨t0, h0, h⟩ := bind_ok hd
    obtain ⟨r, hr, h⟩ := bind_ok h
    obtain ⟨vs, hvs, h⟩ := bind_ok h
    cases h
    refine .mk (by simp) ?_
    intro d hd
    obtain ⟨m, hm, he⟩ := created_mem (mapM_created hvs) hd
    obtain ⟨v, _, rfl⟩ := List.mem_map.mp hm
    exact create_noIndex (by simp) he
  · exact createArchive_noIndex hd

theorem setChild_noIndex {t c : Tree} (ht : NoIndex t) (hc : NoIndex c) : NoIndex (t.setChild c) := by
  cases t with
  | mk n k cs =>
    refine .mk ht.kind ?_
    intro d hd
    obtain ⟨e, he, rfl⟩ := List.mem_map.mp hd
    split
    · exact hc
    · exact ht.children e he

theorem ensure_noIndex {f : Tree → M Tree} (hf : ∀ n n', NoIndex n → f n = .ok n' → NoIndex n') {keys : List Text} :
    ∀ {t t' : Tree}, NoIndex t → t.ensureNamespace f keys = .ok t' → NoIndex t' := by
  have nested : ∀ (ks : List Text) (k : Text) (u : Tree), nestedNamespaces f k ks = .ok u → NoIndex u := by
    intro ks
    induction ks with
    | nil =>
      intro k u h
      obtain ⟨t0, h0, h⟩ := bind_ok h
      exact hf _ _ (create_noIndex (by simp) h0) h
    | cons k' ks ih =>
      intro k u h
      obtain ⟨c, hc, h⟩ := bind_ok h
      obtain ⟨t0, h0, h⟩ := bind_ok h
      exact insert_noIndex (create_noIndex (by simp) h0) (ih _ _ hc) h
  induction keys with
  | nil =>
    intro t t' ht h
    simp only [Tree.ensureNamespace] at h
    split at h
    · exact hf _ _ ht h
    · cases h
  | cons k ks ih =>
    intro t t' ht h
    simp only [Tree.ensureNamespace] at h
    cases hc : t.child k with
    | some c =>
      rw [hc] at h
      obtain ⟨c', h1, h⟩ := bind_ok h
      cases h
      exact setChild_noIndex ht (ih (ht.children c (child_some hc).1) h1)
    | none =>
      rw [hc] at h
      obtain ⟨u, hu, h⟩ := bind_ok h
      exact insert_noIndex ht (nested _ _ _ hu) h

theorem mergeRoots_noIndex {rs : List (List Text × Tree)} (hr : ∀ r ∈ rs, ∀ d ∈ r.2.children, NoIndex d) :
    ∀ {t t' : Tree}, NoIndex t → mergeRoots t rs = .ok t' → NoIndex t' := by
  induction rs with
  | nil => intro t t' ht h; simp only [mergeRoots, pure, Except.pure, Except.ok.injEq] at h; exact h ▸ ht
  | cons r rs ih =>
    intro t t' ht h
    obtain ⟨keys, target⟩ := r
    simp only [mergeRoots] at h
    obtain ⟨t1, h1, h⟩ := bind_ok h
    refine ih (fun x hx => hr x (by simp [hx])) (ensure_noIndex ?_ ht h1) h
    intro n n' hn hf
    have := insertAll_ok hf
    subst this
    refine .mk hn.kind ?_
    intro c hc
    rcases List.mem_append.mp hc with hc | hc
    · exact hn.children c hc
    · exact hr _ (List.mem_cons_self ..) c hc

theorem built_noIndex {blocks : List PBlock} {t : Tree} (h : buildNodeTree blocks = .ok t) : NoIndex t := by
  unfold buildNodeTree at h
  obtain ⟨rs, hrs, h⟩ := bind_ok h
  refine mergeRoots_noIndex ?_ (.mk (by simp) (by simp)) h
  intro r hr d hd
  obtain ⟨b, hbm, he⟩ := mapM_mem hrs r hr
  obtain ⟨_, _, h3, _⟩ := createBlock_ok he
  obtain ⟨c, hc, hce⟩ := created_mem h3 hd
  exact blockDefs_noIndex b c hc d hce

theorem NoIndex.descend {t n : Tree} (h : NoIndex t) {q : Path} (hn : t.descend q = some n) : NoIndex n := by
  induction q generalizing t with
  | nil => simp only [Tree.descend, Option.some.injEq] at hn; exact hn ▸ h
  | cons k q ih =>
    simp only [Tree.descend] at hn
    cases hc : t.child k with
    | none => rw [hc] at hn; cases hn
    | some c => rw [hc] at hn; exact ih (h.children c (child_some hc).1) hn

/-! ## Which nodes are new -/

/-- Every node was there before, or it is as described by `Q`. -/
def Back (Q : Tree → Prop) (t t' : Tree) : Prop := ∀ q n', t'.descend q = some n' → (∃ n, t.descend q = some n) ∨ Q n'

/-- All nodes of a tree. -/
def Every (Q : Tree → Prop) (t : Tree) : Prop := ∀ q n, t.descend q = some n → Q n

theorem every_of {Q : Tree → Prop} {t : Tree} (h : Q t) (hc : ∀ c ∈ t.children, Every Q c) : Every Q t := by
  intro q n hn
  cases q with
  | nil => simp only [Tree.descend, Option.some.injEq] at hn; exact hn ▸ h
  | cons k q =>
    simp only [Tree.descend] at hn
    cases hk : t.child k with
    | none => rw [hk] at hn; cases hn
    | some c => rw [hk] at hn; exact hc c (child_some hk).1 q n hn

theorem back_append {Q : Tree → Prop} {t : Tree} {ds : List Tree} (hd : ∀ d ∈ ds, Every Q d) :
    Back Q t (.mk t.name t.kind (t.children ++ ds)) := by
  intro q n' hn
  cases q with
  | nil => exact .inl ⟨t, rfl⟩
  | cons k q =>
    simp only [Tree.descend] at hn ⊢
    cases hk : (Tree.mk t.name t.kind (t.children ++ ds)).child k with
    | none => rw [hk] at hn; cases hn
    | some c =>
      rw [hk] at hn
      cases ht : t.child k with
      | some c0 =>
        have := child_appended (ds := ds) (by rw [Tree.eta]; exact ht : (Tree.mk t.name t.kind t.children).child k = some c0)
        rw [hk] at this; cases this
        exact .inl ⟨n', hn⟩
      | none =>
        right
        obtain ⟨h1, h2⟩ := child_some hk
        rcases List.mem_append.mp h1 with h1 | h1
        · exact absurd (h2 ▸ List.mem_map_of_mem h1) (child_none.mp ht)
        · exact hd c h1 q n' hn

theorem back_setChild {Q : Tree → Prop} {t c c' : Tree} {k : Text} (hc : t.child k = some c) (hn : c'.name = c.name)
    (h : Back Q c c') : Back Q t (t.setChild c') := by
  intro q n' hq
  cases q with
  | nil => exact .inl ⟨t, rfl⟩
  | cons j q =>
    simp only [Tree.descend] at hq ⊢
    rw [child_setChild hc (hn.trans (child_some hc).2)] at hq
    by_cases hj : j = k
    · subst hj
      rw [if_pos rfl] at hq
      rw [hc]
      exact h q n' hq
    · rw [if_neg hj] at hq
      exact .inl ⟨n', hq⟩

theorem back_insertAt {Q : Tree → Prop} {u : Tree} (hu : Every Q u) {p : Path} : ∀ {t t' : Tree},
    t.modifyAt (fun n => n.insert u) p = .ok t' → Back Q t t' := by
  induction p with
  | nil =>
    intro t t' h
    obtain ⟨_, rfl⟩ := insert_ok h
    exact back_append (by simpa using hu)
  | cons k ks ih =>
    intro t t' h
    simp only [Tree.modifyAt] at h
    cases hc : t.child k with
    | none => rw [hc] at h; cases h
    | some c =>
      rw [hc] at h
      obtain ⟨c', h1, h⟩ := bind_ok h
      cases h
      exact back_setChild hc (modifyAt_kind (fun n n' hf => insert_kind hf) h1).2 (ih h1)

theorem back_ensure {Q : Tree → Prop} (hQ : ∀ n : Tree, n.kind = .namespace → Q n) {f : Tree → M Tree}
    (hf : ∀ n n', f n = .ok n' → ∃ ds, n' = .mk n.name n.kind (n.children ++ ds) ∧ ∀ d ∈ ds, Every Q d)
    {keys : List Text} : ∀ {t t' : Tree}, t.ensureNamespace f keys = .ok t' → Back Q t t' := by
  have hsame : ∀ n n', f n = .ok n' → n'.kind = n.kind ∧ n'.name = n.name := by
    intro n n' h; obtain ⟨ds, rfl, _⟩ := hf n n' h; exact ⟨rfl, rfl⟩
  have nested : ∀ (ks : List Text) (k : Text) (u : Tree), nestedNamespaces f k ks = .ok u → Every Q u := by
    intro ks
    induction ks with
    | nil =>
      intro k u h
      obtain ⟨t0, h0, h⟩ := bind_ok h
      obtain ⟨rfl, _⟩ := create_ok h0
      obtain ⟨ds, rfl, hd⟩ := hf _ _ h
      exact every_of (hQ _ rfl) (by simpa [Tree.children] using hd)
    | cons k' ks ih =>
      intro k u h
      obtain ⟨c, hc, h⟩ := bind_ok h
      obtain ⟨t0, h0, h⟩ := bind_ok h
      obtain ⟨rfl, _⟩ := create_ok h0
      obtain ⟨_, rfl⟩ := insert_ok h
      exact every_of (hQ _ rfl) (by simpa [Tree.children] using ih _ _ hc)
  induction keys with
  | nil =>
    intro t t' h
    simp only [Tree.ensureNamespace] at h
    split at h
    · obtain ⟨ds, rfl, hd⟩ := hf _ _ h
      exact back_append hd
    · cases h
  | cons k ks ih =>
    intro t t' h
    simp only [Tree.ensureNamespace] at h
    cases hc : t.child k with
    | some c =>
      rw [hc] at h
      obtain ⟨c', h1, h⟩ := bind_ok h
      cases h
      exact back_setChild hc (ensure_same hsame h1).2 (ih h1)
    | none =>
      rw [hc] at h
      obtain ⟨u, hu, h⟩ := bind_ok h
      obtain ⟨_, rfl⟩ := insert_ok h
      exact back_append (by simpa using nested _ _ _ hu)

/-! ## Index types are inserted once -/

/-- The name of the index type of a width. -/
def indexTypeName (w : Nat) : Text := "IndexType".toList ++ natText w

/-- The class of its only field. -/
def indexField (w : Nat) : Kind := .field (.basic ⟨.u64, if w = 0 then 64 else w⟩) (some "range".toList) none

theorem indexField_create {n : Text} {w : Nat} {d : Tree} (h : createField { name := n, decorations := [.range "range".toList], type := "u64".toList, width := if w = 0 then none else some w } = .ok d) :
    d = .mk n (indexField w) [] := by
  unfold createField at h
  simp only at h
  obtain ⟨t0, h0, h1⟩ := bind_ok h
  obtain ⟨rfl, _⟩ := create_ok h0
  obtain ⟨t1, h2, h1⟩ := bind_ok h1
  simp only [fieldRefs, insertEach, pure, Except.pure, Except.ok.injEq] at h2
  subst h2
  have hb : basicOfText "u64".toList = some .u64 := by decide +kernel
  rw [hb] at h1
  obtain ⟨bt, hbt, h1⟩ := bind_ok h1
  simp only [pure, Except.pure, Except.ok.injEq] at h1
  subst h1
  have : bt = ⟨.u64, if w = 0 then 64 else w⟩ := by
    unfold BasicType.create at hbt
    simp only at hbt
    by_cases hw : w = 0
    · simp only [hw, if_true, Option.getD_none, gt_iff_lt, lt_self_iff_false, if_false, pure, Except.pure, Except.ok.injEq] at hbt ⊢
      rw [← hbt]; rfl
    · simp only [hw, if_false, Option.getD_some] at hbt ⊢
      split at hbt
      · cases hbt
      · simp only [pure, Except.pure, Except.ok.injEq] at hbt; exact hbt.symm
  rw [this]
  simp only [indexField, fieldRange, Tree.name, Tree.children]

theorem createStruct_one {s : PStruct} {f : PField} {b : Tree} (hf : s.fields = [f]) (h : createStruct s = .ok b) :
    ∃ d, createField f = .ok d ∧ b = .mk s.name (.structure none) [d] := by
  unfold createStruct at h
  obtain ⟨t0, h0, h⟩ := bind_ok h
  obtain ⟨rfl, _⟩ := create_ok h0
  obtain ⟨ds, hds, rfl⟩ := insertEach_ok h
  rw [hf, List.map_cons, List.map_nil] at hds
  generalize hc : createField f = c at hds
  cases hds with
  | cons h1 hds =>
    cases hds
    exact ⟨_, h1, rfl⟩

theorem indexType_create {w : Nat} {b : Tree} (h : createStruct (indexTypeDef w) = .ok b) :
    b = .mk (indexTypeName w) (.structure none) [.mk "value".toList (indexField w) []] := by
  have hf : (indexTypeDef w).fields = [⟨"value".toList, [.range "range".toList], "u64".toList, if w = 0 then none else some w⟩] := rfl
  have hn : (indexTypeDef w).name = indexTypeName w := rfl
  obtain ⟨d, h1, h2⟩ := createStruct_one hf h
  rw [h2, hn, indexField_create h1]

/-- What a new node is. -/
def NewNode (n : Tree) : Prop :=
  n.kind = .namespace ∨ n.kind = .ref .builtinStructure ∨ (∃ w, n.kind = indexField w) ∨
    ∃ w, n.kind = .structure none ∧ n.name = indexTypeName w ∧ info n = [("value".toList, indexField w)]

theorem NewNode.not_resource {n : Tree} (h : NewNode n) {k o m} (hk : n.kind = .resource k o m) : False := by
  rcases h with h | h | ⟨w, h⟩ | ⟨w, h, _⟩ <;> rw [h] at hk <;> simp [indexField] at hk

theorem insert_builtin_new {w : Nat} (n n' : Tree) (hf : (do
    let builtin ← createStruct (indexTypeDef w)
    if (n.child builtin.name).isSome then pure n else n.insert builtin : M Tree) = .ok n') :
    ∃ ds, n' = .mk n.name n.kind (n.children ++ ds) ∧ ∀ d ∈ ds, Every NewNode d := by
  obtain ⟨b, hb, hf⟩ := bind_ok hf
  split at hf
  · cases hf; exact ⟨[], by rw [List.append_nil, Tree.eta], by simp⟩
  · obtain ⟨_, rfl⟩ := insert_ok hf
    refine ⟨[b], rfl, ?_⟩
    intro d hd
    simp only [List.mem_singleton] at hd
    subst hd
    have := indexType_create hb
    subst this
    refine every_of (.inr (.inr (.inr ⟨w, rfl, rfl, rfl⟩))) ?_
    intro c hc
    simp only [Tree.children, List.mem_singleton] at hc
    subst hc
    exact every_of (.inr (.inr (.inl ⟨w, rfl⟩))) (by simp [Tree.children])

/-- The names of the references to index types below a node. -/
def indexRefs (l : List (Text × Kind)) : List Text := (l.filter fun x => x.2 = .ref .builtinStructure).map (·.1)

/-- The name of the reference to the index type of the multivector at `p`. -/
def indexRefName (p : Path) (w : Nat) : Text := referencify (pathText (builtinKeys p ++ [indexTypeName w]))

/-- Of the multivectors, those in `todo` have no index type yet; index types not in `t0` are the generated ones. -/
structure Indexed (t0 : Tree) (todo : List Path) (t : Tree) : Prop where
  good : Good t
  refs : ∀ p n w o m, t.descend p = some n → n.kind = .resource (.multivector w) o m →
    indexRefs (info n) = if p ∈ todo then [] else [indexRefName p w]
  types : ∀ q n w, t.descend (q ++ [indexTypeName w]) = some n → t0.descend (q ++ [indexTypeName w]) = none →
    n.kind = .structure none → (info n).filter (fun x => x.2 ≠ .namespace) = [("value".toList, indexField w)]

theorem indexRefs_append (a b : List (Text × Kind)) : indexRefs (a ++ b) = indexRefs a ++ indexRefs b := by simp [indexRefs]

theorem indexRefs_ns {l : List (Text × Kind)} (h : ∀ x ∈ l, x.2 = .namespace) : indexRefs l = [] := by
  simp only [indexRefs, List.map_eq_nil_iff, List.filter_eq_nil_iff]
  intro x hx; rw [h x hx]; simp

theorem indexTypeName_inj {v w : Nat} (h : indexTypeName v = indexTypeName w) : v = w :=
  natText_inj (List.append_cancel_left h)

theorem descend_last {t n : Tree} {q : Path} {k : Text} (h : t.descend (q ++ [k]) = some n) : n.name = k := by
  obtain ⟨m, h1, h2, h3⟩ := descend_parent h
  simpa using h3

theorem appendBuiltin_indexed {t0 t t' : Tree} {p : Path} {w : Nat} {todo : List Path} (hi : Indexed t0 (p :: todo) t) (hp : p ∉ todo)
    (hw : ∃ n o m, t.descend p = some n ∧ n.kind = .resource (.multivector w) o m) (h : appendBuiltin t p w = .ok t') :
    Indexed t0 todo t' ∧ (∀ q n, t.descend q = some n → ∃ n', t'.descend q = some n' ∧ n'.kind = n.kind) ∧ Back NewNode t t' := by
  unfold appendBuiltin at h
  obtain ⟨t1, h1, h⟩ := bind_ok h
  obtain ⟨r, h2, h⟩ := bind_ok h
  have hg1 : Good t1 := ensure_good insert_builtin_good _ _ _ hi.good h1
  have hgr1 := grows_ensure insert_builtin_appends hi.good h1
  have hbk1 : Back NewNode t t1 := back_ensure (fun n hn => .inl hn) insert_builtin_new h1
  have hgr2 := grows_insertAt hg1 h
  obtain ⟨rfl, _⟩ := create_ok h2
  have hbk2 : Back NewNode t1 t' := back_insertAt (every_of (.inr (.inl rfl)) (by simp [Tree.children])) h
  have hname : referencify (pathText (builtinKeys p ++ [(indexTypeDef w).name])) = indexRefName p w := rfl
  have grow : ∀ q n, t.descend q = some n → ∃ n' ext, t'.descend q = some n' ∧ n'.name = n.name ∧ n'.kind = n.kind ∧
      info n' = info n ++ ext ++ (if q = p then [(indexRefName p w, .ref .builtinStructure)] else []) ∧
      (n.kind ≠ .namespace → ∀ x ∈ ext, x.2 = .namespace) := by
    intro q n hq
    obtain ⟨n1, e1, a1, a2, a3, a4, a5⟩ := hgr1 q n hq
    obtain ⟨n2, e2, b1, b2, b3, b4, b5⟩ := hgr2 q n1 a1
    exact ⟨n2, e1, b1, b2.trans a2, b3.trans a3, by rw [b4, a4, b5]; rfl, a5⟩
  have back : Back NewNode t t' := by
    intro q n' hq
    rcases hbk2 q n' hq with ⟨n1, hn1⟩ | hn
    · obtain ⟨n2, _, b1, b2, b3, b4, b5⟩ := hgr2 q n1 hn1
      rcases hbk1 q n1 hn1 with hn | hn
      · exact .inl hn
      · rw [hq] at b1; cases b1
        refine .inr ?_
        have hnp : q = p → False := by
          rintro rfl
          obtain ⟨x, o, m, hx, hk⟩ := hw
          obtain ⟨x1, _, c1, _, c3, _⟩ := hgr1 _ x hx
          rw [hn1] at c1; cases c1
          exact hn.not_resource (c3.trans hk)
        rw [if_neg hnp] at b5
        subst b5
        rw [List.append_nil] at b4
        rcases hn with hn | hn | ⟨v, hn⟩ | ⟨v, hn, hm, hf⟩
        · exact .inl (b3.trans hn)
        · exact .inr (.inl (b3.trans hn))
        · exact .inr (.inr (.inl ⟨v, b3.trans hn⟩))
        · exact .inr (.inr (.inr ⟨v, b3.trans hn, b2.trans hm, b4.trans hf⟩))
    · exact .inr hn
  refine ⟨⟨?_, ?_, ?_⟩, ?_, back⟩
  · exact good_modifyAt (fun n n' hn hf => good_insert hn (mkRef_ok h2).1 hf) _ _ _ hg1 h
  · intro q n' v o m hq hk
    rcases back q n' hq with ⟨n, hn⟩ | hn
    · obtain ⟨x, ext, g1, g2, g3, g4, g5⟩ := grow q n hn
      rw [hq] at g1; cases g1
      have hnk := g3.symm.trans hk
      rw [g4, indexRefs_append, indexRefs_append, indexRefs_ns (g5 (by rw [hnk]; simp)), hi.refs q n v o m hn hnk, List.append_nil]
      by_cases hqp : q = p
      · subst hqp
        obtain ⟨y, o', m', hy, hyk⟩ := hw
        rw [hn] at hy; cases hy
        rw [hnk] at hyk
        simp only [Kind.resource.injEq, ResKind.multivector.injEq] at hyk
        rw [hyk.1]
        simp [indexRefs, hp]
      · simp [hqp, indexRefs]
    · exact (hn.not_resource hk).elim
  · intro q n' v hq h0 hk
    rcases back _ n' hq with ⟨n, hn⟩ | hn
    · obtain ⟨x, ext, g1, g2, g3, g4, g5⟩ := grow _ n hn
      rw [hq] at g1; cases g1
      have hnk := g3.symm.trans hk
      have hqp : q ++ [indexTypeName v] ≠ p := by
        rintro rfl
        obtain ⟨y, o', m', hy, hyk⟩ := hw
        rw [hn] at hy; cases hy
        rw [hnk] at hyk; cases hyk
      rw [if_neg hqp, List.append_nil] at g4
      rw [g4, List.filter_append, hi.types q n v hn h0 hnk]
      have : ext.filter (fun x => x.2 ≠ .namespace) = [] := by
        rw [List.filter_eq_nil_iff]
        intro x hx
        rw [g5 (by rw [hnk]; simp) x hx]; simp
      rw [this, List.append_nil]
    · rcases hn with hn | hn | ⟨u, hn⟩ | ⟨u, hn, hm, hf⟩
      · rw [hn] at hk; cases hk
      · rw [hn] at hk; cases hk
      · rw [hn] at hk; simp [indexField] at hk
      · rw [descend_last hq] at hm
        rw [indexTypeName_inj hm, hf]
        simp [indexField]
  · intro q n hq
    obtain ⟨x, ext, g1, g2, g3, g4, g5⟩ := grow _ n hq
    exact ⟨x, g1, g3⟩

theorem foldlM_indexed {t0 : Tree} {l : List (Path × Nat)} : ∀ {t t' : Tree}, (l.map (·.1)).Nodup →
    (∀ e ∈ l, ∃ n o m, t.descend e.1 = some n ∧ n.kind = .resource (.multivector e.2) o m) →
    Indexed t0 (l.map (·.1)) t → l.foldlM (fun r e => appendBuiltin r e.1 e.2) t = .ok t' → Indexed t0 [] t' := by
  induction l with
  | nil => intro t t' _ _ ht h; simp only [List.foldlM_nil, pure, Except.pure, Except.ok.injEq] at h; exact h ▸ ht
  | cons e l ih =>
    intro t t' hnd hl hi h
    simp only [List.foldlM_cons] at h
    obtain ⟨t1, h1, h⟩ := bind_ok h
    rw [List.map_cons, List.nodup_cons] at hnd
    obtain ⟨a, b, _⟩ := appendBuiltin_indexed hi hnd.1 (hl e (by simp)) h1
    refine ih hnd.2 ?_ a h
    intro x hx
    obtain ⟨n, o, m, g1, g2⟩ := hl x (by simp [hx])
    obtain ⟨n', g3, g4⟩ := b _ _ g1
    exact ⟨n', o, m, g3, g4.trans g2⟩

theorem multivectors_nodup {t : Tree} (hg : Good t) : ((multivectors t).map (·.1)).Nodup := by
  have : List.Sublist ((multivectors t).map (·.1)) ((t.iter []).map (·.1)) := by
    unfold multivectors
    generalize t.iter [] = l
    induction l with
    | nil => simp
    | cons e l ih =>
      simp only [List.filterMap_cons]
      split
      · exact ih.cons _
      · rename_i b hb
        split at hb
        · cases hb; exact ih.cons_cons _
        · cases hb
  exact this.nodup (iter_nodup t hg [])

theorem appendBuiltins_indexed {blocks : List PBlock} {t t' : Tree} (h0 : buildNodeTree blocks = .ok t) (h : appendBuiltins t = .ok t') :
    Indexed t [] t' := by
  have hg := (built_merged h0).1.good
  have hmem : ∀ e ∈ multivectors t, ∃ n o m, t.descend e.1 = some n ∧ n.kind = .resource (.multivector e.2) o m := by
    rintro ⟨p, w⟩ he
    obtain ⟨pos, n, o, m, h1, h2, h3⟩ := multivectors_mem.mp he
    exact ⟨n, o, m, by rw [← h2]; exact descend_namesAt hg h1, h3⟩
  refine foldlM_indexed (multivectors_nodup hg) hmem ⟨hg, ?_, ?_⟩ h
  · intro p n w o m hn hk
    have : p ∈ (multivectors t).map (·.1) := by
      obtain ⟨pos, h1, h2⟩ := descend_treeAt hn
      exact List.mem_map.mpr ⟨(p, w), multivectors_mem.mpr ⟨pos, n, o, m, h1, h2, hk⟩, rfl⟩
    rw [if_pos this]
    simp only [indexRefs, List.map_eq_nil_iff, List.filter_eq_nil_iff, info, List.mem_map]
    rintro x ⟨c, hc, rfl⟩
    simpa using (((built_noIndex h0).descend hn).children c hc).kind
  · intro q n w hn hq
    rw [hq] at hn; cases hn

end Gen
