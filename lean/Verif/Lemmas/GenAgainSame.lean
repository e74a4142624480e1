import Verif.Lemmas.GenAgainWhole

/-! # The definitions of a stored schema say the same when it is compiled -/

namespace Gen
open Spec Props

theorem filterMap_forall₂ {α β : Type} {R : α → β → Prop} {g : β → Option α} {l : List α} {l' : List β} (h : List.Forall₂ R l l') (hg : ∀ a ∈ l, ∀ b ∈ l', R a b → g b = some a) :
    l'.filterMap g = l := by
  induction h with
  | nil => rfl
  | @cons a b l l' hab _ ih =>
    rw [List.filterMap_cons_some (hg a (by simp) b (by simp) hab), ih (fun a ha b hb => hg a (by simp [ha]) b (by simp [hb]))]

theorem members_filterMap {α : Type} {g : Tree → Option α} {n : Tree} (h : ∀ c : Tree, c ∈ n.children → (c.kind = .namespace ∨ c.kind = .ref .builtinStructure ∨ n.kind = .archive ∧ c.kind = .ref .constantValue) → g c = none) :
    n.children.filterMap g = (members n).filterMap g := by
  unfold members
  rw [List.filterMap_filter]
  apply List.filterMap_congr
  intro c hcm
  split
  · rfl
  · rename_i hc
    simp only [decide_eq_true_eq, not_not] at hc
    exact h c hcm hc

theorem members_childrenOf {n : Tree} {k : Kind} (h1 : k ≠ .namespace) (h2 : k ≠ .ref .builtinStructure) (h3 : n.kind ≠ .archive) :
    childrenOf n k = (members n).filter fun c => c.kind = k := by
  unfold members childrenOf
  rw [List.filter_filter]
  apply List.filter_congr
  intro c _
  by_cases hk : c.kind = k
  · simp [hk, h1, h2, h3]
  · simp [hk]

/-- An absolute text is what the reference to it has as its target. -/
theorem refers_abs {t : Tree} {p : Path} {d : RefKind × Text} {r : Tree} (h : RefersAs t p d r) (hd : d.2.head? = some '.') : (r.kind, r.target) = (.ref d.1, d.2) := by
  obtain ⟨q, m, h1, h2, _⟩ := h.target
  rw [h.kind, h2]
  generalize hx : d.2 = x at h1 hd
  cases h1 with
  | absolute => rfl
  | inDefinition hrel => exact absurd hd hrel
  | inNamespace hrel => exact absurd hd hrel

theorem means_abs {t : Tree} {p : Path} {x : Text} {q : Path} (h : Means t p x q) (hd : x.head? = some '.') : x = pathText q := by
  cases h with
  | absolute => rfl
  | inDefinition hrel => exact absurd hd hrel
  | inNamespace hrel => exact absurd hd hrel

theorem refers_all {t : Tree} {p : Path} {ds : List (RefKind × Text)} {l : List Tree} (h : List.Forall₂ (RefersAs t p) ds l) (hd : ∀ d ∈ ds, d.2.head? = some '.') :
    l.map (fun r => (r.kind, r.target)) = ds.map fun d => (Kind.ref d.1, d.2) := by
  induction h with
  | nil => rfl
  | @cons d r ds l hr _ ih =>
    rw [List.map_cons, List.map_cons, refers_abs hr (hd d (by simp)), ih (fun d hd' => hd d (by simp [hd']))]

theorem targets_of {l : List Tree} {k : Kind} : (l.filter fun c => c.kind = k).map Tree.target = ((l.map fun r => (r.kind, r.target)).filter fun x => x.1 = k).map (·.2) := by
  induction l with
  | nil => rfl
  | cons c l ih =>
    by_cases hk : c.kind = k
    · simp [List.filter_cons, hk, ih]
    · simp [List.filter_cons, hk, ih]

theorem filter_refs {ds : List (RefKind × Text)} {rk : RefKind} : ((ds.map fun d => (Kind.ref d.1, d.2)).filter fun x => x.1 = .ref rk).map (·.2) = (ds.filter fun d => d.1 = rk).map (·.2) := by
  induction ds with
  | nil => rfl
  | cons c l ih =>
    by_cases hk : c.1 = rk
    · simp [List.filter_cons, hk, ih]
    · simp [List.filter_cons, hk, ih]

/-- The targets of the references of a class. -/
theorem targets_members {t : Tree} {p : Path} {ds : List (RefKind × Text)} {n : Tree} (h : List.Forall₂ (RefersAs t p) ds (members n)) (hd : ∀ d ∈ ds, d.2.head? = some '.')
    {rk : RefKind} (h2 : rk ≠ .builtinStructure) (h3 : n.kind ≠ .archive) :
    (childrenOf n (.ref rk)).map Tree.target = (ds.filter fun d => d.1 = rk).map (·.2) := by
  rw [members_childrenOf (by simp) (by simpa using h2) h3, targets_of, refers_all h hd, filter_refs]

/-! ## Enumerations and constants -/

theorem enum_same {m n : Tree} {b : BasicType} (ha : EnumAs (enumerationRecord m b) n) : definitionRecord n = some (.enumeration (enumerationRecord m b)) := by
  unfold definitionRecord
  have hkind := ha.kind
  rw [hkind]
  have hval := enum_values ha
  have hex : ∀ (l : List (Text × Option Int)) c, (∀ x ∈ l, x.2.isSome = true) → writtenOut l (assign l c) = l := by
    intro l
    induction l with
    | nil => intro c _; rfl
    | cons x l ih =>
      intro c hl
      have h1 := hl x (by simp)
      obtain ⟨k, v⟩ := x
      cases v with
      | none => cases h1
      | some v =>
        have := ih (v + 1) (fun x hx => hl x (by simp [hx]))
        simp only [assign, writtenOut, List.zipWith_cons_cons] at this ⊢
        simpa using this
  have hall : ∀ x ∈ (enumerationRecord m b).values, x.2.isSome = true := by
    intro x hx
    obtain ⟨c, _, hc⟩ := List.mem_filterMap.mp hx
    unfold enumValueRecord at hc
    split at hc
    · simp only [Option.some.injEq] at hc; subst hc; rfl
    · cases hc
  rw [hex _ 0 hall] at hval
  simp only [enumerationRecord, Option.getD_some] at hval ⊢
  rw [hval]
  have := ha.name
  simp only [enumerationRecord] at this
  rw [this]

theorem constant_same {c : PConstant} {n : Tree} (ha : ConstantAs c n) : definitionRecord n = some (.constant c) := by
  unfold definitionRecord
  rw [ha.kind]
  simp only [ha.name]

/-! ## Structures -/

theorem declaredRange_record {f : Tree} {rg : Option Text} {pf : PField} (h : pf.decorations = fieldDecorations f rg) : declaredRange pf = rg := by
  unfold declaredRange
  rw [h]
  unfold fieldDecorations
  cases rg with
  | some r => rfl
  | none =>
    rw [List.findSome?_eq_none_iff]
    intro x hx
    simp only [Option.toList_none, List.map_nil, List.nil_append, List.mem_append, List.mem_map] at hx
    rcases hx with ⟨_, _, rfl⟩ | ⟨_, _, rfl⟩ <;> rfl

theorem decorationRefs_record {f : Tree} {rg : Option Text} {pf : PField} (h : pf.decorations = fieldDecorations f rg) :
    decorationRefs pf = (childrenOf f (.ref .constantValue)).map (fun r => (.constantValue, r.target)) ++ (childrenOf f (.ref .invalidValue)).map (fun r => (.invalidValue, r.target)) := by
  unfold decorationRefs
  rw [h]
  unfold fieldDecorations
  simp [List.filterMap_append, List.filterMap_map, Function.comp_def]

theorem basic_no_dot (b : BasicName) : b.text.head? ≠ some '.' := by cases b <;> decide +kernel

theorem filter_fst_ne {α : Type} {l : List α} {f : α → Text} {a b : RefKind} (h : a ≠ b) : ((l.map fun r => (a, f r)).filter fun d => d.1 = b) = [] := by
  induction l <;> simp_all

theorem filter_fst_eq {α : Type} {l : List α} {f : α → Text} {a : RefKind} : ((l.map fun r => (a, f r)).filter fun d => d.1 = a) = l.map fun r => (a, f r) := by
  induction l <;> simp_all

theorem field_same {t t' : Tree} (hc : Compiled t) (hc' : Compiled t') {p : Path} {c0 : Tree} (h0 : t.descend p = some c0) {pf : PField} (hr : fieldRecord c0 = some pf)
    {p' : Path} {c : Tree} (hfa : FieldAs t' p' pf c)
    (hen : ∀ r ∈ c0.children, ∀ w, r.kind = .ref (.enumeration w) → ∀ n b, t.descend r.targetPath = some n → n.kind = .enumeration b → ∃ n', t'.descend r.targetPath = some n' ∧ n'.kind = .enumeration b) :
    fieldRecord c = some pf := by
  obtain ⟨ty0, rg, o0, hk0⟩ : ∃ ty rg o, c0.kind = .field ty rg o := by
    unfold fieldRecord at hr
    split at hr <;> first | exact ⟨_, _, _, ‹_›⟩ | cases hr
  have hdec : pf.decorations = fieldDecorations c0 rg := by
    unfold fieldRecord at hr
    rw [hk0] at hr
    cases ty0 <;> simp only [Option.some.injEq, reduceCtorEq] at hr <;> rw [← hr]
  obtain ⟨ty, off, refs, hk, hty, hall⟩ := hfa.is
  rw [declaredRange_record hdec] at hk
  have htarget : ∀ rk, ∀ r ∈ childrenOf c0 (.ref rk), r.target.head? = some '.' := by
    intro rk r hr'
    obtain ⟨h1, h2⟩ := List.mem_filter.mp hr'
    obtain ⟨m, _, _, _, _, _, h3⟩ := hc.target (hc.child h0 h1) (by simpa using h2)
    exact h3
  have hnarch : c.kind ≠ .archive := by rw [hk]; simp
  -- decorations of the same constants
  have hdeco : (∀ d ∈ refs, d.2.head? = some '.' ∧ d.1 ≠ .constantValue ∧ d.1 ≠ .invalidValue) → fieldDecorations c rg = fieldDecorations c0 rg := by
    intro hrefs
    have habs : ∀ d ∈ decorationRefs pf ++ refs, d.2.head? = some '.' := by
      intro d hd
      rcases List.mem_append.mp hd with hd | hd
      · rw [decorationRefs_record hdec, List.mem_append, List.mem_map, List.mem_map] at hd
        rcases hd with ⟨r, h1, rfl⟩ | ⟨r, h1, rfl⟩ <;> exact htarget _ r h1
      · exact (hrefs d hd).1
    have e1 := targets_members hall habs (rk := .constantValue) (by simp) hnarch
    have e2 := targets_members hall habs (rk := .invalidValue) (by simp) hnarch
    have f1 : refs.filter (fun d => d.1 = .constantValue) = [] := by
      rw [List.filter_eq_nil_iff]; intro d hd; simpa using (hrefs d hd).2.1
    have f2 : refs.filter (fun d => d.1 = .invalidValue) = [] := by
      rw [List.filter_eq_nil_iff]; intro d hd; simpa using (hrefs d hd).2.2
    rw [List.filter_append, decorationRefs_record hdec, List.filter_append, f1, filter_fst_eq, filter_fst_ne (by simp), List.append_nil, List.append_nil, List.map_map] at e1
    rw [List.filter_append, decorationRefs_record hdec, List.filter_append, f2, filter_fst_eq, filter_fst_ne (by simp), List.append_nil, List.nil_append, List.map_map] at e2
    have g1 : (childrenOf c (.ref .constantValue)).map (fun r => PFieldDeco.constRef r.target) = (childrenOf c0 (.ref .constantValue)).map (fun r => PFieldDeco.constRef r.target) := by
      have := congrArg (List.map PFieldDeco.constRef) e1
      rw [List.map_map, List.map_map] at this
      exact this
    have g2 : (childrenOf c (.ref .invalidValue)).map (fun r => PFieldDeco.invalidValue r.target) = (childrenOf c0 (.ref .invalidValue)).map (fun r => PFieldDeco.invalidValue r.target) := by
      have := congrArg (List.map PFieldDeco.invalidValue) e2
      rw [List.map_map, List.map_map] at this
      exact this
    unfold fieldDecorations
    rw [g1, g2]
  unfold fieldRecord at hr ⊢
  rw [hk0] at hr
  rw [hk]
  have hname := hfa.name
  cases hty with
  | @basic b hb hw =>
    dsimp only
    rw [hdeco (by simp)]
    cases ty0 with
    | basic b0 =>
      simp only [Option.some.injEq] at hr ⊢
      subst hr
      simp only [Option.getD_some] at hb hname ⊢
      rw [hname, hb]
    | enum nm b0 =>
      exfalso
      rcases hc.typed p c0 _ _ _ h0 hk0 with ⟨b', hb'⟩ | ⟨ref, hmem, w, m, b', g1, g2, g3, g4⟩
      · cases hb'
      · cases g4
        simp only [Option.some.injEq] at hr
        obtain ⟨_, _, _, _, _, _, hh⟩ := hc.target (hc.child h0 hmem) g1
        rw [← hr] at hb
        exact basic_no_dot b (hb ▸ hh)
    | none => cases hr
  | @enumeration q m' bt nm hb hq hm hkm hn hw =>
    cases ty0 with
    | basic b0 =>
      simp only [Option.some.injEq] at hr
      exact absurd (by rw [← hr]) (hb b0.name)
    | enum nm0 b0 =>
      rcases hc.typed p c0 _ _ _ h0 hk0 with ⟨b', hb'⟩ | ⟨ref, hmem, w, m, b', g1, g2, g3, g4⟩
      · cases hb'
      · cases g4
        simp only [Option.some.injEq] at hr
        obtain ⟨_, _, _, _, hpt, _, hh⟩ := hc.target (hc.child h0 hmem) g1
        have htype : pf.type = ref.target := by rw [← hr]; rfl
        have hq' := means_abs hq (by rw [htype]; exact hh)
        dsimp only
        rw [hdeco (by
          intro d hd
          simp only [List.mem_singleton] at hd
          subst hd
          exact ⟨by rw [htype]; exact hh, by simp, by simp⟩)]
        have hqp : q = ref.targetPath := by
          apply pathText_inj (descend_nodot hc'.lk.good hm) (descend_nodot hc.lk.good g2)
          rw [← hq', htype, hpt]
        obtain ⟨n', n1, n2⟩ := hen ref hmem w g1 m _ g2 g3
        rw [hqp, n1] at hm
        cases hm
        rw [hkm] at n2
        injection n2 with n2
        subst n2
        rw [hn, ← hq']
        subst hr
        simp only at hname ⊢
        rw [hname]
    | none => cases hr

theorem structure_same {t t' : Tree} (hc : Compiled t) (hc' : Compiled t') {p : Path} {m : Tree} (hm : t.descend p = some m) {p' : Path} {n : Tree} (hs : StructAs t' p' (structureRecord m) n)
    (hen : ∀ f ∈ m.children, ∀ r ∈ f.children, ∀ w, r.kind = .ref (.enumeration w) → ∀ n b, t.descend r.targetPath = some n → n.kind = .enumeration b →
      ∃ n', t'.descend r.targetPath = some n' ∧ n'.kind = .enumeration b) :
    definitionRecord n = some (.struct (structureRecord m)) := by
  obtain ⟨sz, hk⟩ := hs.kind
  unfold definitionRecord
  rw [hk]
  have hname := hs.name
  have : n.children.filterMap fieldRecord = m.children.filterMap fieldRecord := by
    rw [members_filterMap (fun c _ hc => by unfold fieldRecord; rcases hc with hc | hc | ⟨_, hc⟩ <;> rw [hc])]
    refine filterMap_forall₂ hs.fields fun pf hpf c hcm hfa => ?_
    obtain ⟨c0, hc0, hr⟩ := List.mem_filterMap.mp hpf
    exact field_same hc hc' (hc.child hm hc0) hr hfa (hen c0 hc0)
  simp only [structureRecord] at hname ⊢
  rw [this, hname]

/-! ## Archives -/

theorem targets_list {t : Tree} {p : Path} {ds : List (RefKind × Text)} {l : List Tree} (h : List.Forall₂ (RefersAs t p) ds l) (hd : ∀ d ∈ ds, d.2.head? = some '.')
    {rk : RefKind} : (l.filter fun c => c.kind = .ref rk).map Tree.target = (ds.filter fun d => d.1 = rk).map (·.2) := by
  rw [targets_of, refers_all h hd, filter_refs]

theorem head_append {a b : Text} (h : a.head? = some '.') : (a ++ b).head? = some '.' := by
  cases a with
  | nil => cases h
  | cons c a => exact h

theorem single_of_map {l : List Tree} {x : Text} (h : l.map Tree.target = [x]) : ∃ r, l = [r] ∧ r.target = x := by
  match l, h with
  | [r], h => exact ⟨r, rfl, by simpa using h⟩

theorem explicit_same {t' : Tree} {p' : Path} {x : Text × Text × Text} {c : Tree} (h : ExplicitAs t' p' x c) (h1 : x.1.head? = some '.') (h2 : x.2.2.head? = some '.') (h3 : '.' ∉ x.2.1) :
    explicitRecord c = some (.explicitReference x.1 x.2.1 x.2.2) := by
  have hn : c.kind ≠ .archive := by rw [h.kind]; simp
  have habs : ∀ d ∈ ([(.resource, x.2.2), (.field, x.1 ++ '.' :: x.2.1), (.structure, x.1)] : List (RefKind × Text)), d.2.head? = some '.' := by
    intro d hd
    simp only [List.mem_cons, List.not_mem_nil, or_false] at hd
    rcases hd with rfl | rfl | rfl
    · exact h2
    · exact head_append h1
    · exact h1
  obtain ⟨s, s1, s2⟩ := single_of_map (targets_members h.refs habs (rk := .structure) (by simp) hn)
  obtain ⟨f, f1, f2⟩ := single_of_map (targets_members h.refs habs (rk := .field) (by simp) hn)
  obtain ⟨d, d1, d2⟩ := single_of_map (targets_members h.refs habs (rk := .resource) (by simp) hn)
  unfold explicitRecord
  rw [s1, f1, d1]
  simp only
  rw [s2, d2]
  have : f.targetPath.getLastD [] = x.2.1 := by
    unfold Tree.targetPath
    rw [f2, splitDot_snoc h3, List.tail_append_of_ne_nil (splitDot_ne_nil _)]
    simp
  rw [this]

theorem bound_same {t t' : Tree} (hc : Compiled t) {p : Path} {c0 : Tree} (h0 : t.descend p = some c0) {g : Text × List Text} (hr : boundRecord c0 = some g)
    {p' : Path} {c : Tree} (h : BoundAs t' p' g c) : boundRecord c = some g := by
  obtain ⟨mx, hk⟩ := h.kind
  have hg : g.2 = (childrenOf c0 (.ref .resource)).map Tree.target := by
    unfold boundRecord at hr
    split at hr
    · simp only [Option.some.injEq] at hr; rw [← hr]
    · cases hr
  unfold boundRecord
  rw [hk]
  simp only
  rw [h.name, targets_members h.members (rk := .resource) ?_ (by simp) (by rw [hk]; simp)]
  · rw [filter_fst_eq, List.map_map]
    simp [Function.comp_def]
  · intro d hd
    obtain ⟨x, hx, rfl⟩ := List.mem_map.mp hd
    rw [hg] at hx
    obtain ⟨r, hr', rfl⟩ := List.mem_map.mp hx
    obtain ⟨e1, e2⟩ := List.mem_filter.mp hr'
    obtain ⟨_, _, _, _, _, _, e3⟩ := hc.target (hc.child h0 e1) (by simpa using e2)
    exact e3

/-- The texts in the type of a resource are absolute. -/
theorem container_abs {t : Tree} (hc : Compiled t) {p : Path} {c0 : Tree} (h0 : t.descend p = some c0) {ty : PResType} (hr : resourceTypeRecord c0 = some ty)
    {k : ResKind} {refs : List (RefKind × Text)} (h : ContainerAs ty k refs) : ∀ d ∈ refs, d.2.head? = some '.' := by
  have htarget : ∀ rk, ∀ x ∈ (childrenOf c0 (.ref rk)).map Tree.target, x.head? = some '.' := by
    intro rk x hx
    obtain ⟨r, hr', rfl⟩ := List.mem_map.mp hx
    obtain ⟨h1, h2⟩ := List.mem_filter.mp hr'
    obtain ⟨m, _, _, _, _, _, h3⟩ := hc.target (hc.child h0 h1) (by simpa using h2)
    exact h3
  unfold resourceTypeRecord at hr
  simp only at hr
  intro d hd
  split at hr
  · rename_i e; cases hr; cases h; simp only [List.mem_singleton] at hd; subst hd; exact htarget _ _ (by rw [e]; simp)
  · rename_i e; cases hr; cases h; simp only [List.mem_singleton] at hd; subst hd; exact htarget _ _ (by rw [e]; simp)
  · cases hr; cases h
    obtain ⟨x, hx, rfl⟩ := List.mem_map.mp hd
    exact htarget _ _ hx
  · cases hr; cases h; cases hd
  · split at hr
    · rename_i a e
      cases hr; cases h; simp only [List.mem_singleton] at hd; subst hd; exact htarget .archive _ (by rw [e]; simp)
    · cases hr
  · cases hr

/-- The parts of an explicit reference. -/
def triple : PResDeco → Option (Text × Text × Text)
  | .optional => none
  | .explicitReference s f d => some (s, f, d)

theorem explicitReferences_triple (r : PResource) : explicitReferences r = r.decorations.filterMap triple := by
  unfold explicitReferences
  apply List.filterMap_congr
  intro d _
  cases d <;> rfl

theorem resource_same {t t' : Tree} (hc : Compiled t) {p : Path} {c0 : Tree} (h0 : t.descend p = some c0) {pr : PResource} (hr : resourceRecord c0 = some pr)
    {p' : Path} {c : Tree} (h : ResourceAs t' p' pr c) : resourceRecord c = some pr := by
  obtain ⟨k, mx, refs, es, rs, hcon, hk, hmem, hes, hrs⟩ := h.is
  obtain ⟨ty, hty, hname, htype, hdec⟩ : ∃ ty, resourceTypeRecord c0 = some ty ∧ pr.name = c0.name ∧ pr.type = ty ∧
      pr.decorations = (childrenOf c0 .explicitReference).filterMap explicitRecord ++ (if isOptionalResource c0.kind then [.optional] else []) := by
    unfold resourceRecord at hr
    split at hr
    · rename_i ty hty
      simp only [Option.some.injEq] at hr
      exact ⟨ty, hty, by rw [← hr], by rw [← hr], by rw [← hr]⟩
    · cases hr
  rw [htype] at hcon
  have habs := container_abs hc h0 hty hcon
  have hna : c.kind ≠ .archive := by rw [hk]; simp
  have hek : ∀ e ∈ es, e.kind = .explicitReference := fun e he => by
    obtain ⟨x, _, hx⟩ := forall₂_mem_right hes he
    exact hx.kind
  have hrk : ∀ e ∈ rs, ∃ rk, e.kind = .ref rk := fun e he => by
    obtain ⟨x, _, hx⟩ := forall₂_mem_right hrs he
    exact ⟨_, hx.kind⟩
  have hex : childrenOf c .explicitReference = es := by
    rw [members_childrenOf (by simp) (by simp) hna, hmem, List.filter_append, List.filter_eq_self.mpr (by simpa using hek), List.filter_eq_nil_iff.mpr, List.append_nil]
    intro e he
    obtain ⟨rk, e1⟩ := hrk e he
    simp [e1]
  have href : ∀ rk, rk ≠ .builtinStructure → (childrenOf c (.ref rk)).map Tree.target = (refs.filter fun d => d.1 = rk).map (·.2) := by
    intro rk hne
    rw [members_childrenOf (by simp) (by simpa using hne) hna, hmem, List.filter_append, List.filter_eq_nil_iff.mpr, List.nil_append, targets_list hrs habs]
    intro e he
    simp [hek e he]
  -- explicit references
  have hexr : ∀ d ∈ (childrenOf c0 .explicitReference).filterMap explicitRecord, ∃ s f x, d = .explicitReference s f x ∧ s.head? = some '.' ∧ x.head? = some '.' ∧ '.' ∉ f := by
    intro d hd
    obtain ⟨e, he, hd⟩ := List.mem_filterMap.mp hd
    obtain ⟨he1, he2⟩ := List.mem_filter.mp he
    have hed := hc.child h0 he1
    unfold explicitRecord at hd
    split at hd
    · rename_i s f x hs hf hx
      simp only [Option.some.injEq] at hd
      have hsm : s ∈ childrenOf e (.ref .structure) := by rw [hs]; simp
      have hxm : x ∈ childrenOf e (.ref .resource) := by rw [hx]; simp
      obtain ⟨s1, s2⟩ := List.mem_filter.mp hsm
      obtain ⟨x1, x2⟩ := List.mem_filter.mp hxm
      obtain ⟨_, _, _, _, _, _, s3⟩ := hc.target (hc.child hed s1) (by simpa using s2)
      obtain ⟨_, _, _, _, _, _, x3⟩ := hc.target (hc.child hed x1) (by simpa using x2)
      refine ⟨_, _, _, hd.symm, s3, x3, ?_⟩
      have hparts : ∀ w ∈ f.targetPath, '.' ∉ w := fun w hw => splitDot_parts _ w (List.mem_of_mem_tail hw)
      cases hl : f.targetPath using List.reverseRecOn with
      | nil => simp
      | append_singleton l w _ => rw [getLast_mem_path]; exact hparts w (by rw [hl]; simp)
    · cases hd
  have hlist : ∀ l : List PResDeco, (∀ d ∈ l, ∃ s f x, d = .explicitReference s f x ∧ s.head? = some '.' ∧ x.head? = some '.' ∧ '.' ∉ f) →
      (l.filterMap triple).map (fun x : Text × Text × Text => PResDeco.explicitReference x.1 x.2.1 x.2.2) = l ∧
      PResDeco.optional ∉ l ∧ ∀ x ∈ l.filterMap triple, x.1.head? = some '.' ∧ x.2.2.head? = some '.' ∧ '.' ∉ x.2.1 := by
    intro l
    induction l with
    | nil => intro _; simp
    | cons d l ih =>
      intro hl
      obtain ⟨i1, i2, i3⟩ := ih (fun d hd => hl d (by simp [hd]))
      obtain ⟨s, f, x, rfl, a1, a2, a3⟩ := hl d (by simp)
      refine ⟨by simp [triple, i1], by simp [i2], ?_⟩
      intro y hy
      simp only [List.filterMap_cons, triple, List.mem_cons] at hy
      rcases hy with rfl | hy
      · exact ⟨a1, a2, a3⟩
      · exact i3 y hy
  obtain ⟨l1, l2, l3⟩ := hlist _ hexr
  have hexs : explicitReferences pr = ((childrenOf c0 .explicitReference).filterMap explicitRecord).filterMap triple := by
    rw [explicitReferences_triple, hdec, List.filterMap_append]
    cases isOptionalResource c0.kind <;> simp [triple]
  have hes' : es.filterMap explicitRecord = (childrenOf c0 .explicitReference).filterMap explicitRecord := by
    rw [hexs] at hes
    rw [← l1]
    have : List.Forall₂ (fun a b => explicitRecord b = some a)
        ((((childrenOf c0 .explicitReference).filterMap explicitRecord).filterMap triple).map fun x : Text × Text × Text => PResDeco.explicitReference x.1 x.2.1 x.2.2) es := by
      rw [List.forall₂_map_left_iff]
      generalize (((childrenOf c0 .explicitReference).filterMap explicitRecord).filterMap triple) = l at hes l3
      clear hmem hek hex hexs
      induction hes with
      | nil => exact .nil
      | @cons x e l es hx _ ih =>
        obtain ⟨b1, b2, b3⟩ := l3 x (by simp)
        exact .cons (explicit_same hx b1 b2 b3) (ih (fun x hx => l3 x (by simp [hx])))
    exact filterMap_forall₂ this fun _ _ _ _ h => h
  have hopt : isOptionalResource c.kind = isOptionalResource c0.kind := by
    have hd : decide (PResDeco.optional ∈ pr.decorations) = isOptionalResource c0.kind := by
      rw [hdec]
      cases isOptionalResource c0.kind <;> simp [l2]
    rw [hk]
    exact hd
  have htyc : resourceTypeRecord c = some ty := by
    unfold resourceTypeRecord
    simp only
    rw [hk, href .structure (by simp)]
    cases hcon with
    | vector => simp
    | multivector => simp only [filter_fst_eq (f := fun s : Text => s), List.map_map, Function.comp_def, List.map_id']
    | object => simp
    | rawData => simp
    | @archive a =>
      obtain ⟨r, r1, r2⟩ := single_of_map (href .archive (by simp))
      simp only [r1, r2]
  unfold resourceRecord
  rw [htyc]
  simp only
  rw [hex, hes', hopt, ← hdec, h.name]
  obtain ⟨a, b, d⟩ := pr
  simp only at htype
  rw [htype]

theorem archive_same {t t' : Tree} (hc : Compiled t) {p : Path} {m : Tree} (hm : t.descend p = some m) {p' : Path} {n : Tree} (hs : ArchiveAs t' p' (archiveRecord m) n) :
    definitionRecord n = some (.archive (archiveRecord m)) := by
  unfold definitionRecord
  rw [hs.kind]
  obtain ⟨rs, gs, h1, h2, h3⟩ := hs.resources
  have hrk : ∀ r ∈ rs, ∃ k o mx, r.kind = .resource k o mx ∧ k ≠ .bound := by
    intro r hr
    obtain ⟨x, _, hx⟩ := forall₂_mem_right h2 hr
    obtain ⟨k, mx, refs, es, rs, hcon, hk, _⟩ := hx.is
    refine ⟨k, _, mx, hk, ?_⟩
    generalize x.type = ty at hcon
    cases hcon <;> simp
  have hgk : ∀ r ∈ gs, ∃ mx, r.kind = .resource .bound false mx := by
    intro r hr
    obtain ⟨x, _, hx⟩ := forall₂_mem_right h3 hr
    exact hx.kind
  have e1 : n.children.filterMap boundRecord = m.children.filterMap boundRecord := by
    rw [members_filterMap (fun c _ hc => by unfold boundRecord; rcases hc with hc | hc | ⟨_, hc⟩ <;> rw [hc]), h1, List.filterMap_append,
      List.filterMap_eq_nil_iff.mpr, List.nil_append]
    · refine filterMap_forall₂ h3 fun g hg c hcm hb => ?_
      obtain ⟨c0, hc0, hr⟩ := List.mem_filterMap.mp hg
      exact bound_same hc (hc.child hm hc0) hr hb
    · intro r hr
      obtain ⟨k, o, mx, hk, hne⟩ := hrk r hr
      unfold boundRecord
      rw [hk]
      cases k <;> simp_all
  have e2 : n.children.filterMap resourceRecord = m.children.filterMap resourceRecord := by
    rw [members_filterMap (fun c _ hc => by unfold resourceRecord resourceTypeRecord; rcases hc with hc | hc | ⟨_, hc⟩ <;> rw [hc]), h1, List.filterMap_append,
      List.filterMap_eq_nil_iff (l := gs) |>.mpr, List.append_nil]
    · refine filterMap_forall₂ h2 fun g hg c hcm hb => ?_
      obtain ⟨c0, hc0, hr⟩ := List.mem_filterMap.mp hg
      exact resource_same hc (hc.child hm hc0) hr hb
    · intro r hr
      obtain ⟨mx, hk⟩ := hgk r hr
      unfold resourceRecord resourceTypeRecord
      rw [hk]
  have hname := hs.name
  simp only [archiveRecord] at hname ⊢
  rw [e1, e2, hname]

end Gen
