import Verif.Props.Gen.Declared
import Verif.Props.Gen.Index

/-! # C66: nothing but what the schema declares -/

namespace Props
open Gen Spec

/-- A definition at `q` of `t'` is in `t` or at `x`. -/
def DefsBack (x : Path) (t t' : Tree) : Prop :=
  ∀ q n', t'.descend q = some n' → Spec.Kind.isDefinition n'.kind = true → (∃ n, t.descend q = some n) ∨ q = x

/-- The only definition in the tree is at `x`. -/
def OnlyAt (x : Path) (t : Tree) : Prop := ∀ q n, t.descend q = some n → Spec.Kind.isDefinition n.kind = true → q = x

theorem defsBack_append {k : Text} {x : Path} {t : Tree} {ds : List Tree} (hd : ∀ d ∈ ds, d.name = k ∧ OnlyAt x d) :
    DefsBack (k :: x) t (.mk t.name t.kind (t.children ++ ds)) := by
  intro q n' hn hdef
  cases q with
  | nil => exact .inl ⟨t, rfl⟩
  | cons j q =>
    simp only [Tree.descend] at hn ⊢
    cases hk : (Tree.mk t.name t.kind (t.children ++ ds)).child j with
    | none => rw [hk] at hn; cases hn
    | some c =>
      rw [hk] at hn
      cases ht : t.child j with
      | some c0 =>
        have := child_appended (ds := ds) (by rw [Tree.eta]; exact ht : (Tree.mk t.name t.kind t.children).child j = some c0)
        rw [hk] at this; cases this
        exact .inl ⟨n', hn⟩
      | none =>
        right
        obtain ⟨h1, h2⟩ := child_some hk
        rcases List.mem_append.mp h1 with h1 | h1
        · exact absurd (h2 ▸ List.mem_map_of_mem h1) (child_none.mp ht)
        · obtain ⟨e1, e2⟩ := hd c h1
          rw [e2 q n' hn hdef, ← h2, e1]

theorem defsBack_setChild {x : Path} {t c c' : Tree} {k : Text} (hc : t.child k = some c) (hn : c'.name = c.name)
    (h : DefsBack x c c') : DefsBack (k :: x) t (t.setChild c') := by
  intro q n' hq hdef
  cases q with
  | nil => exact .inl ⟨t, rfl⟩
  | cons j q =>
    simp only [Tree.descend] at hq ⊢
    rw [child_setChild hc (hn.trans (child_some hc).2)] at hq
    by_cases hj : j = k
    · subst hj
      rw [if_pos rfl] at hq
      rw [hc]
      rcases h q n' hq hdef with h | h
      · exact .inl h
      · exact .inr (by rw [h])
    · rw [if_neg hj] at hq
      exact .inl ⟨n', hq⟩

theorem onlyAt_wrap {k : Text} {x : Path} {n : Text} {kd : Kind} {ds : List Tree} (hk : Spec.Kind.isDefinition kd = false)
    (hd : ∀ d ∈ ds, d.name = k ∧ OnlyAt x d) : OnlyAt (k :: x) (.mk n kd ds) := by
  intro q m hm hdef
  cases q with
  | nil => simp only [Tree.descend, Option.some.injEq] at hm; subst hm; simp only [Tree.kind] at hdef; rw [hk] at hdef; cases hdef
  | cons j q =>
    simp only [Tree.descend] at hm
    cases hj : (Tree.mk n kd ds).child j with
    | none => rw [hj] at hm; cases hm
    | some c =>
      rw [hj] at hm
      obtain ⟨h1, h2⟩ := child_some hj
      obtain ⟨e1, e2⟩ := hd c h1
      rw [e2 q m hm hdef, ← h2, e1]

theorem defsBack_ensure {k : Text} {f : Tree → M Tree}
    (hf : ∀ n n', f n = .ok n' → ∃ ds, n' = .mk n.name n.kind (n.children ++ ds) ∧ ∀ d ∈ ds, d.name = k ∧ OnlyAt [] d)
    {keys : List Text} : ∀ {t t' : Tree}, t.ensureNamespace f keys = .ok t' → DefsBack (keys ++ [k]) t t' := by
  have hsame : ∀ n n', f n = .ok n' → n'.kind = n.kind ∧ n'.name = n.name := by
    intro n n' h; obtain ⟨ds, rfl, _⟩ := hf n n' h; exact ⟨rfl, rfl⟩
  have nested : ∀ (ks : List Text) (j : Text) (u : Tree), nestedNamespaces f j ks = .ok u → u.name = j ∧ OnlyAt (ks ++ [k]) u := by
    intro ks
    induction ks with
    | nil =>
      intro j u h
      obtain ⟨t0, h0, h⟩ := bind_ok h
      obtain ⟨rfl, _⟩ := create_ok h0
      obtain ⟨ds, rfl, hd⟩ := hf _ _ h
      exact ⟨rfl, onlyAt_wrap rfl (by simpa [Tree.children] using hd)⟩
    | cons k' ks ih =>
      intro j u h
      obtain ⟨c, hc, h⟩ := bind_ok h
      obtain ⟨t0, h0, h⟩ := bind_ok h
      obtain ⟨rfl, _⟩ := create_ok h0
      obtain ⟨_, rfl⟩ := insert_ok h
      exact ⟨rfl, onlyAt_wrap rfl (by simpa [Tree.children] using ih _ _ hc)⟩
  induction keys with
  | nil =>
    intro t t' h
    simp only [Tree.ensureNamespace] at h
    split at h
    · obtain ⟨ds, rfl, hd⟩ := hf _ _ h
      exact defsBack_append hd
    · cases h
  | cons j ks ih =>
    intro t t' h
    simp only [Tree.ensureNamespace] at h
    cases hc : t.child j with
    | some c =>
      rw [hc] at h
      obtain ⟨c', h1, h⟩ := bind_ok h
      cases h
      exact defsBack_setChild hc (ensure_same hsame h1).2 (ih h1)
    | none =>
      rw [hc] at h
      obtain ⟨u, hu, h⟩ := bind_ok h
      obtain ⟨_, rfl⟩ := insert_ok h
      exact defsBack_append (by simpa using nested _ _ _ hu)

theorem insert_builtin_only {w : Nat} (n n' : Tree) (hf : (do
    let builtin ← createStruct (indexTypeDef w)
    if (n.child builtin.name).isSome then pure n else n.insert builtin : M Tree) = .ok n') :
    ∃ ds, n' = .mk n.name n.kind (n.children ++ ds) ∧ ∀ d ∈ ds, d.name = indexTypeName w ∧ OnlyAt [] d := by
  obtain ⟨b, hb, hf⟩ := bind_ok hf
  split at hf
  · cases hf; exact ⟨[], by rw [List.append_nil, Tree.eta], by simp⟩
  · obtain ⟨_, rfl⟩ := insert_ok hf
    refine ⟨[b], rfl, ?_⟩
    intro d hd
    simp only [List.mem_singleton] at hd
    subst hd
    have := indexType_create hb
    subst this
    refine ⟨rfl, ?_⟩
    intro q m hm hdef
    cases q with
    | nil => rfl
    | cons k q =>
      exfalso
      simp only [Tree.descend] at hm
      split at hm
      · rename_i c hc
        obtain ⟨h1, _⟩ := child_some hc
        simp only [Tree.children, List.mem_singleton] at h1
        subst h1
        cases q with
        | nil => simp only [Tree.descend, Option.some.injEq] at hm; subst hm; simp [Tree.kind, indexField, Spec.Kind.isDefinition] at hdef
        | cons j q => simp [Tree.descend, Tree.child, Tree.children] at hm
      · cases hm

theorem appendBuiltin_defs {t t' : Tree} (hg : Good t) {p : Path} {w : Nat} (h : appendBuiltin t p w = .ok t') : DefsBack (builtinKeys p ++ [indexTypeName w]) t t' := by
  unfold appendBuiltin at h
  obtain ⟨t1, h1, h⟩ := bind_ok h
  obtain ⟨r, h2, h⟩ := bind_ok h
  obtain ⟨rfl, _⟩ := create_ok h2
  have hb1 := defsBack_ensure insert_builtin_only h1
  have hb2 : Back (fun n => ∃ k, n.kind = .ref k) t1 t' := back_insertAt (every_of ⟨_, rfl⟩ (by simp [Tree.children])) h
  have hs : ∀ q n, t1.descend q = some n → ∃ n2, t'.descend q = some n2 ∧ n2.kind = n.kind := by
    intro q n hn
    obtain ⟨n2, _, a1, _, a3, _⟩ := grows_insertAt (ensure_good insert_builtin_good _ _ _ hg h1) h q n hn
    exact ⟨n2, a1, a3⟩
  intro q n' hq hdef
  rcases hb2 q n' hq with ⟨n, hn⟩ | ⟨k, hk⟩
  · refine hb1 q n hn ?_
    obtain ⟨n2, g1, g2⟩ := hs q n hn
    rw [hq] at g1; cases g1
    rw [← g2]; exact hdef
  · rw [hk] at hdef; cases hdef

theorem foldlM_defs {l : List (Path × Nat)} : ∀ {t t' : Tree}, Good t → l.foldlM (fun r e => appendBuiltin r e.1 e.2) t = .ok t' →
    ∀ q n', t'.descend q = some n' → Spec.Kind.isDefinition n'.kind = true → (∃ n, t.descend q = some n) ∨ ∃ e ∈ l, q = builtinKeys e.1 ++ [indexTypeName e.2] := by
  induction l with
  | nil =>
    intro t t' _ h q n' hq _
    simp only [List.foldlM_nil, pure, Except.pure, Except.ok.injEq] at h; subst h
    exact .inl ⟨n', hq⟩
  | cons e l ih =>
    intro t t' hg h q n' hq hd
    simp only [List.foldlM_cons] at h
    obtain ⟨t1, h1, h⟩ := bind_ok h
    obtain ⟨hg1, hgr1⟩ := appendBuiltin_grows hg h1
    rcases ih hg1 h q n' hq hd with ⟨n, hn⟩ | ⟨x, hx, he⟩
    · have hk : n'.kind = n.kind := by
        have : ∀ {l : List (Path × Nat)} {t t' : Tree}, Good t → l.foldlM (fun r e => appendBuiltin r e.1 e.2) t = .ok t' →
            ∀ q n, t.descend q = some n → ∃ n', t'.descend q = some n' ∧ n'.kind = n.kind := by
          intro l
          induction l with
          | nil =>
            intro t t' _ h q n hn
            simp only [List.foldlM_nil, pure, Except.pure, Except.ok.injEq] at h; subst h
            exact ⟨n, hn, rfl⟩
          | cons e l ih =>
            intro t t' hg h q n hn
            simp only [List.foldlM_cons] at h
            obtain ⟨t1, h1, h⟩ := bind_ok h
            obtain ⟨hg1, hgr1⟩ := appendBuiltin_grows hg h1
            obtain ⟨n1, _, a1, _, a3, _⟩ := hgr1 q n hn
            obtain ⟨n2, b1, b2⟩ := ih hg1 h q n1 a1
            exact ⟨n2, b1, b2.trans a3⟩
        obtain ⟨n2, b1, b2⟩ := this hg1 h q n hn
        rw [hq] at b1; cases b1; exact b2
      rcases appendBuiltin_defs hg h1 q n hn (by rw [← hk]; exact hd) with h | h
      · exact .inl h
      · exact .inr ⟨e, by simp, h⟩
    · exact .inr ⟨x, by simp [hx], he⟩

theorem isDefinition_parent {k c : Kind} {ks : List Kind} (h : ChildrenOk k ks) (hc : c ∈ ks) (hd : Spec.Kind.isDefinition c = true) : k = .namespace := by
  unfold ChildrenOk at h
  split at h
  case h_2 => rfl
  all_goals exfalso
  all_goals first
    | (subst h; simp at hc; done)
    | (have := h c hc; cases c <;> simp_all [Spec.Kind.isDefinition, Spec.Kind.isEnumValue, Gen.Kind.isField, Gen.Kind.isConstantReference, Gen.Kind.isResource]; done)
    | (obtain ⟨cs, w, rfl, h⟩ := h
       rcases List.mem_append.mp hc with hc | hc
       · have := h c hc; cases c <;> simp_all [Spec.Kind.isDefinition, Gen.Kind.isConstantReference]
       · simp only [List.mem_singleton] at hc; subst hc; simp [Spec.Kind.isDefinition] at hd
       done)
    | (obtain ⟨n, m, b, rfl⟩ := h
       simp only [List.mem_append, List.mem_replicate] at hc
       rcases hc with (⟨_, rfl⟩ | ⟨_, rfl⟩) | ⟨_, rfl⟩ <;> simp [Spec.Kind.isDefinition] at hd
       done)
    | (obtain ⟨n, rfl⟩ := h
       simp only [List.mem_append, List.mem_replicate, List.mem_singleton] at hc
       rcases hc with ⟨_, rfl⟩ | rfl <;> simp [Spec.Kind.isDefinition] at hd
       done)
    | (obtain ⟨n, rfl⟩ := h
       simp only [List.mem_replicate] at hc
       obtain ⟨_, rfl⟩ := hc; simp [Spec.Kind.isDefinition] at hd
       done)
    | (subst h; simp only [List.mem_cons, List.not_mem_nil, or_false] at hc; rcases hc with rfl | rfl | rfl <;> simp [Spec.Kind.isDefinition] at hd; done)

theorem built_declared {blocks : List PBlock} {t0 : Tree} (h0 : buildNodeTree blocks = .ok t0) {p : Path} {n : Tree} (hn : t0.descend p = some n)
    (hd : Spec.Kind.isDefinition n.kind = true) : DeclaredAt blocks p := by
  have hM := (built_merged h0).1
  rcases List.eq_nil_or_concat p with rfl | ⟨q, k, rfl⟩
  · simp only [Tree.descend, Option.some.injEq] at hn
    subst hn; rw [hM.kind] at hd; cases hd
  · rw [List.concat_eq_append] at hn ⊢
    obtain ⟨m, m1, m2, m3⟩ := descend_parent hn
    have hsm := shaped_descend (built_shaped h0) m1
    have hnn : n.kind ≠ .namespace := fun hk => by rw [hk] at hd; cases hd
    have hmk : m.kind = .namespace := isDefinition_parent hsm.kinds
      (List.mem_filter.mpr ⟨List.mem_map.mpr ⟨n, m2, rfl⟩, by simpa using hnn⟩) hd
    have hin : definitionOf n ∈ definitionsIn m.children := by
      generalize m.children = cs at m2
      induction cs with
      | nil => cases m2
      | cons c cs ih =>
        simp only [definitionsIn]
        rcases List.mem_cons.mp m2 with rfl | m2
        · rw [if_neg hnn]; exact List.mem_cons_self ..
        · split
          · exact ih m2
          · exact List.mem_cons_of_mem _ (ih m2)
    rw [hM.defs _ m m1 hmk] at hin
    obtain ⟨b, hb, hdb⟩ := List.mem_flatMap.mp hin
    simp only [List.mem_filter, decide_eq_true_eq] at hb
    have hdn : (definitionOf n).name = k := by rw [definitionOf_eq]; exact m3
    refine ⟨b, hb.1, k, ?_, by rw [hb.2]⟩
    unfold definitionNodes at hdb
    obtain ⟨c, hc, he⟩ := List.mem_filterMap.mp hdb
    have he : c = .ok (definitionOf n) := by cases c <;> simp [Except.toOption] at he ⊢; exact he
    rw [← hdn]
    simp only [List.mem_append, List.mem_map] at hc ⊢
    rcases hc with ((⟨x, hx, rfl⟩ | ⟨x, hx, rfl⟩) | ⟨x, hx, rfl⟩) | ⟨x, hx, rfl⟩
    · refine .inl (.inl (.inl ⟨x, hx, ?_⟩))
      obtain ⟨r, hr, he⟩ := bind_ok he
      obtain ⟨_, rfl⟩ := (C41_constant_accepted_iff ..).mp hr
      obtain ⟨he, _⟩ := create_ok he
      rw [he]; rfl
    · exact .inl (.inr ⟨x, hx, (createStruct_form he).1.symm⟩)
    · exact .inl (.inl (.inr ⟨x, hx, (createEnum_form he).1.symm⟩))
    · exact .inr ⟨x, hx, (createArchive_form he).1.symm⟩

/-- C66 (nothing else). A definition of the compiled tree is declared by the schema or is the index type of a multivector. -/
theorem C66_only {source : Text} {blocks : List PBlock} {t : Tree} (hs : parseSource source = .ok blocks) (h : Compile source (.ok t))
    {p : Path} {n : Tree} (hn : t.descend p = some n) (hd : Spec.Kind.isDefinition n.kind = true) :
    DeclaredAt blocks p ∨ ∃ q r w o m, t.descend q = some r ∧ r.kind = .resource (.multivector w) o m ∧
      p = q.dropLast.dropLast ++ ["_builtin".toList, "multivector".toList, "IndexType".toList ++ natText w] := by
  obtain ⟨bs, h1, h2, h3⟩ := compile_blocks h
  rw [hs] at h1; cases h1
  obtain ⟨s, _⟩ := buildAst_stages h3
  have hb : ∀ b ∈ blocks, PlainNames b := fun b hb => lexical_plain (h2 b hb)
  have hsame := s.sameCT hb
  obtain ⟨hlc, hgr, hbk⟩ := appendConstantRefs_spec (s.linked hb).1 s.h2
  obtain ⟨nc, c1, c2, c3, _⟩ := hsame.symm.node hn
  have hdc : Spec.Kind.isDefinition nc.kind = true := by rw [blank_isDefinition c3]; exact hd
  obtain ⟨n0, d1, d2⟩ : ∃ n0, s.resolved.descend p = some n0 ∧ nc.kind = n0.kind := by
    rcases hbk _ nc c1 with h | ⟨a, y, _, _, _, _, _, _, hk⟩
    · exact h
    · rw [hk] at hdc; cases hdc
  have hr1 := s.h1
  unfold buildResolved at hr1
  obtain ⟨t0, h0, hr1⟩ := bind_ok hr1
  obtain ⟨t1, hb1, hr1⟩ := bind_ok hr1
  have hm := (built_merged h0).1
  have hr := appendBuiltins_ready ⟨hm.good, (built_named hb h0).1, hm.name, hm.kind⟩ hb1
  obtain ⟨hren, hg', hw'⟩ := resolve_renamed hr.good hr.named hr.name hr1
  have hpat := descend_noat hw' d1 (by intro r hk; rw [d2, hk] at hdc; cases hdc)
  obtain ⟨r1, r2⟩ := renamed_descend hpat hren
  obtain ⟨x, hx⟩ : ∃ x, t1.descend p = some x := by
    cases ht : t1.descend p with
    | none => rw [r2 ht] at d1; cases d1
    | some x => exact ⟨x, rfl⟩
  obtain ⟨n', a1, a2⟩ := r1 x hx
  rw [d1] at a1; cases a1
  have hxk : x.kind = n0.kind := by cases a2; rfl
  have hdx : Spec.Kind.isDefinition x.kind = true := by rw [hxk, ← d2]; exact hdc
  have hgrow := (appendBuiltins_grows hm.good hb1).2
  rcases foldlM_defs hm.good hb1 p x hx hdx with ⟨y, hy⟩ | ⟨e, he, hpe⟩
  · left
    obtain ⟨y', _, e1, _, e3, _⟩ := hgrow p y hy
    rw [hx] at e1; cases e1
    exact built_declared h0 hy (by rw [← e3]; exact hdx)
  · right
    obtain ⟨pos, v, o, m, v1, v2, v3⟩ := multivectors_mem.mp he
    have hv : t0.descend e.1 = some v := by rw [← v2]; exact descend_namesAt hm.good v1
    obtain ⟨v', _, e1, _, e3, _⟩ := hgrow _ _ hv
    have hvat := descend_noat hr.named e1 (by intro r hk; rw [e3, v3] at hk; cases hk)
    obtain ⟨v2', f1, f2⟩ := (renamed_descend hvat hren).1 v' e1
    have hv2k : v2'.kind = .resource (.multivector e.2) o m := by rw [← v3, ← e3]; cases f2; rfl
    obtain ⟨v3', _, g1, _, g3, _⟩ := hgr _ _ f1
    obtain ⟨v4, k1, _, k3, _⟩ := hsame.node g1
    rw [g3, hv2k] at k3
    obtain ⟨m', hm'⟩ := blank_resource k3
    exact ⟨e.1, v4, e.2, o, m', k1, hm', by rw [hpe]; exact indexTypePath_eq e.1 e.2⟩

end Props
