import Verif.Lemmas.GenBuild

/-! # Lemmas about merging namespaces -/

namespace Gen
open Spec

theorem definitionsIn_append (a b : List Tree) : definitionsIn (a ++ b) = definitionsIn a ++ definitionsIn b := by
  induction a with
  | nil => simp [definitionsIn]
  | cons c a ih => simp only [List.cons_append, definitionsIn]; split <;> simp [ih]

theorem definitionsIn_same {cs : List Tree} (h : ∀ c ∈ cs, c.kind ≠ .namespace ∧ definitionOf c = c) :
    definitionsIn cs = cs := by
  induction cs with
  | nil => simp [definitionsIn]
  | cons c cs ih =>
    simp only [List.forall_mem_cons] at h
    rw [definitionsIn, if_neg h.1.1, h.1.2, ih h.2]

theorem definitionOf_noNs {t : Tree} (h : NoNs t) : definitionOf t = t := by
  induction h with
  | mk hk hc ih => rw [definitionOf, definitionsIn_same (fun c hcm => ⟨(hc c hcm).kind, ih c hcm⟩)]

theorem definitionsIn_noNs {cs : List Tree} (h : ∀ c ∈ cs, NoNs c) : definitionsIn cs = cs :=
  definitionsIn_same fun c hc => ⟨(h c hc).kind, definitionOf_noNs (h c hc)⟩

theorem noNs_descend {t n : Tree} {p : List Text} (h : NoNs t) (hd : t.descend p = some n) : NoNs n := by
  induction p generalizing t with
  | nil => simp only [Tree.descend, Option.some.injEq] at hd; exact hd ▸ h
  | cons k ks ih =>
    simp only [Tree.descend] at hd
    cases hc : t.child k with
    | none => rw [hc] at hd; cases hd
    | some c => rw [hc] at hd; exact ih (h.children c (child_some hc).1) hd

/-! ## Children after a change -/

theorem child_setChild {t c c' : Tree} {k : Text} (hc : t.child k = some c) (hn : c'.name = k) (j : Text) :
    (t.setChild c').child j = if j = k then some c' else t.child j := by
  cases t with
  | mk n kd cs =>
    simp only [Tree.setChild, Tree.child, Tree.children] at hc ⊢
    induction cs with
    | nil => simp at hc
    | cons d ds ih =>
      simp only [List.map_cons, List.find?_cons] at hc ⊢
      by_cases hd : d.name = k
      · simp only [hd, hn, ite_true]
        by_cases hj : j = k
        · simp [hj]
        · have : ¬ k = j := fun h => hj h.symm
          simp only [hj, this, decide_false, ite_false]
          clear ih hc
          induction ds with
          | nil => rfl
          | cons e es ih =>
            simp only [List.map_cons, List.find?_cons]
            by_cases he : e.name = k
            · simp only [he, ite_true, hn, this, decide_false]; exact ih
            · simp only [he, ite_false]; split
              · rfl
              · exact ih
      · have hd' : ¬ d.name = c'.name := by rw [hn]; exact hd
        simp only [hd, decide_false] at hc
        simp only [hd', ite_false]
        by_cases hj : d.name = j
        · have : ¬ j = k := fun h => hd (hj.trans h)
          simp [hj, this]
        · simp only [hj, decide_false]
          rw [ih hc]

theorem child_append {n : Text} {kd : Kind} {cs : List Tree} {u : Tree} (j : Text) :
    (Tree.mk n kd (cs ++ [u])).child j =
      match (Tree.mk n kd cs).child j with
      | some c => some c
      | none => if u.name = j then some u else none := by
  simp only [Tree.child, Tree.children, List.find?_append]
  cases List.find? (fun c => decide (c.name = j)) cs with
  | some c => rfl
  | none => simp [List.find?_cons]; split <;> simp_all

theorem definitionsIn_setChild {t c c' : Tree} {k : Text} (ht : (t.children.map Tree.name).Nodup) (hc : t.child k = some c)
    (hn : c'.name = k) (hk : c'.kind = c.kind) (hp : c.kind ≠ .namespace → definitionOf c' = definitionOf c) :
    definitionsIn (t.setChild c').children = definitionsIn t.children := by
  obtain ⟨hm, hname⟩ := child_some hc
  cases t with
  | mk n kd cs =>
    simp only [Tree.setChild, Tree.children] at ht hm ⊢
    clear hc
    induction cs with
    | nil => rfl
    | cons d ds ih =>
      simp only [List.map_cons, List.nodup_cons] at ht ⊢
      have hrest : ∀ ds : List Tree, c'.name ∉ ds.map Tree.name → (ds.map fun d => if d.name = c'.name then c' else d) = ds := by
        intro ds hds
        conv_rhs => rw [← List.map_id ds]
        apply List.map_congr_left
        intro e he
        rw [if_neg]
        · rfl
        · intro h; exact hds (h ▸ List.mem_map_of_mem he)
      rcases List.mem_cons.mp hm with rfl | hm
      · rw [hrest ds (by rw [hn, ← hname]; exact ht.1), if_pos (by rw [hn, hname])]
        simp only [definitionsIn, hk]
        split
        · rfl
        · rename_i hne; rw [hp hne]
      · have hdn : ¬ d.name = c'.name := by
          rw [hn, ← hname]; intro h; exact ht.1 (h ▸ List.mem_map_of_mem hm)
        rw [if_neg hdn]
        simp only [definitionsIn]
        rw [ih ht.2 hm]

/-! ## Ensuring a namespace -/

/-- `f` appends `ds` to the children of a node. -/
def Appends (f : Tree → M Tree) (ds : List Tree) : Prop :=
  ∀ n n', f n = .ok n' → n' = .mk n.name n.kind (n.children ++ ds)

theorem descend_appended {n : Tree} {ds : List Tree} (hds : ∀ d ∈ ds, NoNs d) {p : List Text} {n' : Tree}
    (hd : (Tree.mk n.name n.kind (n.children ++ ds)).descend p = some n') (hp : p ≠ []) (hns : n'.kind = .namespace) :
    n.descend p = some n' := by
  cases p with
  | nil => exact absurd rfl hp
  | cons k ks =>
    simp only [Tree.descend] at hd ⊢
    have hch : (Tree.mk n.name n.kind (n.children ++ ds)).child k =
        match n.child k with
        | some c => some c
        | none => ds.find? fun c => c.name = k := by
      clear hd
      cases n with
      | mk a b cs =>
        simp only [Tree.child, Tree.children, List.find?_append]
        cases List.find? (fun c => decide (c.name = k)) cs <;> rfl
    rw [hch] at hd
    cases hc : n.child k with
    | some c => rw [hc] at hd; exact hd
    | none =>
      rw [hc] at hd
      simp only at hd
      cases hf : ds.find? (fun c => c.name = k) with
      | none => rw [hf] at hd; cases hd
      | some d =>
        rw [hf] at hd
        exact absurd hns (noNs_descend (hds d (List.mem_of_find?_eq_some hf)) hd).kind

theorem nested_spec {f : Tree → M Tree} {ds : List Tree} (hf : Appends f ds) (hds : ∀ d ∈ ds, NoNs d) (ks : List Text) :
    ∀ (k : Text) (u : Tree), nestedNamespaces f k ks = .ok u →
      u.name = k ∧ u.kind = .namespace ∧ definitionsIn u.children = (if ks = [] then ds else []) ∧
      (∃ n', u.descend ks = some n' ∧ n'.kind = .namespace) ∧
      (∀ p n', u.descend p = some n' → n'.kind = .namespace →
        definitionsIn n'.children = (if p = ks then ds else []) ∧ p <+: ks) := by
  induction ks with
  | nil =>
    intro k u h
    simp only [nestedNamespaces] at h
    obtain ⟨t0, h0, h⟩ := bind_ok h
    obtain ⟨rfl, _⟩ := create_ok h0
    have hu := hf _ _ h
    subst hu
    have hd0 : definitionsIn ([] ++ ds) = ds := by rw [List.nil_append]; exact definitionsIn_noNs hds
    refine ⟨rfl, rfl, by simpa [Tree.children] using definitionsIn_noNs hds, ⟨_, rfl, rfl⟩, ?_⟩
    intro p n' hp hn
    by_cases hpe : p = []
    · subst hpe
      simp only [Tree.descend, Option.some.injEq] at hp
      subst hp
      exact ⟨by simpa [Tree.children] using definitionsIn_noNs hds, List.prefix_refl _⟩
    · have := descend_appended hds hp hpe hn
      cases p with
      | nil => exact absurd rfl hpe
      | cons a b => simp [Tree.descend, Tree.child, Tree.children] at this
  | cons k' ks ih =>
    intro k u h
    simp only [nestedNamespaces] at h
    obtain ⟨c, hc, h⟩ := bind_ok h
    obtain ⟨t0, h0, h⟩ := bind_ok h
    obtain ⟨rfl, _⟩ := create_ok h0
    obtain ⟨_, rfl⟩ := insert_ok h
    obtain ⟨h1, h2, h3, ⟨n0, h4, h4'⟩, h5⟩ := ih k' c hc
    have hch : ∀ j, (Tree.mk k .namespace ([] ++ [c])).child j = if c.name = j then some c else none := by
      intro j; rw [child_append]; rfl
    refine ⟨rfl, rfl, ?_, ?_, ?_⟩
    · simp [Tree.children, definitionsIn, h2]
    · refine ⟨n0, ?_, h4'⟩
      simp only [Tree.descend, Tree.name, Tree.kind, Tree.children]
      rw [hch, if_pos h1]; exact h4
    · intro p n' hp hn
      cases p with
      | nil =>
        simp only [Tree.descend, Option.some.injEq] at hp
        subst hp
        simp [Tree.children, definitionsIn, h2]
      | cons j js =>
        simp only [Tree.descend, Tree.name, Tree.kind, Tree.children] at hp
        rw [hch] at hp
        by_cases hj : c.name = j
        · rw [if_pos hj] at hp
          simp only at hp
          obtain ⟨h6, h7⟩ := h5 js n' hp hn
          rw [h1] at hj
          subst hj
          refine ⟨by simpa using h6, ?_⟩
          obtain ⟨r, hr⟩ := h7
          exact ⟨r, by simp [hr]⟩
        · rw [if_neg hj] at hp
          cases hp

/-- What `t.descend p` has as definitions. -/
def defsAt (t : Tree) (p : List Text) : List Tree :=
  match t.descend p with
  | some n => definitionsIn n.children
  | none => []

theorem ensure_spec {f : Tree → M Tree} {ds : List Tree} (hf : Appends f ds) (hds : ∀ d ∈ ds, NoNs d) (keys : List Text) :
    ∀ (t t' : Tree), (∀ p n, t.descend p = some n → (n.children.map Tree.name).Nodup) → t.ensureNamespace f keys = .ok t' →
      t'.name = t.name ∧ t'.kind = t.kind ∧
      definitionsIn t'.children = definitionsIn t.children ++ (if keys = [] then ds else []) ∧
      (∃ n', t'.descend keys = some n' ∧ n'.kind = .namespace) ∧
      (∀ p n', t'.descend p = some n' → n'.kind = .namespace →
        definitionsIn n'.children = defsAt t p ++ (if p = keys then ds else []) ∧
        (∀ n, t.descend p = some n → n.kind = .namespace) ∧ (t.descend p = none → p <+: keys)) ∧
      (∀ p n, t.descend p = some n → ∃ n', t'.descend p = some n' ∧ n'.kind = n.kind) := by
  induction keys with
  | nil =>
    intro t t' hnd h
    simp only [Tree.ensureNamespace] at h
    split at h
    · rename_i hk
      have ht := hf t t' h
      subst ht
      refine ⟨rfl, rfl, ?_, ⟨_, rfl, hk⟩, ?_, ?_⟩
      · simp [Tree.children, definitionsIn_append, definitionsIn_noNs hds]
      · intro p n' hp hn
        by_cases hpe : p = []
        · subst hpe
          simp only [Tree.descend, Option.some.injEq] at hp
          subst hp
          refine ⟨by simp [Tree.children, definitionsIn_append, definitionsIn_noNs hds, defsAt, Tree.descend], ?_, by simp⟩
          intro n hn'; simp only [Tree.descend, Option.some.injEq] at hn'; exact hn' ▸ hk
        · have := descend_appended hds hp hpe hn
          refine ⟨by simp [defsAt, this, hpe], ?_, by simp [this]⟩
          intro n hn'; rw [this] at hn'; injection hn' with hn'; exact hn' ▸ hn
      · intro p n hp
        cases p with
        | nil => simp only [Tree.descend, Option.some.injEq] at hp; subst hp; exact ⟨_, rfl, rfl⟩
        | cons k ks =>
          refine ⟨n, ?_, rfl⟩
          simp only [Tree.descend] at hp ⊢
          cases hc : t.child k with
          | none => rw [hc] at hp; cases hp
          | some c =>
            rw [hc] at hp
            have : (Tree.mk t.name t.kind (t.children ++ ds)).child k = some c := by
              cases t with
              | mk a b cs =>
                simp only [Tree.child, Tree.children, List.find?_append] at hc ⊢
                rw [hc]; rfl
            rw [this]; exact hp
    · cases h
  | cons k ks ih =>
    intro t t' hnd h
    simp only [Tree.ensureNamespace] at h
    cases hc : t.child k with
    | some c =>
      rw [hc] at h
      obtain ⟨c', hc', h⟩ := bind_ok h
      cases h
      obtain ⟨hm, hname⟩ := child_some hc
      obtain ⟨i1, i2, i3, ⟨n0, i4, i4'⟩, i5, i6⟩ := ih c c' (fun p n hp => hnd (k :: p) n (by simp [Tree.descend, hc, hp])) hc'
      have hn' : c'.name = k := i1.trans hname
      have hch := child_setChild hc hn'
      have hdef : c.kind ≠ .namespace → definitionOf c' = definitionOf c := by
        intro hne
        have hks : ks ≠ [] := by
          intro he; subst he
          simp only [Tree.ensureNamespace, if_neg hne] at hc'
          cases hc'
        have : definitionsIn c'.children = definitionsIn c.children := by rw [i3, if_neg hks, List.append_nil]
        rw [← c'.eta, ← c.eta, definitionOf, definitionOf, this, i1, i2]
      refine ⟨setChild_name t c', by cases t; rfl, ?_, ?_, ?_, ?_⟩
      · rw [definitionsIn_setChild (hnd [] t rfl) hc hn' i2 hdef]; simp
      · exact ⟨n0, by simp only [Tree.descend]; rw [hch, if_pos rfl]; exact i4, i4'⟩
      · intro p n' hp hn
        cases p with
        | nil =>
          simp only [Tree.descend, Option.some.injEq] at hp
          subst hp
          refine ⟨?_, ?_, by simp [Tree.descend]⟩
          · rw [definitionsIn_setChild (hnd [] t rfl) hc hn' i2 hdef]; simp [defsAt, Tree.descend]
          · intro n hn2; simp only [Tree.descend, Option.some.injEq] at hn2; subst hn2
            cases t; exact hn
        | cons j js =>
          simp only [Tree.descend] at hp
          rw [hch] at hp
          by_cases hj : j = k
          · subst hj
            rw [if_pos rfl] at hp
            simp only at hp
            obtain ⟨a1, a2, a3⟩ := i5 js n' hp hn
            refine ⟨?_, ?_, ?_⟩
            · simp only [defsAt, Tree.descend, hc] at a1 ⊢
              simpa using a1
            · intro n hn2; simp only [Tree.descend, hc] at hn2; exact a2 n hn2
            · intro hn2; simp only [Tree.descend, hc] at hn2
              obtain ⟨r, hr⟩ := a3 hn2
              exact ⟨r, by simp [hr]⟩
          · rw [if_neg hj] at hp
            have hd : t.descend (j :: js) = some n' := by simpa [Tree.descend] using hp
            refine ⟨?_, ?_, ?_⟩
            · simp [defsAt, hd, hj]
            · intro n hn2; rw [hd] at hn2; injection hn2 with hn2; exact hn2 ▸ hn
            · intro hn2; rw [hd] at hn2; cases hn2
      · intro p n hp
        cases p with
        | nil =>
          simp only [Tree.descend, Option.some.injEq] at hp
          subst hp
          exact ⟨_, rfl, by cases t; rfl⟩
        | cons j js =>
          simp only [Tree.descend] at hp ⊢
          rw [hch]
          by_cases hj : j = k
          · subst hj
            rw [hc] at hp
            rw [if_pos rfl]
            exact i6 js n hp
          · rw [if_neg hj]; exact ⟨n, hp, rfl⟩
    | none =>
      rw [hc] at h
      obtain ⟨u, hu, h⟩ := bind_ok h
      obtain ⟨hfree, rfl⟩ := insert_ok h
      obtain ⟨u1, u2, u3, ⟨n0, u4, u4'⟩, u5⟩ := nested_spec hf hds ks k u hu
      have hch : ∀ j, (Tree.mk t.name t.kind (t.children ++ [u])).child j =
          match t.child j with
          | some c => some c
          | none => if u.name = j then some u else none := by
        intro j; rw [child_append, t.eta]
      refine ⟨rfl, rfl, ?_, ?_, ?_, ?_⟩
      · simp [Tree.children, definitionsIn_append, definitionsIn, u2]
      · exact ⟨n0, by simp only [Tree.descend]; rw [hch, hc]; simp only [u1]; exact u4, u4'⟩
      · intro p n' hp hn
        cases p with
        | nil =>
          simp only [Tree.descend, Option.some.injEq] at hp
          subst hp
          refine ⟨by simp [Tree.children, definitionsIn_append, definitionsIn, u2, defsAt, Tree.descend], ?_, by simp [Tree.descend]⟩
          intro n hn2; simp only [Tree.descend, Option.some.injEq] at hn2; subst hn2; exact hn
        | cons j js =>
          simp only [Tree.descend] at hp
          rw [hch] at hp
          cases hcj : t.child j with
          | some c =>
            rw [hcj] at hp
            have hd : t.descend (j :: js) = some n' := by simpa [Tree.descend, hcj] using hp
            have hj : j ≠ k := by intro h; subst h; rw [hc] at hcj; cases hcj
            refine ⟨?_, ?_, ?_⟩
            · simp [defsAt, hd, hj]
            · intro n hn2; rw [hd] at hn2; injection hn2 with hn2; exact hn2 ▸ hn
            · intro hn2; rw [hd] at hn2; cases hn2
          | none =>
            rw [hcj] at hp
            simp only at hp
            by_cases hj : u.name = j
            · rw [if_pos hj] at hp
              simp only at hp
              rw [u1] at hj
              subst hj
              obtain ⟨a1, a2⟩ := u5 js n' hp hn
              refine ⟨?_, ?_, ?_⟩
              · simp only [defsAt, Tree.descend, hc]; simpa using a1
              · intro n hn2; simp [Tree.descend, hc] at hn2
              · intro _
                obtain ⟨r, hr⟩ := a2
                exact ⟨r, by simp [hr]⟩
            · rw [if_neg hj] at hp; cases hp
      · intro p n hp
        cases p with
        | nil =>
          simp only [Tree.descend, Option.some.injEq] at hp
          subst hp
          exact ⟨_, rfl, rfl⟩
        | cons j js =>
          simp only [Tree.descend] at hp ⊢
          rw [hch]
          cases hcj : t.child j with
          | some c => rw [hcj] at hp; exact ⟨n, hp, rfl⟩
          | none => rw [hcj] at hp; cases hp

/-! ## Good trees stay good -/

theorem nested_good {f : Tree → M Tree} (hf : ∀ n n', Good n → f n = .ok n' → Good n') (ks : List Text) :
    ∀ (k : Text) (u : Tree), nestedNamespaces f k ks = .ok u → Good u := by
  induction ks with
  | nil =>
    intro k u h
    obtain ⟨t0, h0, h⟩ := bind_ok h
    exact hf _ _ (good_create h0) h
  | cons k' ks ih =>
    intro k u h
    obtain ⟨c, hc, h⟩ := bind_ok h
    obtain ⟨t0, h0, h⟩ := bind_ok h
    exact good_insert (good_create h0) (ih k' c hc) h

theorem ensure_good {f : Tree → M Tree} (hf : ∀ n n', Good n → f n = .ok n' → Good n') (keys : List Text) :
    ∀ (t t' : Tree), Good t → t.ensureNamespace f keys = .ok t' → Good t' := by
  induction keys with
  | nil =>
    intro t t' ht h
    simp only [Tree.ensureNamespace] at h
    split at h
    · exact hf _ _ ht h
    · cases h
  | cons k ks ih =>
    intro t t' ht h
    simp only [Tree.ensureNamespace] at h
    cases hc : t.child k with
    | some c =>
      rw [hc] at h
      obtain ⟨c', hc', h⟩ := bind_ok h
      cases h
      exact good_setChild ht (ih c c' (ht.children c (child_some hc).1) hc')
    | none =>
      rw [hc] at h
      obtain ⟨u, hu, h⟩ := bind_ok h
      exact good_insert ht (nested_good hf ks k u hu) h

theorem insertAll_ok {ds : List Tree} {t t' : Tree} (h : t.insertAll ds = .ok t') :
    t' = .mk t.name t.kind (t.children ++ ds) := by
  induction ds generalizing t with
  | nil => simp only [Tree.insertAll, List.foldlM_nil, pure, Except.pure, Except.ok.injEq] at h; rw [List.append_nil, ← h, t.eta]
  | cons d ds ih =>
    simp only [Tree.insertAll, List.foldlM_cons] at h
    obtain ⟨t1, h1, h⟩ := bind_ok h
    obtain ⟨_, rfl⟩ := insert_ok h1
    have := ih h
    rw [this]; simp [Tree.name, Tree.kind, Tree.children]

theorem insertAll_good {ds : List Tree} {t t' : Tree} (ht : Good t) (hds : ∀ d ∈ ds, Good d)
    (h : t.insertAll ds = .ok t') : Good t' := by
  induction ds generalizing t with
  | nil => simp only [Tree.insertAll, List.foldlM_nil, pure, Except.pure, Except.ok.injEq] at h; exact h ▸ ht
  | cons d ds ih =>
    simp only [Tree.insertAll, List.foldlM_cons] at h
    obtain ⟨t1, h1, h⟩ := bind_ok h
    exact ih (good_insert ht (hds d (by simp)) h1) (fun d hd => hds d (by simp [hd])) h

theorem good_descend {t n : Tree} {p : List Text} (h : Good t) (hd : t.descend p = some n) : Good n := by
  obtain ⟨pos, h1, _⟩ := descend_treeAt hd
  exact treeAt_good h h1

/-! ## Success -/

theorem insert_succ {t u : Tree} (h : u.name ∉ t.children.map Tree.name) :
    t.insert u = .ok (.mk t.name t.kind (t.children ++ [u])) := by
  cases t with
  | mk n k cs =>
    simp only [Tree.children] at h
    simp only [Tree.insert]; rw [if_neg h]; rfl

theorem insertAll_succ {ds : List Tree} {t : Tree} (h : (t.children.map Tree.name ++ ds.map Tree.name).Nodup) :
    ∃ t', t.insertAll ds = .ok t' := by
  induction ds generalizing t with
  | nil => exact ⟨t, rfl⟩
  | cons d ds ih =>
    have hfree : d.name ∉ t.children.map Tree.name := by
      intro hm; exact (List.nodup_append.mp h).2.2 _ hm d.name (by simp) rfl
    obtain ⟨t', ht'⟩ := ih (t := .mk t.name t.kind (t.children ++ [d])) (by simpa [Tree.children] using h)
    refine ⟨t', ?_⟩
    simp only [Tree.insertAll, List.foldlM_cons, insert_succ hfree, bind, Except.bind] at ht' ⊢
    exact ht'

theorem insertEach_succ {cs : List (M Tree)} {ds : List Tree} (hc : Created cs ds) {t : Tree}
    (h : (t.children.map Tree.name ++ ds.map Tree.name).Nodup) : ∃ t', insertEach t cs = .ok t' := by
  induction hc generalizing t with
  | nil => exact ⟨t, rfl⟩
  | @cons c d cs ds hcd _ ih =>
    have hfree : d.name ∉ t.children.map Tree.name := by
      intro hm; exact (List.nodup_append.mp h).2.2 _ hm d.name (by simp) rfl
    obtain ⟨t', ht'⟩ := ih (t := .mk t.name t.kind (t.children ++ [d])) (by simpa [Tree.children] using h)
    refine ⟨t', ?_⟩
    simp only [insertEach, hcd, insert_succ hfree, bind, Except.bind] at ht' ⊢
    exact ht'

theorem mapM_create_ns_ok {l : List Text} (h : ∀ k ∈ l, '.' ∉ k ∧ k ≠ []) :
    l.mapM (fun k => Tree.create k .namespace) = .ok (l.map fun k => .mk k .namespace []) := by
  induction l with
  | nil => rfl
  | cons k l ih =>
    simp only [List.forall_mem_cons] at h
    rw [List.mapM_cons, ih h.2]
    simp [Tree.create, h.1.1, h.1.2, bind, Except.bind, pure, Except.pure]

theorem mapM_succ {α β : Type} {f : α → M β} {l : List α} (h : ∀ a ∈ l, ∃ b, f a = .ok b) : ∃ r, l.mapM f = .ok r := by
  induction l with
  | nil => exact ⟨[], rfl⟩
  | cons a l ih =>
    simp only [List.forall_mem_cons] at h
    obtain ⟨⟨b, hb⟩, h2⟩ := h
    obtain ⟨r, hr⟩ := ih h2
    exact ⟨b :: r, by rw [List.mapM_cons, hb, hr]; rfl⟩

theorem descend_append (t : Tree) (p q : List Text) : t.descend (p ++ q) = (t.descend p).bind fun n => n.descend q := by
  induction p generalizing t with
  | nil => rfl
  | cons k ks ih =>
    simp only [List.cons_append, Tree.descend]
    cases t.child k with
    | none => rfl
    | some c => exact ih c

theorem nested_succ {f : Tree → M Tree} (hf : ∀ k, ∃ n', f (.mk k .namespace []) = .ok n') (ks : List Text) :
    ∀ k, (∀ x ∈ k :: ks, '.' ∉ x ∧ x ≠ []) → ∃ u, nestedNamespaces f k ks = .ok u := by
  induction ks with
  | nil =>
    intro k hk
    have hk := hk k (by simp)
    obtain ⟨n', hn'⟩ := hf k
    exact ⟨n', by simp [nestedNamespaces, Tree.create, hk.1, hk.2, bind, Except.bind, pure, Except.pure, hn']⟩
  | cons k' ks ih =>
    intro k hk
    obtain ⟨u, hu⟩ := ih k' (fun x hx => hk x (List.mem_cons_of_mem _ hx))
    have hk := hk k (by simp)
    refine ⟨.mk k .namespace ([] ++ [u]), ?_⟩
    simp only [nestedNamespaces, hu, bind, Except.bind, Tree.create, if_neg hk.1, if_neg hk.2, pure, Except.pure]
    exact insert_succ (by simp [Tree.children])

theorem nested_name {f : Tree → M Tree} {ds : List Tree} (ha : Appends f ds) {ks : List Text} {k : Text} {u : Tree}
    (hu : nestedNamespaces f k ks = .ok u) : u.name = k ∧ u.kind = .namespace := by
  cases ks with
  | nil =>
    obtain ⟨t0, h0, h1⟩ := bind_ok hu
    obtain ⟨rfl, _⟩ := create_ok h0
    rw [ha _ _ h1]; exact ⟨rfl, rfl⟩
  | cons k' ks =>
    obtain ⟨c, _, h1⟩ := bind_ok hu
    obtain ⟨t0, h0, h1⟩ := bind_ok h1
    obtain ⟨rfl, _⟩ := create_ok h0
    obtain ⟨_, rfl⟩ := insert_ok h1
    exact ⟨rfl, rfl⟩

theorem ensure_succ {f : Tree → M Tree} {ds : List Tree} (ha : Appends f ds) {keys : List Text}
    (hkeys : ∀ k ∈ keys, '.' ∉ k ∧ k ≠ []) {t : Tree}
    (h : ∀ n, t.descend keys = some n → n.kind = .namespace ∧ ∃ n', f n = .ok n')
    (hf : ∀ k, ∃ n', f (.mk k .namespace []) = .ok n') : ∃ t', t.ensureNamespace f keys = .ok t' := by
  induction keys generalizing t with
  | nil =>
    obtain ⟨h1, n', h2⟩ := h t rfl
    exact ⟨n', by simp only [Tree.ensureNamespace, if_pos h1]; exact h2⟩
  | cons k ks ih =>
    cases hc : t.child k with
    | some c =>
      obtain ⟨c', hc'⟩ := ih (t := c) (fun x hx => hkeys x (List.mem_cons_of_mem _ hx))
        (fun n hn => h n (by simp [Tree.descend, hc, hn]))
      exact ⟨t.setChild c', by simp [Tree.ensureNamespace, hc, hc', bind, Except.bind, pure, Except.pure]⟩
    | none =>
      obtain ⟨u, hu⟩ := nested_succ hf ks k hkeys
      refine ⟨.mk t.name t.kind (t.children ++ [u]), ?_⟩
      simp only [Tree.ensureNamespace, hc, hu, bind, Except.bind]
      exact insert_succ (by rw [(nested_name ha hu).1]; exact child_none.mp hc)

/-! ## All nodes after ensuring a namespace -/

theorem descend_appended_any {n : Tree} {ds : List Tree} {p : List Text} {n' : Tree}
    (hd : (Tree.mk n.name n.kind (n.children ++ ds)).descend p = some n') :
    p = [] ∨ n.descend p = some n' ∨ ∃ d ∈ ds, [d.name] <+: p := by
  cases p with
  | nil => exact .inl rfl
  | cons k ks =>
    right
    simp only [Tree.descend] at hd ⊢
    have hch : (Tree.mk n.name n.kind (n.children ++ ds)).child k =
        match n.child k with
        | some c => some c
        | none => ds.find? fun c => c.name = k := by
      clear hd
      cases n with
      | mk a b cs =>
        simp only [Tree.child, Tree.children, List.find?_append]
        cases List.find? (fun c => decide (c.name = k)) cs <;> rfl
    rw [hch] at hd
    cases hc : n.child k with
    | some c => rw [hc] at hd; exact .inl hd
    | none =>
      rw [hc] at hd
      simp only at hd
      cases hf : ds.find? (fun c => c.name = k) with
      | none => rw [hf] at hd; cases hd
      | some d =>
        right
        have := List.find?_some hf
        simp only [decide_eq_true_eq] at this
        exact ⟨d, List.mem_of_find?_eq_some hf, ⟨ks, by simp [this]⟩⟩

theorem nested_nodes {f : Tree → M Tree} {ds : List Tree} (hf : Appends f ds) (ks : List Text) :
    ∀ (k : Text) (u : Tree), nestedNamespaces f k ks = .ok u → ∀ q n', u.descend q = some n' →
      (q <+: ks ∧ n'.kind = .namespace) ∨ ∃ d ∈ ds, ks ++ [d.name] <+: q := by
  induction ks with
  | nil =>
    intro k u h q n' hq
    obtain ⟨t0, h0, h⟩ := bind_ok h
    obtain ⟨rfl, _⟩ := create_ok h0
    have hu := hf _ _ h
    subst hu
    rcases descend_appended_any hq with rfl | h1 | ⟨d, hd, h1⟩
    · left
      simp only [Tree.descend, Option.some.injEq] at hq
      subst hq
      exact ⟨List.prefix_refl _, rfl⟩
    · left
      cases q with
      | nil => simp only [Tree.descend, Option.some.injEq] at h1; subst h1; exact ⟨List.prefix_refl _, rfl⟩
      | cons a b => simp [Tree.descend, Tree.child, Tree.children] at h1
    · exact .inr ⟨d, hd, by simpa using h1⟩
  | cons k' ks ih =>
    intro k u h q n' hq
    obtain ⟨c, hc, h⟩ := bind_ok h
    obtain ⟨t0, h0, h⟩ := bind_ok h
    obtain ⟨rfl, _⟩ := create_ok h0
    obtain ⟨_, rfl⟩ := insert_ok h
    obtain ⟨hcn, _⟩ := nested_name hf hc
    have hch : ∀ j, (Tree.mk k .namespace ([] ++ [c])).child j = if c.name = j then some c else none := by
      intro j; rw [child_append]; rfl
    cases q with
    | nil =>
      simp only [Tree.descend, Option.some.injEq] at hq
      subst hq
      exact .inl ⟨by simp, rfl⟩
    | cons j js =>
      simp only [Tree.descend, Tree.name, Tree.kind, Tree.children] at hq
      rw [hch] at hq
      by_cases hj : c.name = j
      · rw [if_pos hj] at hq
        simp only at hq
        rw [hcn] at hj
        subst hj
        rcases ih _ c hc js n' hq with ⟨⟨r, hr⟩, h2⟩ | ⟨d, hd, ⟨r, hr⟩⟩
        · exact .inl ⟨⟨r, by simp [hr]⟩, h2⟩
        · exact .inr ⟨d, hd, ⟨r, by simp [← hr]⟩⟩
      · rw [if_neg hj] at hq; cases hq

theorem ensure_nodes {f : Tree → M Tree} {ds : List Tree} (hf : Appends f ds) (keys : List Text) :
    ∀ (t t' : Tree), t.ensureNamespace f keys = .ok t' → ∀ q n', t'.descend q = some n' →
      (∃ n, t.descend q = some n ∧ n'.kind = n.kind) ∨ (q <+: keys ∧ n'.kind = .namespace) ∨
      ∃ d ∈ ds, keys ++ [d.name] <+: q := by
  induction keys with
  | nil =>
    intro t t' h q n' hq
    simp only [Tree.ensureNamespace] at h
    split at h
    · rename_i hk
      have ht := hf t t' h
      subst ht
      rcases descend_appended_any hq with rfl | h1 | ⟨d, hd, h1⟩
      · left
        simp only [Tree.descend, Option.some.injEq] at hq
        subst hq
        exact ⟨t, rfl, rfl⟩
      · exact .inl ⟨n', h1, rfl⟩
      · exact .inr (.inr ⟨d, hd, by simpa using h1⟩)
    · cases h
  | cons k ks ih =>
    intro t t' h q n' hq
    simp only [Tree.ensureNamespace] at h
    cases hc : t.child k with
    | some c =>
      rw [hc] at h
      obtain ⟨c', hc', h⟩ := bind_ok h
      cases h
      obtain ⟨hm, hname⟩ := child_some hc
      have hkeep : c'.name = c.name ∧ c'.kind = c.kind := by
        clear ih hq
        cases ks with
        | nil =>
          simp only [Tree.ensureNamespace] at hc'
          split at hc'
          · rw [hf _ _ hc']; exact ⟨rfl, rfl⟩
          · cases hc'
        | cons a b =>
          simp only [Tree.ensureNamespace] at hc'
          cases hca : c.child a with
          | some e =>
            rw [hca] at hc'
            obtain ⟨e', _, hc'⟩ := bind_ok hc'
            cases hc'
            exact ⟨setChild_name c e', by cases c; rfl⟩
          | none =>
            rw [hca] at hc'
            obtain ⟨u, _, hc'⟩ := bind_ok hc'
            obtain ⟨_, rfl⟩ := insert_ok hc'
            exact ⟨rfl, rfl⟩
      have hch := child_setChild hc (hkeep.1.trans hname)
      cases q with
      | nil =>
        simp only [Tree.descend, Option.some.injEq] at hq
        subst hq
        exact .inl ⟨t, rfl, by cases t; rfl⟩
      | cons j js =>
        simp only [Tree.descend] at hq
        rw [hch] at hq
        by_cases hj : j = k
        · subst hj
          rw [if_pos rfl] at hq
          rcases ih c c' hc' js n' hq with ⟨n, h1, h2⟩ | ⟨⟨r, hr⟩, h2⟩ | ⟨d, hd, ⟨r, hr⟩⟩
          · exact .inl ⟨n, by simp [Tree.descend, hc, h1], h2⟩
          · exact .inr (.inl ⟨⟨r, by simp [hr]⟩, h2⟩)
          · exact .inr (.inr ⟨d, hd, ⟨r, by simp [← hr]⟩⟩)
        · rw [if_neg hj] at hq
          exact .inl ⟨n', by simpa [Tree.descend] using hq, rfl⟩
    | none =>
      rw [hc] at h
      obtain ⟨u, hu, h⟩ := bind_ok h
      obtain ⟨hfree, rfl⟩ := insert_ok h
      have hch : ∀ j, (Tree.mk t.name t.kind (t.children ++ [u])).child j =
          match t.child j with
          | some c => some c
          | none => if u.name = j then some u else none := by
        intro j; rw [child_append, t.eta]
      cases q with
      | nil =>
        simp only [Tree.descend, Option.some.injEq] at hq
        subst hq
        exact .inl ⟨t, rfl, rfl⟩
      | cons j js =>
        simp only [Tree.descend] at hq
        rw [hch] at hq
        cases hcj : t.child j with
        | some c =>
          rw [hcj] at hq
          exact .inl ⟨n', by simpa [Tree.descend, hcj] using hq, rfl⟩
        | none =>
          rw [hcj] at hq
          simp only at hq
          by_cases hj : u.name = j
          · rw [if_pos hj] at hq
            simp only at hq
            rw [(nested_name hf hu).1] at hj
            subst hj
            rcases nested_nodes hf ks _ u hu js n' hq with ⟨⟨r, hr⟩, h2⟩ | ⟨d, hd, ⟨r, hr⟩⟩
            · exact .inr (.inl ⟨⟨r, by simp [hr]⟩, h2⟩)
            · exact .inr (.inr ⟨d, hd, ⟨r, by simp [← hr]⟩⟩)
          · rw [if_neg hj] at hq; cases hq

end Gen
