import Verif.Lemmas.GenNames
import Verif.Props.Gen.Merge

/-!
# C48: name resolution

A reference stands at a position `pos` of the tree; the definition it is written in is its parent, whose path is
`namesAt root pos.dropLast`.
-/

namespace Props
open Gen Spec

/-- Trees on which references are resolved have dot-free, unique sibling names, an unnamed root, references as leaves
that alone contain `@`: whatever is parsed, before resolution and after. -/
theorem C48_ready {blocks : List PBlock} (hb : ∀ b ∈ blocks, PlainNames b) {t root : Tree} (ht : buildNodeTree blocks = .ok t)
    (hr : appendBuiltins t = .ok root) : Good root ∧ WellNamed root ∧ root.name = [] := by
  have hm := (built_merged ht).1
  have := appendBuiltins_ready ⟨hm.good, (built_named hb ht).1, hm.name, hm.kind⟩ hr
  exact ⟨this.good, this.named, this.name⟩

theorem renamed_refl (t : Tree) : Renamed t t := by
  induction t using Tree.induct with
  | h n k cs ih =>
    refine .mk (.inl rfl) rfl ?_
    intro i c c' h1 h2
    rw [h1] at h2; cases h2
    exact ih c (List.mem_of_getElem? h1)

theorem resolve_tree {root root' : Tree} (h : resolveReferences root = .ok root') (hk : ∀ r, root.kind ≠ .ref r) :
    ∃ cs', root' = .mk root.name root.kind cs' ∧ resolveList root [] [] root.children = .ok cs' := by
  cases root with
  | mk n k cs =>
    simp only [resolveReferences] at h
    obtain ⟨cs', h1, h⟩ := bind_ok h
    cases h
    exact ⟨cs', rfl, h1⟩

theorem root_nonref {root : Tree} (hw : WellNamed root) (hn : root.name = []) : ∀ r, root.kind ≠ .ref r := by
  intro r hr
  obtain ⟨b, hb, _⟩ := hw.ref_name hr
  rw [hn] at hb; cases hb

/-- The children of the root are resolved like the children of any node. -/
theorem resolve_renamed {root root' : Tree} (hg : Good root) (hw : WellNamed root) (hn : root.name = [])
    (h : resolveReferences root = .ok root') : Renamed root root' ∧ Good root' ∧ WellNamed root' := by
  have hnr := root_nonref hw hn
  obtain ⟨cs', rfl, hl⟩ := resolve_tree h hnr
  obtain ⟨cs'', he, hlen, hel⟩ := resolveList_ok hl
  simp only [List.nil_append] at he
  subst he
  have hkid : ∀ (i : Nat) c c', root.children[i]? = some c → cs'[i]? = some c' → Renamed c c' ∧ Good c' ∧ WellNamed c' ∧
      (c'.name = c.name ∨ c'.name ∉ (cs'.take i ++ root.children.drop (i + 1)).map Tree.name) := by
    intro i c c' h1 h2
    have hm := List.mem_of_getElem? h1
    refine resolveTree_renamed hg hn c (hg.children c hm) ?_ (p := []) (by simp) (by simpa using hel i c c' h1 h2)
    cases root; exact hw.children c hm
  have hnodup : ∀ i, i ≤ root.children.length → ((cs'.take i ++ root.children.drop i).map Tree.name).Nodup := by
    intro i
    induction i with
    | zero => intro _; simpa using hg.nodup
    | succ i ihi =>
      intro hi
      have h0 := ihi (by omega)
      have hc : root.children[i]? = some root.children[i] := List.getElem?_eq_getElem (by omega)
      have hc' : cs'[i]? = some (cs'[i]'(by omega)) := List.getElem?_eq_getElem (by omega)
      have hk := (hkid i _ _ hc hc').2.2.2
      rw [List.take_add_one, hc']
      rw [List.drop_eq_getElem_cons (by omega : i < root.children.length)] at h0
      simp only [Option.toList_some, List.map_append, List.map_cons, List.append_assoc, List.cons_append,
        List.nil_append] at h0 hk ⊢
      rw [List.nodup_middle] at h0 ⊢
      rw [List.nodup_cons] at h0 ⊢
      refine ⟨?_, h0.2⟩
      rcases hk with hk | hk
      · rw [hk]; exact h0.1
      · exact hk
  have hmem' : ∀ c' ∈ cs', ∃ (i : Nat) (c : Tree), root.children[i]? = some c ∧ cs'[i]? = some c' := by
    intro c' hc'
    obtain ⟨i, hi⟩ := List.mem_iff_getElem?.mp hc'
    have hlt : i < cs'.length := by
      rcases Nat.lt_or_ge i cs'.length with h | h
      · exact h
      · rw [List.getElem?_eq_none h] at hi; cases hi
    exact ⟨i, root.children[i]'(by omega), List.getElem?_eq_getElem (by omega), hi⟩
  refine ⟨?_, ?_, ?_⟩
  · have : Renamed (.mk root.name root.kind root.children) (.mk root.name root.kind cs') :=
      .mk (.inl rfl) hlen (fun i c c' h1 h2 => (hkid i c c' h1 h2).1)
    rwa [root.eta] at this
  · refine .mk hg.name ?_ ?_
    · have := hnodup root.children.length (Nat.le_refl _)
      rw [hlen, List.take_length, ← hlen, List.drop_length, List.append_nil] at this
      exact this
    · intro c' hc'
      obtain ⟨i, c, h1, h2⟩ := hmem' c' hc'
      exact (hkid i c c' h1 h2).2.1
  · refine .node (hw.other hnr) hnr ?_
    intro c' hc'
    obtain ⟨i, c, h1, h2⟩ := hmem' c' hc'
    exact (hkid i c c' h1 h2).2.2.1

/-- Resolution changes nothing but the names of references: every position has a node before iff it has one after; the
nodes have the same class and attributes and equally many children; names differ only for references. -/
theorem C48_only_references_change {root root' : Tree} (hg : Good root) (hw : WellNamed root) (hn : root.name = [])
    (h : resolveReferences root = .ok root') (pos : List Nat) :
    (treeAt root pos = none → treeAt root' pos = none) ∧
    ∀ m, treeAt root pos = some m → ∃ m', treeAt root' pos = some m' ∧ m'.kind = m.kind ∧
      m'.children.length = m.children.length ∧ ((∀ r, m.kind ≠ .ref r) → m'.name = m.name) := by
  obtain ⟨hr, _⟩ := resolve_renamed hg hw hn h
  obtain ⟨h1, h2⟩ := renamed_treeAt (pos := pos) hr
  refine ⟨h2, ?_⟩
  intro m hm
  obtain ⟨m', hm', hmm⟩ := h1 m hm
  refine ⟨m', hm', ?_⟩
  cases hmm with
  | mk a b c =>
    refine ⟨rfl, b.symm, ?_⟩
    intro hnr
    rcases a with a | ⟨⟨r, hr⟩, _⟩
    · exact a
    · exact absurd hr (hnr r)

/-- The result has again unique, dot-free names and only references contain `@`. -/
theorem C48_stays_good {root root' : Tree} (hg : Good root) (hw : WellNamed root) (hn : root.name = [])
    (h : resolveReferences root = .ok root') : Good root' ∧ WellNamed root' ∧ root'.name = [] := by
  obtain ⟨hr, h1, h2⟩ := resolve_renamed hg hw hn h
  obtain ⟨cs', rfl, _⟩ := resolve_tree h (root_nonref hw hn)
  exact ⟨h1, h2, hn⟩

/-- A text means at most one node. -/
theorem C48_unambiguous {root : Tree} (hg : Good root) {p : Path} {target : Text} {q q' : Path}
    (h : Means root p target q) (h' : Means root p target q') : q = q' := means_unique hg h h'

/-- Lookups of paths without `@` give the same node (up to names of references) after references were renamed, in
whatever way; so it does not matter that references are renamed one after the other during resolution. -/
theorem C48_lookup_unaffected {t t' : Tree} (h : Renamed t t') (ks : List Text) (hks : ∀ k ∈ ks, '@' ∉ k) :
    (∀ m, t.descend ks = some m → ∃ m', t'.descend ks = some m' ∧ m'.kind = m.kind) ∧
    (t.descend ks = none → t'.descend ks = none) := by
  obtain ⟨h1, h2⟩ := renamed_descend hks h
  refine ⟨?_, h2⟩
  intro m hm
  obtain ⟨m', hm', hmm⟩ := h1 m hm
  exact ⟨m', hm', by cases hmm; rfl⟩

/-- The parent of a reference: its path has no `@`. -/
theorem parent_noat {root : Tree} (hw : WellNamed root) (pos : List Nat) {r : Tree} (hr : treeAt root pos = some r) (hpos : pos ≠ []) :
    ∀ k ∈ namesAt root pos.dropLast, '@' ∉ k := by
  have key : ∀ (pos : List Nat) (i : Nat) (t r : Tree), treeAt t (pos ++ [i]) = some r → ∃ n, treeAt t pos = some n ∧ n.children ≠ [] := by
    intro pos i
    induction pos with
    | nil =>
      intro t r h
      refine ⟨t, rfl, ?_⟩
      intro h0
      simp [treeAt, h0] at h
    | cons j js ih =>
      intro t r h
      simp only [List.cons_append, treeAt] at h ⊢
      cases hj : t.children[j]? with
      | none => simp [hj] at h
      | some c => rw [hj] at h; exact ih c r h
  have hd := List.dropLast_concat_getLast hpos
  rw [← hd] at hr
  obtain ⟨n, h1, h2⟩ := key _ _ _ _ hr
  exact namesAt_noat hw h1 ((treeAt_wellNamed hw h1).plain h2).2

theorem namesAt_dropLast {pos : List Nat} : ∀ {t r : Tree}, treeAt t pos = some r →
    (namesAt t pos).dropLast = namesAt t pos.dropLast := by
  induction pos with
  | nil => intro t r _; rfl
  | cons i is ih =>
    intro t r h
    simp only [treeAt] at h
    cases hi : t.children[i]? with
    | none => simp [hi] at h
    | some c =>
      rw [hi] at h
      cases is with
      | nil => simp [namesAt, hi]
      | cons j js =>
        have := ih h
        simp only [List.dropLast_cons_cons] at this ⊢
        simp only [namesAt, hi] at this ⊢
        have hne : namesAt c (j :: js) ≠ [] := by
          simp only [treeAt] at h
          cases hj : c.children[j]? with
          | none => simp [hj] at h
          | some d => simp [namesAt, hj]
        simp only [namesAt] at hne
        rw [List.dropLast_cons_of_ne_nil hne, this]

/-- After success, every reference points to the node its text means in the place where it is written, and that node
exists in the result and has the expected class. -/
theorem C48_resolved {root root' : Tree} (hg : Good root) (hw : WellNamed root) (hn : root.name = [])
    (h : resolveReferences root = .ok root') {pos : List Nat} {r : Tree} {rk : RefKind} (hr : treeAt root pos = some r)
    (hk : r.kind = .ref rk) :
    ∃ r' q m, treeAt root' pos = some r' ∧ r'.kind = .ref rk ∧ Means root (namesAt root pos.dropLast) r.target q ∧
      r'.target = pathText q ∧ root'.find r'.target = .ok m ∧ KindFits rk m.kind := by
  have hnr := root_nonref hw hn
  obtain ⟨hren, hg', hw'⟩ := resolve_renamed hg hw hn h
  obtain ⟨cs', hroot', hl⟩ := resolve_tree h hnr
  obtain ⟨cs'', he, hlen, hel⟩ := resolveList_ok hl
  simp only [List.nil_append] at he
  subst he
  cases pos with
  | nil => simp only [treeAt, Option.some.injEq] at hr; subst hr; exact absurd hk (hnr rk)
  | cons i is =>
    have hpar := parent_noat hw (i :: is) hr (by simp)
    have hdl := namesAt_dropLast hr
    simp only [treeAt] at hr
    cases hi : root.children[i]? with
    | none => simp [hi] at hr
    | some c =>
      rw [hi] at hr
      have hlt : i < root.children.length := by
        rcases Nat.lt_or_ge i root.children.length with h | h
        · exact h
        · rw [List.getElem?_eq_none h] at hi; cases hi
      have hi' : cs'[i]? = some (cs'[i]'(by omega)) := List.getElem?_eq_getElem (by omega)
      obtain ⟨r', sib, h1, h2⟩ := resolveTree_at (hel i c _ hi hi') hr
      have hp : ([] ++ c.name :: namesAt c is).dropLast = namesAt root (i :: is).dropLast := by
        rw [← hdl]; simp [namesAt, hi]
      rw [hp] at h2
      obtain ⟨b, hb, _⟩ := (treeAt_wellNamed (by cases root; exact hw.children c (List.mem_of_getElem? hi)) hr).ref_name hk
      have hgood := treeAt_good (hg.children c (List.mem_of_getElem? hi)) hr
      have hdot : '.' ∉ b := fun hx => hgood.name (by rw [hb]; simp [hx])
      rw [← r.eta, hk, hb] at h2
      obtain ⟨n', ds', hr', _, hnew⟩ := resolveTree_ok h2
      subst hr'
      simp only [NewName] at hnew
      rcases resolveRef_spec hg hn hpar rk hdot sib with ⟨q, m, g1, g2, g3, g4, g5⟩ | ⟨g1, _⟩ | ⟨q, m, _, _, _, g1⟩ | ⟨q, _, _, _, g1⟩ | ⟨g1, _⟩
      · rw [g5] at hnew
        simp only [Except.ok.injEq] at hnew
        have hqn := means_noat g1 (dereferencify_noat _) hpar
        have htgt : Tree.target (.mk n' (.ref rk) ds') = pathText q := by
          rw [Tree.target, Tree.name, ← hnew, dereferencify_referencify (pathText_noat hqn)]
        obtain ⟨m', hm', hmm⟩ := (renamed_descend hqn hren).1 m g2
        refine ⟨_, q, m', ?_, rfl, ?_, htgt, ?_, ?_⟩
        · rw [hroot']; simp only [treeAt, Tree.children, hi']; exact h1
        · rw [Tree.target, hb]; exact g1
        · rw [htgt]
          refine (find_eq (splitDot_pathText (descend_nodot hg' hm'))).mpr ⟨?_, hm'⟩
          rw [hroot']; exact hn
        · cases hmm; exact g3
      all_goals rw [g1] at hnew; cases hnew

/-- A failure of resolution is due to some reference: its text means nothing; or it means a node of an unexpected class;
or it means the same node as another reference of the same definition; or it is not inside a namespace. -/
theorem C48_errors {root : Tree} (hg : Good root) (hw : WellNamed root) (hn : root.name = []) {e : Err}
    (h : resolveReferences root = .error e) :
    ∃ pos i r rk, treeAt root (pos ++ [i]) = some r ∧ r.kind = .ref rk ∧
      ((e = .missingSymbol r.target ∧ ∀ q, ¬ Means root (namesAt root pos) r.target q) ∨
       (∃ q m, Means root (namesAt root pos) r.target q ∧ root.descend q = some m ∧ ¬ KindFits rk m.kind ∧
          e = .incorrectReferenceType (referencify (pathText q))) ∨
       (e = .runtimeError ∧ ∃ j r2 rk2 q, j ≠ i ∧ treeAt root (pos ++ [j]) = some r2 ∧ r2.kind = .ref rk2 ∧
          Means root (namesAt root pos) r.target q ∧ Means root (namesAt root pos) r2.target q) ∨
       (e = .assertionError ∧ ∀ s, ¬ EnclosingNamespace root (namesAt root pos) s)) := by
  have hl : resolveList root [] [] root.children = .error e := by
    cases root with
    | mk n k cs =>
      simp only [resolveReferences] at h
      simp only [Tree.children]
      cases hr : resolveList (.mk n k cs) [] [] cs with
      | error e' => rw [hr] at h; simpa only [bind, Except.bind, Except.error.injEq] using h
      | ok cs' => rw [hr] at h; simp [bind, Except.bind, pure, Except.pure] at h
  obtain ⟨pos, node, l, c, rr, l', rk, h1, h2, h3, h4, h5, h6⟩ := resolve_error_at root hl
  simp only [List.nil_append] at h4 h6
  have happ : ∀ (pos : List Nat) (t : Tree) (i : Nat) (c : Tree), treeAt t pos = some node → node.children[i]? = some c →
      treeAt t (pos ++ [i]) = some c := by
    intro pos
    induction pos with
    | nil => intro t i c ht hi; simp only [treeAt, Option.some.injEq] at ht; subst ht; simp [treeAt, hi]
    | cons j js ih =>
      intro t i c ht hi
      simp only [List.cons_append, treeAt] at ht ⊢
      cases hj : t.children[j]? with
      | none => simp [hj] at ht
      | some d => rw [hj] at ht; simp only; exact ih d i c ht hi
  have hat : treeAt root (pos ++ [l.length]) = some c := happ pos root l.length c h1 (by simp [h2])
  have hpar : ∀ k ∈ namesAt root pos, '@' ∉ k := by
    have := parent_noat hw _ hat (by simp)
    simpa using this
  have href : ∀ (j : Nat) (d : Tree) (k : RefKind), treeAt root (pos ++ [j]) = some d → d.kind = .ref k →
      ∃ b, d.name = '@' :: b ∧ '.' ∉ b := by
    intro j d k hd hk
    obtain ⟨b, hb, _⟩ := (treeAt_wellNamed hw hd).ref_name hk
    exact ⟨b, hb, fun hx => (treeAt_good hg hd).name (by rw [hb]; simp [hx])⟩
  obtain ⟨b, hb, hdot⟩ := href _ c rk hat h5
  rw [hb] at h6
  refine ⟨pos, l.length, c, rk, hat, h5, ?_⟩
  have htgt : c.target = dereferencify ('@' :: b) := by rw [Tree.target, hb]
  rw [htgt]
  rcases resolveRef_spec hg hn hpar rk hdot ((l' ++ rr).map Tree.name) with ⟨q, m, _, _, _, _, g⟩ | ⟨g, g2⟩ | ⟨q, m, g1, g2, g3, g⟩ | ⟨q, g1, g2, g3, g⟩ | ⟨g, g2⟩
  · rw [g] at h6; cases h6
  · rw [g] at h6; cases h6; exact .inl ⟨rfl, g2⟩
  · rw [g] at h6; cases h6; exact .inr (.inl ⟨q, m, g1, g2, g3, rfl⟩)
  · rw [g] at h6; cases h6
    refine .inr (.inr (.inl ⟨rfl, ?_⟩))
    obtain ⟨d, hd, hname⟩ := List.mem_map.mp g3
    have hqn := means_noat g1 (dereferencify_noat _) hpar
    have hqd : ∀ k ∈ q, '.' ∉ k := by
      obtain ⟨m, hm⟩ := means_node g1; exact descend_nodot hg hm
    have hqne : q ≠ [] := means_ne_nil g1
    rcases List.mem_append.mp hd with hd | hd
    · obtain ⟨j, hj⟩ := List.mem_iff_getElem?.mp hd
      have hlt : j < l'.length := by
        rcases Nat.lt_or_ge j l'.length with h | h
        · exact h
        · rw [List.getElem?_eq_none h] at hj; cases hj
      have hlj : l[j]? = some (l[j]'(by omega)) := List.getElem?_eq_getElem (by omega)
      have hcj : node.children[j]? = some (l[j]'(by omega)) := by
        rw [h2, List.getElem?_append_left (by omega)]; exact hlj
      have hatj := happ pos root j _ h1 hcj
      generalize l[j]'(by omega) = o at hlj hcj hatj
      obtain ⟨sib, hres⟩ := h4 j o d hlj hj
      rw [← o.eta] at hres
      obtain ⟨n', ds', rfl, _, hnew⟩ := resolveTree_ok hres
      simp only [Tree.name] at hname
      have hoat := treeAt_wellNamed hw hatj
      cases hok : o.kind
      case ref rk2 =>
        rw [hok] at hnew
        simp only [NewName] at hnew
        obtain ⟨b2, hb2, hdot2⟩ := href _ o rk2 hatj hok
        rw [hb2] at hnew
        rcases resolveRef_spec hg hn hpar rk2 hdot2 sib with ⟨q2, m2, k1, _, _, _, k5⟩ | ⟨k1, _⟩ | ⟨_, _, _, _, _, k1⟩ | ⟨_, _, _, _, k1⟩ | ⟨k1, _⟩
        · rw [k5] at hnew
          simp only [Except.ok.injEq] at hnew
          have hq2n := means_noat k1 (dereferencify_noat _) hpar
          have heq : pathText q2 = pathText q := by
            have := congrArg dereferencify (hnew.trans hname)
            rwa [dereferencify_referencify (pathText_noat hq2n), dereferencify_referencify (pathText_noat hqn)] at this
          have hq2d : ∀ k ∈ q2, '.' ∉ k := by
            obtain ⟨m, hm⟩ := means_node k1; exact descend_nodot hg hm
          have := pathText_inj hq2d hqd heq
          subst this
          refine ⟨j, o, rk2, q2, by omega, hatj, hok, g1, ?_⟩
          rw [Tree.target, hb2]; exact k1
        all_goals rw [k1] at hnew; cases hnew
      all_goals
        exfalso
        rw [hok] at hnew
        simp only [NewName] at hnew
        have hno := hoat.other (by rw [hok]; simp)
        rw [← hnew, hname] at hno
        exact hno (by simp [referencify])
    · obtain ⟨j, hj⟩ := List.mem_iff_getElem?.mp hd
      have hcj : node.children[l.length + 1 + j]? = some d := by
        rw [h2, List.getElem?_append_right (by omega)]
        have : l.length + 1 + j - l.length = j + 1 := by omega
        rw [this, List.getElem?_cons_succ]; exact hj
      have hatj := happ pos root _ _ h1 hcj
      have hdw := treeAt_wellNamed hw hatj
      cases hdk : d.kind
      case ref rk2 =>
        refine ⟨l.length + 1 + j, d, rk2, q, by omega, hatj, hdk, g1, ?_⟩
        rw [Tree.target, hname, dereferencify_referencify (pathText_noat hqn)]
        obtain ⟨m, hm⟩ := means_node g1
        exact .absolute ⟨m, hm⟩ hqne
      all_goals
        exfalso
        have hno := hdw.other (by rw [hdk]; simp)
        rw [hname] at hno
        exact hno (by simp [referencify])
  · rw [g] at h6; cases h6; exact .inr (.inr (.inr ⟨rfl, g2⟩))

/-- A reference that means nothing makes resolution fail. -/
theorem C48_missing_rejected {root : Tree} (hg : Good root) (hw : WellNamed root) (hn : root.name = []) {pos : List Nat}
    {r : Tree} {rk : RefKind} (hr : treeAt root pos = some r) (hk : r.kind = .ref rk)
    (hm : ∀ q, ¬ Means root (namesAt root pos.dropLast) r.target q) : ∃ e, resolveReferences root = .error e := by
  cases h : resolveReferences root with
  | error e => exact ⟨e, rfl⟩
  | ok root' =>
    obtain ⟨_, q, _, _, _, h1, _⟩ := C48_resolved hg hw hn h hr hk
    exact absurd h1 (hm q)

/-- If every reference means a node of the expected class, and no two references of one definition mean the same node,
then resolution succeeds. -/
theorem C48_accepted {root : Tree} (hg : Good root) (hw : WellNamed root) (hn : root.name = [])
    (hall : ∀ pos r rk, treeAt root pos = some r → r.kind = .ref rk →
      ∃ q m, Means root (namesAt root pos.dropLast) r.target q ∧ root.descend q = some m ∧ KindFits rk m.kind)
    (hdiff : ∀ pos i j r s rk sk q, treeAt root (pos ++ [i]) = some r → treeAt root (pos ++ [j]) = some s →
      r.kind = .ref rk → s.kind = .ref sk → Means root (namesAt root pos) r.target q →
      Means root (namesAt root pos) s.target q → i = j)
    (hns : ∀ pos r rk, treeAt root pos = some r → r.kind = .ref rk → ∃ s, EnclosingNamespace root (namesAt root pos.dropLast) s) :
    ∃ root', resolveReferences root = .ok root' := by
  cases h : resolveReferences root with
  | ok root' => exact ⟨root', rfl⟩
  | error e =>
    exfalso
    obtain ⟨pos, i, r, rk, h1, h2, h3⟩ := C48_errors hg hw hn h
    obtain ⟨q, m, g1, g2, g3⟩ := hall _ r rk h1 h2
    obtain ⟨s, g4⟩ := hns _ r rk h1 h2
    simp only [List.dropLast_concat] at g1 g4
    rcases h3 with ⟨_, h3⟩ | ⟨q', m', k1, k2, k3, _⟩ | ⟨_, j, r2, rk2, q', k1, k2, k3, k4, k5⟩ | ⟨_, h3⟩
    · exact h3 q g1
    · have := means_unique hg g1 k1
      subst this
      rw [g2] at k2; cases k2
      exact k3 g3
    · exact k1 (hdiff pos i j r r2 rk rk2 q' h1 k2 h2 k3 k4 k5).symm
    · exact h3 s g4

/-- A schema whose references use all ways of resolution: `S.f`, `v` and `S` of the explicit reference (enclosing archive
for `v`, enclosing namespace for `S`), an absolute name, a constant and an enumeration. -/
def resolveSample : List PBlock :=
  [{ name := "n.m".toList
     constants := [⟨"K".toList, .u8, 7⟩]
     structures := [⟨"S".toList, [⟨"f".toList, [.constRef "K".toList], "u8".toList, some 5⟩, ⟨"g".toList, [], "E".toList, none⟩]⟩]
     enumerations := [⟨"E".toList, .u8, some 1, [("A".toList, none), ("B".toList, none)]⟩]
     archives := [⟨"R".toList, [], [⟨"v".toList, [.explicitReference "S".toList "f".toList "v".toList], .vector ".n.m.S".toList⟩,
       ⟨"w".toList, [], .vector "S".toList⟩]⟩] }]

/-- The tree of the sample before resolution. -/
def resolveSampleTree : Tree :=
  match buildNodeTree resolveSample >>= appendBuiltins with
  | .ok t => t
  | .error _ => .mk [] .root []

/-- The sample meets the hypotheses of the theorems, and resolution succeeds on it. -/
example : (∀ b ∈ resolveSample, PlainNames b) ∧ (buildNodeTree resolveSample >>= appendBuiltins) = .ok resolveSampleTree ∧
    (∃ root', resolveReferences resolveSampleTree = .ok root') ∧
    (resolveReferences resolveSampleTree).toOption.map (fun t => ((t.iter []).filter fun e => '@' ∈ (e.2.name)).map (·.1)) =
      some ([["n", "m", "S", "f", "@@n@m@K"], ["n", "m", "S", "g", "@@n@m@E"],
        ["n", "m", "R", "v", "er_S_f_v", "@@n@m@R@v"], ["n", "m", "R", "v", "er_S_f_v", "@@n@m@S@f"],
        ["n", "m", "R", "v", "er_S_f_v", "@@n@m@S"], ["n", "m", "R", "v", "@@n@m@S"],
        ["n", "m", "R", "w", "@@n@m@S"]].map (·.map String.toList)) := by
  refine ⟨?_, by rfl, ?_, by decide +kernel⟩
  · intro b hb
    simp only [resolveSample, List.mem_singleton] at hb
    subst hb
    refine ⟨by decide, by decide, by decide, by decide, ?_⟩
    intro a ha
    simp only [List.mem_singleton] at ha
    subst ha
    refine ⟨by decide, by decide, ?_⟩
    intro r hr
    simp only [List.mem_cons, List.not_mem_nil, or_false] at hr
    rcases hr with rfl | rfl
    · refine ⟨by decide, ?_⟩
      intro s f d h
      simp only [List.mem_singleton, PResDeco.explicitReference.injEq] at h
      obtain ⟨rfl, rfl, rfl⟩ := h
      decide
    · exact ⟨by decide, by simp⟩
  have : (resolveReferences resolveSampleTree).toOption.isSome = true := by decide +kernel
  cases h : resolveReferences resolveSampleTree with
  | ok t => exact ⟨t, rfl⟩
  | error e => rw [h] at this; cases this

end Props
