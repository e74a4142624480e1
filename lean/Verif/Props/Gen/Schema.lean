import Verif.Lemmas.GenMeaning

/-!
# C56, C57: schema texts

`Compile source (.ok t)` says that the generator accepts a source text and builds the tree `t`; `Schema t q (.ok x)` that the
schema it embeds into generated code for the node at `q` (a definition or a resource) is the text `x`.
-/

namespace Props
open Gen Spec

theorem compile_blocks {s : Text} {t : Tree} (h : Compile s (.ok t)) : ∃ blocks, parseSource s = .ok blocks ∧ (∀ b ∈ blocks, Lexical b) ∧ BuildAst blocks (.ok t) := by
  unfold Compile at h
  cases hp : parseSource s with
  | error e => rw [hp] at h; cases h
  | ok blocks => rw [hp] at h; exact ⟨blocks, rfl, parseSource_lexical hp, h⟩

theorem compile_compiled {s : Text} {t : Tree} (h : Compile s (.ok t)) : Compiled t := by
  obtain ⟨blocks, _, h1, h2⟩ := compile_blocks h
  exact compiled h1 h2

/-! ## C57 -/

theorem loose_of {t : Tree} {l : List (List Text × PEntry)} (h : ∀ w ∈ l, w.1 ≠ [] ∧ (∀ k ∈ w.1, NsName k) ∧ NormalEntry (DecoOk t) w.2) :
    ∀ w ∈ l, w.1 ≠ [] ∧ (∀ k ∈ w.1, NsName k) ∧ NormalEntry LooseDeco w.2 :=
  fun w hw => ⟨(h w hw).1, (h w hw).2.1, NormalEntry.mono (fun _ hd => hd.1) (h w hw).2.2⟩

theorem append_last {α : Type} {a b : List α} {x y : α} (h : a ++ [x] = b ++ [y]) : a = b ∧ x = y := by
  have := List.append_inj' h rfl
  exact ⟨this.1, by simpa using this.2⟩

/-- The definitions below two nodes with the same schema. -/
theorem below_same {t t' : Tree} (hc : Compiled t) (hc' : Compiled t') (hf : Flat t) (hf' : Flat t') {q q' : Path} {init : List (List Text × PEntry)}
    (h : ∀ w, w ∈ init ↔ Below t q w) (h' : ∀ w, w ∈ init ↔ Below t' q' w) {k : Nat} {p : Path} {m : Tree} (hw : Walk (depChildren t) (k + 1) q p)
    (hm : t.descend p = some m) (hd : Spec.Kind.isDefinition m.kind = true) (hp : ¬ InBuiltin p) :
    ∃ m', t'.descend p = some m' ∧ definitionRecord m' = definitionRecord m := by
  obtain ⟨e, he⟩ := Option.isSome_iff_exists.mp (record_isSome.trans hd)
  obtain ⟨k', p', m', e', _, a2, _, a4, a5⟩ := (h' _).mp ((h _).mpr ⟨k, p, m, e, hw, hm, hp, he, rfl⟩)
  simp only [Prod.mk.injEq] at a5
  obtain ⟨a5, rfl⟩ := a5
  have e1 := hc.defPath hf hm he
  have e2 := hc'.defPath hf' a2 a4
  rw [← a5, ← e1] at e2
  exact ⟨m', e2 ▸ a2, a4.trans he.symm⟩

theorem walk_enumeration {t : Tree} (hc : Compiled t) {p : Path} {m f r : Tree} {w : Option Nat} (hm : t.descend p = some m) (hf : f ∈ m.children) (hr : r ∈ f.children)
    (hk : r.kind = .ref (.enumeration w)) : Walk (depChildren t) 2 p r.targetPath := by
  have hfd := hc.child hm hf
  have hfr : ∀ rk, f.kind ≠ .ref rk := by
    intro rk hrk
    rw [hc.lk.leaf _ f rk hfd hrk] at hr; cases hr
  refine .step (b := p ++ [f.name]) (.step (.refl _) ?_) ?_
  · unfold depChildren
    rw [hm]
    simp only [List.mem_append, List.mem_map, Tree.childrenLike, List.mem_filter]
    refine .inl ⟨f, ⟨hf, ?_⟩, rfl⟩
    cases h : f.kind with
    | ref rk => exact absurd h (hfr rk)
    | _ => rfl
  · unfold depChildren
    rw [hfd]
    simp only [List.mem_append, List.mem_map, Tree.childrenLike, List.mem_filter]
    exact .inr ⟨r, ⟨hr, by rw [hk]; rfl⟩, rfl⟩

/-- Meanings, given that records of what is below are the same. -/
theorem below_meaning {t t' : Tree} (hc : Compiled t) (hc' : Compiled t') (hf : Flat t) (hf' : Flat t') (hb : NoBuiltin t) {q q' : Path} {init : List (List Text × PEntry)}
    (h : ∀ w, w ∈ init ↔ Below t q w) (h' : ∀ w, w ∈ init ↔ Below t' q' w) {k : Nat} {p : Path} {m m' : Tree} (hw : Walk (depChildren t) k q p)
    (hm : t.descend p = some m) (hm' : t'.descend p = some m') (hr : definitionRecord m = definitionRecord m') : meaning m = meaning m' := by
  refine meaning_eq hc hc' hm hm' hr ?_
  intro f hfm r hrm w hk n hn
  have hrd := hc.child (hc.child hm hfm) hrm
  obtain ⟨n2, _, h2, h3, _⟩ := hc.target hrd hk
  rw [hn] at h2
  injection h2 with h2
  subst h2
  obtain ⟨b, hb2⟩ := h3
  refine below_same hc hc' hf hf' h h' (k := k + 1) (by rw [show k + 1 + 1 = k + 2 by omega]; exact walk_trans hw (walk_enumeration hc hm hfm hrm hk)) hn (by rw [hb2]; rfl) ?_
  intro hbt
  exact hb _ _ _ hrd hk (by simp) (List.dropLast_subset _ hbt)

/-- C57 (structures, archives, enumerations, constants). Let two accepted sources, in which no definition contains a
namespace and nothing refers into a namespace called `_builtin`, have definitions with equal schema texts. Then the
definitions have the same path, and every definition the one of them consists of, directly or not, exists at the same path
in the other source with the same meaning: the same size and the same fields at the same offsets with the same widths and
signs, the same values, the same resources. -/
theorem C57_definitions {s s' : Text} {t t' : Tree} (h : Compile s (.ok t)) (h' : Compile s' (.ok t')) (hf : Flat t) (hf' : Flat t') (hb : NoBuiltin t) (hb' : NoBuiltin t')
    {q q' : Path} {n n' : Tree} (hn : t.descend q = some n) (hn' : t'.descend q' = some n') (hd : Spec.Kind.isDefinition n.kind = true)
    (hd' : Spec.Kind.isDefinition n'.kind = true) (hq : ¬ InBuiltin q) (hq' : ¬ InBuiltin q') {x : Text} (hx : Schema t q (.ok x)) (hx' : Schema t' q' (.ok x)) :
    q = q' ∧ ∀ p m, Reachable (depChildren t) q p → t.descend p = some m → Spec.Kind.isDefinition m.kind = true → ¬ InBuiltin p →
      ∃ m', t'.descend p = some m' ∧ meaning m' = meaning m := by
  have hc := compile_compiled h
  have hc' := compile_compiled h'
  obtain ⟨e, he⟩ := Option.isSome_iff_exists.mp (record_isSome.trans hd)
  obtain ⟨e', he'⟩ := Option.isSome_iff_exists.mp (record_isSome.trans hd')
  obtain ⟨init, a1, a2, a3⟩ := hc.definitionSchema hf hb hn he hq hx
  obtain ⟨init', b1, b2, b3⟩ := hc'.definitionSchema hf' hb' hn' he' hq' hx'
  have heq := sourceText_inj (loose_of a3) (loose_of b3) (a1.symm.trans b1)
  obtain ⟨rfl, hlast⟩ := append_last heq
  simp only [Prod.mk.injEq] at hlast
  obtain ⟨hq1, rfl⟩ := hlast
  have e1 := hc.defPath hf hn he
  have e2 := hc'.defPath hf' hn' he'
  have hqq : q = q' := by rw [e1, e2, hq1]
  refine ⟨hqq, ?_⟩
  rintro p m ⟨k, hw⟩ hm hmd hp
  cases k with
  | zero =>
    cases hw
    rw [hn] at hm
    injection hm with hm
    subst hm
    subst hqq
    exact ⟨n', hn', (below_meaning hc hc' hf hf' hb a2 b2 (.refl _) hn hn' (he.trans he'.symm)).symm⟩
  | succ k =>
    obtain ⟨m', c1, c2⟩ := below_same hc hc' hf hf' a2 b2 hw hm hmd hp
    exact ⟨m', c1, (below_meaning hc hc' hf hf' hb a2 b2 hw hm c1 c2.symm).symm⟩

/-- C57 (resources). The same for resources of archives: equal schema texts mean that the resources have the same path, the
same class (with the same width of the index of a multivector) and the same types, and that these types, and everything they
consist of, have the same meaning. (The reader compares the schema of each resource.) -/
theorem C57_resources {s s' : Text} {t t' : Tree} (h : Compile s (.ok t)) (h' : Compile s' (.ok t')) (hf : Flat t) (hf' : Flat t') (hb : NoBuiltin t) (hb' : NoBuiltin t')
    {a a' : Path} {r r' : Text} {n n' : Tree} (hn : t.descend (a ++ [r]) = some n) (hn' : t'.descend (a' ++ [r']) = some n') (hd : n.kind.isResource = true)
    (hd' : n'.kind.isResource = true) (hq : ¬ InBuiltin a) (hq' : ¬ InBuiltin a') {x : Text} (hx : Schema t (a ++ [r]) (.ok x)) (hx' : Schema t' (a' ++ [r']) (.ok x)) :
    a = a' ∧ r = r' ∧ resourceLayout n = resourceLayout n' ∧ boundRecord n = boundRecord n' ∧
    ∀ p m, Reachable (depChildren t) (a ++ [r]) p → t.descend p = some m → Spec.Kind.isDefinition m.kind = true → ¬ InBuiltin p →
      ∃ m', t'.descend p = some m' ∧ meaning m' = meaning m := by
  have hc := compile_compiled h
  have hc' := compile_compiled h'
  obtain ⟨m, init, a0, a0', a1, a2, a3⟩ := hc.resourceSchema hf hb hn hd hq hx
  obtain ⟨m', init', b0, b0', b1, b2, b3⟩ := hc'.resourceSchema hf' hb' hn' hd' hq' hx'
  have heq := sourceText_inj (loose_of a3) (loose_of b3) (a1.symm.trans b1)
  obtain ⟨rfl, hlast⟩ := append_last heq
  simp only [Prod.mk.injEq, PEntry.archive.injEq, archiveRecord, PArchive.mk.injEq, Tree.name, Tree.children] at hlast
  obtain ⟨hq1, h1, h2, h3⟩ := hlast
  have hres : ∀ {t : Tree} {q : Path} {n : Tree}, Compiled t → Flat t → NoBuiltin t → t.descend q = some n → n.kind.isResource = true →
      (∃ g, boundRecord n = some g ∧ g.1 = n.name) ∨ (boundRecord n = none ∧ ∃ x, resourceRecord n = some x ∧ x.name = n.name) := by
    intro t q n hc hf hb hn hr
    cases hk : n.kind <;> rw [hk] at hr <;> try (cases hr; done)
    rename_i k o m
    by_cases hkb : k = .bound
    · subst hkb
      exact .inl ⟨_, by unfold boundRecord; rw [hk], rfl⟩
    · obtain ⟨x, hx, _⟩ := hc.res hf hb hn hk hkb
      refine .inr ⟨?_, x, hx, ?_⟩
      · unfold boundRecord; rw [hk]; cases k <;> first | rfl | exact absurd rfl hkb
      · unfold resourceRecord at hx
        split at hx
        · injection hx with hx; subst hx; rfl
        · cases hx
  have hlist : ∀ {α : Type} {f : Tree → Option α}, [n].filterMap f = [n'].filterMap f → f n = f n' := by
    intro α f hl
    cases h1 : f n <;> cases h2 : f n' <;> simp_all
  have hbr := hlist h2
  have hrr := hlist h3
  obtain ⟨_, _, _, hname⟩ := descend_parent hn
  obtain ⟨_, _, _, hname'⟩ := descend_parent hn'
  have hr : r = r' := by
    rw [← hname, ← hname']
    rcases hres hc hf hb hn hd with ⟨g, g1, g2⟩ | ⟨g0, y, g1, g2⟩
    · rcases hres hc' hf' hb' hn' hd' with ⟨g', g1', g2'⟩ | ⟨g0', _⟩
      · rw [hbr, g1'] at g1; injection g1 with g1; rw [← g2, ← g2', g1]
      · rw [hbr, g0'] at g1; cases g1
    · rcases hres hc' hf' hb' hn' hd' with ⟨g', g1', _⟩ | ⟨_, y', g1', g2'⟩
      · rw [hbr, g1'] at g0; cases g0
      · rw [hrr, g1'] at g1; injection g1 with g1; rw [← g2, ← g2', g1]
  have ha : a = a' := by
    have e1 := hc.defPath hf a0 (e := .archive (archiveRecord m)) (by unfold definitionRecord; rw [a0'])
    have e2 := hc'.defPath hf' b0 (e := .archive (archiveRecord m')) (by unfold definitionRecord; rw [b0'])
    have h1 : m.name = m'.name := h1
    rw [e1, e2, hq1]
    show _ ++ [m.name] = _ ++ [m'.name]
    rw [h1]
  refine ⟨ha, hr, ?_, hbr, ?_⟩
  · rw [hc.resourceMeaning hn, hc'.resourceMeaning hn', hrr]
  · rintro p y ⟨k, hw⟩ hy hyd hp
    cases k with
    | zero =>
      cases hw
      rw [hn] at hy
      injection hy with hy
      subst hy
      cases hk : n.kind <;> rw [hk] at hd hyd <;> first | (cases hd; done) | (cases hyd; done)
    | succ k =>
      obtain ⟨y', c1, c2⟩ := below_same hc hc' hf hf' a2 b2 hw hy hyd hp
      exact ⟨y', c1, (below_meaning hc hc' hf hf' hb a2 b2 hw hy c1 c2.symm).symm⟩

/-! ## C56 -/

/-- Every node for which there is a schema has exactly one. -/
theorem C56_schema {s : Text} {t : Tree} (h : Compile s (.ok t)) (hf : Flat t) (hb : NoBuiltin t) {q : Path} {n : Tree} (hn : t.descend q = some n)
    (hd : Spec.Kind.isDefinition n.kind = true ∨ n.kind.isResource = true) : ∃ x, Schema t q (.ok x) ∧ ∀ out, Schema t q out → out = .ok x := by
  have hc := compile_compiled h
  have hp : Printable n.kind = true := by unfold Printable; rw [Bool.or_eq_true]; exact hd
  obtain ⟨blocks, _, hl, hba⟩ := compile_blocks h
  have hplain : ∀ b ∈ blocks, PlainNames b := fun b hb => lexical_plain (hl b hb)
  have hfin := extract_finite hc.lk hn
  have hnr : ∀ rk, n.kind ≠ .ref rk := by
    intro rk hk
    rw [hk] at hd
    rcases hd with hd | hd <;> cases hd
  -- everything below is no reference
  have hbelow : ∀ k p, Walk (depChildren t) k q p → ∃ m, t.descend p = some m ∧ ∀ rk, m.kind ≠ .ref rk := by
    intro k
    induction k with
    | zero => intro p hw; cases hw; exact ⟨n, hn, hnr⟩
    | succ k ih =>
      intro p hw
      cases hw with
      | @step _ _ b _ hw hch =>
        obtain ⟨m, hm, hmr⟩ := ih b hw
        unfold depChildren at hch
        rw [hm] at hch
        simp only [List.mem_append, List.mem_map, Tree.childrenLike, List.mem_filter] at hch
        rcases hch with ⟨d, ⟨hd, hdk⟩, rfl⟩ | ⟨d, ⟨hd, hdk⟩, rfl⟩
        · refine ⟨d, hc.child hm hd, ?_⟩
          intro rk hrk
          rw [hrk] at hdk; cases hdk
        · have : ∃ rk, d.kind = .ref rk := by
            cases hk : d.kind with
            | ref rk => exact ⟨rk, rfl⟩
            | _ => rw [hk] at hdk; cases hdk
          obtain ⟨rk, hrk⟩ := this
          obtain ⟨m', _, h2, h3, _⟩ := hc.target (hc.child hm hd) hrk
          exact ⟨m', h2, fun rk' => (fits_nonref' (rk' := rk') h3).1⟩
  have hacyc : ∀ v, Reachable (extractChildren t q) (true, []) v → ¬ OnCycle (extractChildren t q) v := by
    have hcopy : ∀ k i d, i ≤ q.length → Walk (extractChildren t q) k (true, q.take i) d → (d = (true, q.take (i + k)) ∧ i + k ≤ q.length) ∨ ∃ p, d = (false, p) := by
      intro k
      induction k with
      | zero => intro i d hi hw; cases hw; exact .inl ⟨rfl, hi⟩
      | succ k ih =>
        intro i d hi hw
        cases hw with
        | step hw hch =>
          rcases ih i _ hi hw with ⟨rfl, hle⟩ | ⟨p, rfl⟩
          · rcases Nat.lt_or_ge (i + k) q.length with hlt | hge
            · rw [extract_copy hlt, List.mem_singleton] at hch
              exact .inl ⟨hch, by omega⟩
            · rw [List.take_of_length_le hge, extract_node] at hch
              obtain ⟨d, _, rfl⟩ := List.mem_map.mp hch
              exact .inr ⟨d, rfl⟩
          · rw [extract_below] at hch
            obtain ⟨d, _, rfl⟩ := List.mem_map.mp hch
            exact .inr ⟨d, rfl⟩
    have hdown : ∀ k p d, Walk (extractChildren t q) k (false, p) d → ∃ p', d = (false, p') ∧ Walk (depChildren t) k p p' := by
      intro k
      induction k with
      | zero => intro p d hw; cases hw; exact ⟨p, rfl, .refl _⟩
      | succ k ih =>
        intro p d hw
        cases hw with
        | step hw hch =>
          obtain ⟨p', rfl, hw'⟩ := ih p _ hw
          rw [extract_below] at hch
          obtain ⟨d, hd, rfl⟩ := List.mem_map.mp hch
          exact ⟨d, rfl, .step hw' hd⟩
    rintro v hv ⟨k, hk⟩
    rcases extract_reach hv with ⟨i, hi, rfl⟩ | ⟨p, j, rfl, hj⟩
    · rcases hcopy (k + 1) i _ hi hk with ⟨he, hle⟩ | ⟨p, he⟩
      · have := congrArg (fun v => v.2.length) he
        simp only [List.length_take] at this
        omega
      · simp at he
    · obtain ⟨p', he, hw⟩ := hdown (k + 1) p _ hk
      simp only [Prod.mk.injEq, true_and] at he
      subst he
      obtain ⟨m, hm, hmr⟩ := hbelow _ _ hj
      exact C64_acyclic hplain hba hm hmr ⟨k, hw⟩
  obtain ⟨out, ho, _⟩ := C50_terminates _ _ _ hfin
  cases out with
  | error e =>
    obtain ⟨v, h1, h2⟩ := (C50_circular_iff _ _ _ hfin _ ho).1.mp ⟨e, rfl⟩
    exact absurd h2 (hacyc v h1)
  | ok events =>
    obtain ⟨_, a2, _⟩ := C49_dependency_order _ _ _ hfin events ho
    obtain ⟨x, b1, _⟩ := hc.render hf hb hn hp (order := dependencyOrder events) (fun v hv => (a2 v).mp hv)
    refine ⟨x, ?_, ?_⟩
    · obtain ⟨k, hk⟩ := ho
      refine ⟨k, ?_⟩
      unfold schemaN
      rw [hk]
      simp only
      rw [b1]
    · rintro out ⟨k, hk⟩
      unfold schemaN at hk
      cases hr : Dfs.run (extractChildren t q) k (Dfs.init (true, [])) with
      | none => rw [hr] at hk; cases hk
      | some r =>
        have := dfs_deterministic ⟨k, hr⟩ ho
        subst this
        rw [hr] at hk
        simp only [Option.some.injEq] at hk
        rw [← hk, b1]

/-- Definitions outside of `_builtin` are in namespaces with simple names. -/
def SimpleNamespaces (t : Tree) : Prop :=
  (∀ p m, t.descend p = some m → Spec.Kind.isDefinition m.kind = true → ¬ InBuiltin p → p.length = 2) ∧
  ∀ p m, t.descend p = some m → m.kind = .namespace → Ident m.name

theorem parse_newlines (t : Text) : parseSource ('\n' :: '\n' :: 'n' :: t) = parseSource ('n' :: t) := by
  have hc1 : comment ('\n' :: '\n' :: 'n' :: t) = .fail := comment_fail (d := 'n') rfl (by decide)
  have hc2 : comment ('n' :: t) = .fail := comment_fail (d := 'n') rfl (by decide)
  have hn : namespaceDecl ('\n' :: '\n' :: 'n' :: t) = namespaceDecl ('n' :: t) := rfl
  have hm : Parser.many1 namespaceDecl ('\n' :: '\n' :: 'n' :: t) = Parser.many1 namespaceDecl ('n' :: t) := by
    show Parser.seq namespaceDecl _ _ = Parser.seq namespaceDecl _ _
    unfold Parser.seq
    rw [hn]
  have hg : flatdataGrammar ('\n' :: '\n' :: 'n' :: t) = flatdataGrammar ('n' :: t) := by
    have e1 : flatdataGrammar ('\n' :: '\n' :: 'n' :: t) = Parser.many1 namespaceDecl ('\n' :: '\n' :: 'n' :: t) := seq_intro (many_none hc1) rfl
    have e2 : flatdataGrammar ('n' :: t) = Parser.many1 namespaceDecl ('n' :: t) := seq_intro (many_none hc2) rfl
    rw [e1, e2, hm]
  unfold parseSource
  rw [if_neg (by simp), if_neg (by simp), hg]

theorem parse_printed {t : Tree} (hi : IdentNamespaces t) {es : List (List Text × PEntry)} {x : Text} (hne : es ≠ []) (h1 : '\n' :: '\n' :: x = sourceText es)
    (h2 : ∀ w ∈ es, w.1 ≠ [] ∧ (∀ k ∈ w.1, NsName k) ∧ NormalEntry (DecoOk t) w.2) (h3 : ∀ w ∈ es, ∃ ns, w.1 = [ns] ∧ Ident ns) :
    parseSource x = .ok (es.map fun w => blockOf (w.1.headD []) [w.2]) := by
  obtain ⟨ds, hds⟩ : ∃ ds : List (Text × PEntry), es = ds.map fun e => ([e.1], e.2) := by
    refine ⟨es.map fun w => (w.1.headD [], w.2), ?_⟩
    rw [List.map_map]
    conv_lhs => rw [← List.map_id es]
    apply List.map_congr_left
    intro w hw
    obtain ⟨ns, hns, _⟩ := h3 w hw
    obtain ⟨a, b⟩ := w
    simp only at hns
    subst hns
    rfl
  subst hds
  have hread := source_read (es := ds) (by simpa using hne) (fun e he => by
    obtain ⟨ns, hns, hid⟩ := h3 _ (List.mem_map_of_mem (f := fun e => ([e.1], e.2)) he)
    simp only [List.cons.injEq, and_true] at hns
    rw [hns]
    obtain ⟨c, u, rfl, hc⟩ := ident_head hid
    exact ⟨⟨c, rfl, .inl hc⟩, fun x hx => .inl (hid.2 x hx)⟩) (fun e he => by
    have := (h2 _ (List.mem_map_of_mem (f := fun e => ([e.1], e.2)) he)).2.2
    exact NormalEntry.mono (fun _ hd => hd.2 hi) this)
  rw [← h1] at hread
  obtain ⟨u, hu⟩ : ∃ u, x = 'n' :: u := by
    obtain ⟨d, ds, rfl⟩ := List.exists_cons_of_ne_nil (by simpa using hne : ds ≠ [])
    unfold sourceText at h1
    simp only [List.map_cons, List.flatMap_cons, List.append_assoc] at h1
    obtain ⟨u, hu⟩ := nestedText_head (n := d.1) d.2 ((ds.map fun e => ([e.1], e.2)).flatMap (fun e => nestedText e.1 e.2) ++ ['\n', '\n'])
    rw [hu] at h1
    simp only [List.cons.injEq, true_and] at h1
    exact ⟨_, h1⟩
  subst hu
  rw [parse_newlines] at hread
  rw [hread, List.map_map]
  rfl

theorem simple_path {t : Tree} (hc : Compiled t) (hf : Flat t) (hs : SimpleNamespaces t) {p : Path} {m : Tree} (hm : t.descend p = some m)
    (hd : Spec.Kind.isDefinition m.kind = true) (hp : ¬ InBuiltin p) : ∃ ns, p = [ns, m.name] ∧ p.dropLast = [ns] ∧ Ident ns := by
  obtain ⟨ns, k, rfl, h2, _⟩ := hc.namespaces hf hm hd
  have := hs.1 _ _ hm hd hp
  obtain ⟨a, rfl⟩ := List.length_eq_one_iff.mp (show ns.length = 1 by simpa using this)
  · refine ⟨a, by rw [h2]; rfl, rfl, ?_⟩
    exact hc.pathIdent hs.2 hm (by intro rk hk; rw [hk] at hd; cases hd) a (by simp)

/-- C56 (definitions). The schema of a definition is itself a source text: the parser reads from it, each in the namespace it
belongs to, the definition and all definitions it depends on, in terms of full paths (`Spec.definitionRecord`), and nothing
else. This needs namespaces with simple names: see `C56_nested`. -/
theorem C56_definitions {s : Text} {t : Tree} (h : Compile s (.ok t)) (hf : Flat t) (hb : NoBuiltin t) (hs : SimpleNamespaces t) {q : Path} {n : Tree}
    (hn : t.descend q = some n) (hd : Spec.Kind.isDefinition n.kind = true) (hq : ¬ InBuiltin q) {x : Text} (hx : Schema t q (.ok x)) :
    ∃ ds : List (Text × PEntry), parseSource x = .ok (ds.map fun d => blockOf d.1 [d.2]) ∧
      ∀ ns e, (ns, e) ∈ ds ↔ ∃ p m, Reachable (depChildren t) q p ∧ t.descend p = some m ∧ ¬ InBuiltin p ∧ definitionRecord m = some e ∧ p = [ns, m.name] := by
  have hc := compile_compiled h
  obtain ⟨e, he⟩ := Option.isSome_iff_exists.mp (record_isSome.trans hd)
  obtain ⟨init, a1, a2, a3⟩ := hc.definitionSchema hf hb hn he hq hx
  have hsimple : ∀ w ∈ init ++ [(q.dropLast, e)], ∃ p m, Reachable (depChildren t) q p ∧ t.descend p = some m ∧ ¬ InBuiltin p ∧ definitionRecord m = some w.2 ∧ w.1 = p.dropLast := by
    intro w hw
    rcases List.mem_append.mp hw with hw | hw
    · obtain ⟨k, p, m, e', b1, b2, b3, b4, rfl⟩ := (a2 w).mp hw
      exact ⟨p, m, ⟨_, b1⟩, b2, b3, b4, rfl⟩
    · simp only [List.mem_singleton] at hw
      subst hw
      exact ⟨q, n, ⟨0, .refl _⟩, hn, hq, he, rfl⟩
  have hparse := parse_printed hs.2 (by simp) a1 a3 (fun w hw => by
    obtain ⟨p, m, _, h2, h3, h4, h5⟩ := hsimple w hw
    obtain ⟨ns, _, c2, c3⟩ := simple_path hc hf hs h2 (by rw [← record_isSome, h4]; rfl) h3
    exact ⟨ns, h5.trans c2, c3⟩)
  refine ⟨(init ++ [(q.dropLast, e)]).map fun w => (w.1.headD [], w.2), by rw [hparse, List.map_map]; rfl, ?_⟩
  intro ns e'
  rw [List.mem_map]
  constructor
  · rintro ⟨w, hw, he'⟩
    simp only [Prod.mk.injEq] at he'
    obtain ⟨hw1, rfl⟩ := he'
    obtain ⟨p, m, h1, h2, h3, h4, h5⟩ := hsimple w hw
    obtain ⟨a, c1, c2, _⟩ := simple_path hc hf hs h2 (by rw [← record_isSome, h4]; rfl) h3
    refine ⟨p, m, h1, h2, h3, h4, ?_⟩
    rw [h5, c2] at hw1
    simp only [List.headD_cons] at hw1
    rw [c1, hw1]
  · rintro ⟨p, m, ⟨k, hk⟩, h2, h3, h4, h5⟩
    refine ⟨(p.dropLast, e'), ?_, by rw [h5]; rfl⟩
    cases k with
    | zero =>
      cases hk
      rw [hn] at h2
      injection h2 with h2
      subst h2
      rw [he] at h4
      injection h4 with h4
      subst h4
      simp
    | succ k =>
      exact List.mem_append_left _ ((a2 _).mpr ⟨k, p, m, e', hk, h2, h3, h4, rfl⟩)

/-- C56 (resources). The schema of a resource contains, besides all definitions the resource depends on, its archive with this
one resource. -/
theorem C56_resources {s : Text} {t : Tree} (h : Compile s (.ok t)) (hf : Flat t) (hb : NoBuiltin t) (hs : SimpleNamespaces t) {a : Path} {r : Text} {n : Tree}
    (hn : t.descend (a ++ [r]) = some n) (hd : n.kind.isResource = true) (hq : ¬ InBuiltin a) {x : Text} (hx : Schema t (a ++ [r]) (.ok x)) :
    ∃ (ds : List (Text × PEntry)) (ns arch : Text), a = [ns, arch] ∧
      parseSource x = .ok ((ds ++ [(ns, PEntry.archive { name := arch, bounds := (boundRecord n).toList, resources := (resourceRecord n).toList })]).map fun d : Text × PEntry => blockOf d.1 [d.2]) ∧
      ∀ ns e, (ns, e) ∈ ds ↔ ∃ p m, Reachable (depChildren t) (a ++ [r]) p ∧ t.descend p = some m ∧ ¬ InBuiltin p ∧ definitionRecord m = some e ∧ p = [ns, m.name] := by
  have hc := compile_compiled h
  obtain ⟨m, init, a0, a0', a1, a2, a3⟩ := hc.resourceSchema hf hb hn hd hq hx
  have hsimple : ∀ w ∈ init ++ [(a.dropLast, .archive (archiveRecord (.mk m.name .archive [n])))], ∃ ns, w.1 = [ns] ∧ Ident ns := by
    intro w hw
    rcases List.mem_append.mp hw with hw | hw
    · obtain ⟨k, p, m, e', b1, b2, b3, b4, rfl⟩ := (a2 w).mp hw
      obtain ⟨ns, _, c2, c3⟩ := simple_path hc hf hs b2 (by rw [← record_isSome, b4]; rfl) b3
      exact ⟨ns, c2, c3⟩
    · simp only [List.mem_singleton] at hw
      subst hw
      obtain ⟨ns, _, c2, c3⟩ := simple_path hc hf hs a0 (by rw [a0']; rfl) hq
      exact ⟨ns, c2, c3⟩
  have hparse := parse_printed hs.2 (by simp) a1 a3 hsimple
  obtain ⟨ns, c1, c2, _⟩ := simple_path hc hf hs a0 (by rw [a0']; rfl) hq
  refine ⟨init.map fun w => (w.1.headD [], w.2), ns, m.name, c1, ?_, ?_⟩
  · rw [hparse, List.map_append, List.map_append, List.map_map, c2]
    have e1 : archiveRecord (.mk m.name .archive [n]) = { name := m.name, bounds := (boundRecord n).toList, resources := (resourceRecord n).toList } := by
      unfold archiveRecord
      simp only [Tree.name, Tree.children, PArchive.mk.injEq, true_and]
      constructor
      · cases h : boundRecord n <;> simp [h]
      · cases h : resourceRecord n <;> simp [h]
    rw [e1]
    rfl
  · intro ns e'
    rw [List.mem_map]
    constructor
    · rintro ⟨w, hw, he'⟩
      simp only [Prod.mk.injEq] at he'
      obtain ⟨hw1, rfl⟩ := he'
      obtain ⟨k, p, m', e', b1, b2, b3, b4, rfl⟩ := (a2 w).mp hw
      obtain ⟨a', d1, d2, _⟩ := simple_path hc hf hs b2 (by rw [← record_isSome, b4]; rfl) b3
      refine ⟨p, m', ⟨_, b1⟩, b2, b3, b4, ?_⟩
      simp only [d2, List.headD_cons] at hw1
      rw [d1, hw1]
    · rintro ⟨p, m', ⟨k, hk⟩, h2, h3, h4, h5⟩
      refine ⟨(p.dropLast, e'), ?_, by rw [h5]; rfl⟩
      cases k with
      | zero =>
        cases hk
        rw [hn] at h2
        injection h2 with h2
        subst h2
        have : Spec.Kind.isDefinition n.kind = true := by rw [← record_isSome, h4]; rfl
        cases hk : n.kind <;> rw [hk] at hd this <;> first | (cases hd; done) | (cases this; done)
      | succ k =>
        exact (a2 _).mpr ⟨k, p, m', e', hk, h2, h3, h4, rfl⟩

theorem printed_nested {t : Tree} (hi : IdentNamespaces t) {es : List (List Text × PEntry)} {x : Text} (h1 : '\n' :: '\n' :: x = sourceText es)
    (h2 : ∀ w ∈ es, w.1 ≠ [] ∧ (∀ k ∈ w.1, NsName k) ∧ NormalEntry (DecoOk t) w.2) (h3 : ∀ w ∈ es, ∀ k ∈ w.1, Ident k) (h4 : ∃ w ∈ es, w.1.length ≠ 1) :
    parseSource x = .error .parsingError := by
  obtain ⟨pre, w, post, rfl, h5, h6⟩ : ∃ (pre : List (Text × PEntry)) (w : List Text × PEntry) (post : List (List Text × PEntry)),
      es = pre.map (fun e => ([e.1], e.2)) ++ w :: post ∧ w.1.length ≠ 1 ∧ True := by
    clear h1 h2 h3
    induction es with
    | nil => obtain ⟨w, hw, _⟩ := h4; cases hw
    | cons y es ih =>
      by_cases hy : y.1.length = 1
      · obtain ⟨a, ha⟩ := List.length_eq_one_iff.mp hy
        obtain ⟨pre, w, post, rfl, h⟩ := ih (by
          obtain ⟨w, hw, hl⟩ := h4
          rcases List.mem_cons.mp hw with rfl | hw
          · exact absurd hy hl
          · exact ⟨w, hw, hl⟩)
        refine ⟨(a, y.2) :: pre, w, post, ?_, h⟩
        simp only [List.map_cons, List.cons_append, List.cons.injEq, and_true]
        rw [← ha]
      · exact ⟨[], y, es, rfl, hy, trivial⟩
  have hident : ∀ {k : Text}, Ident k → Dotted k := by
    intro k hid
    obtain ⟨c, u, rfl, hc⟩ := ident_head hid
    exact ⟨⟨c, rfl, .inl hc⟩, fun x hx => .inl (hid.2 x hx)⟩
  have hw : w ∈ pre.map (fun e => ([e.1], e.2)) ++ w :: post := by simp
  obtain ⟨ws, e⟩ := w
  match ws, h5, hw, h2, h3, h1 with
  | [], _, hw, h2, _, _ => exact absurd rfl (h2 _ hw).1
  | [a], h5, _, _, _, _ => exact absurd rfl h5
  | a :: b :: ns, _, hw, h2, h3, h1 =>
    have hp : ∀ y ∈ pre, (([y.1], y.2) : List Text × PEntry) ∈ pre.map (fun e => ([e.1], e.2)) ++ (a :: b :: ns, e) :: post := fun e he =>
      List.mem_append_left _ (List.mem_map_of_mem (f := fun e : Text × PEntry => (([e.1], e.2) : List Text × PEntry)) he)
    have hread := source_nested (es := pre) (fun e he => hident (h3 _ (hp e he) _ (by simp)))
      (fun e he => NormalEntry.mono (fun _ hd => hd.2 hi) (h2 _ (hp e he)).2.2) (a := a) (b := b) (ns := ns) (hident (h3 _ hw a (by simp))) (e := e)
      (r := post.flatMap (fun e => nestedText e.1 e.2) ++ ['\n', '\n'])
    have h7 : sourceText (pre.map (fun e => ([e.1], e.2)) ++ (a :: b :: ns, e) :: post) =
        pre.flatMap (fun e => nestedText [e.1] e.2) ++ (nestedText (a :: b :: ns) e ++ (post.flatMap (fun e => nestedText e.1 e.2) ++ ['\n', '\n'])) := by
      unfold sourceText
      rw [List.flatMap_append, List.flatMap_cons, List.flatMap_map]
      simp only [List.append_assoc]
    rw [← h7, ← h1] at hread
    rw [h7] at h1
    obtain ⟨u, hu⟩ : ∃ u, x = 'n' :: u := by
      cases pre with
      | nil =>
        simp only [List.flatMap_nil, List.nil_append] at h1
        have h1' : '\n' :: '\n' :: x = '\n' :: '\n' :: 'n' :: _ := h1
        simp only [List.cons.injEq, true_and] at h1'
        exact ⟨_, h1'⟩
      | cons y pre =>
        simp only [List.flatMap_cons, List.append_assoc] at h1
        have h1' : '\n' :: '\n' :: x = '\n' :: '\n' :: 'n' :: _ := h1
        simp only [List.cons.injEq, true_and] at h1'
        exact ⟨_, h1'⟩
    subst hu
    rw [parse_newlines] at hread
    exact hread

theorem printed_ident {t : Tree} (hc : Compiled t) (hi : IdentNamespaces t) {p : Path} {m : Tree} (hm : t.descend p = some m)
    (hd : Spec.Kind.isDefinition m.kind = true) : ∀ k ∈ p.dropLast, Ident k :=
  fun k hk => hc.pathIdent hi hm (by intro rk hk; rw [hk] at hd; cases hd) k (List.dropLast_subset _ hk)

theorem dropLast_length {p : Path} {m t : Tree} (hr : t.kind = .root) (hm : t.descend p = some m) (hd : Spec.Kind.isDefinition m.kind = true) (h : p.length ≠ 2) : p.dropLast.length ≠ 1 := by
  rw [List.length_dropLast]
  cases p with
  | nil =>
    simp only [Tree.descend, Option.some.injEq] at hm
    subst hm
    rw [hr] at hd; cases hd
  | cons a p =>
    simp only [List.length_cons] at h ⊢
    omega

/-- C56 (nested namespaces). If one of the definitions in the schema of a definition is in a nested namespace `a.b`, then the
schema is not accepted by the grammar: the generator prints `namespace a { namespace b { … } }`, but the grammar knows
nested namespaces only as `namespace a.b { … }`. -/
theorem C56_nested {s : Text} {t : Tree} (h : Compile s (.ok t)) (hf : Flat t) (hb : NoBuiltin t) (hi : ∀ p m, t.descend p = some m → m.kind = .namespace → Ident m.name)
    {q : Path} {n : Tree} (hn : t.descend q = some n) (hd : Spec.Kind.isDefinition n.kind = true) (hq : ¬ InBuiltin q) {x : Text} (hx : Schema t q (.ok x))
    {p : Path} {m : Tree} (hp : Reachable (depChildren t) q p) (hm : t.descend p = some m) (hmd : Spec.Kind.isDefinition m.kind = true) (hpb : ¬ InBuiltin p)
    (hl : p.length ≠ 2) : parseSource x = .error .parsingError := by
  have hc := compile_compiled h
  obtain ⟨e, he⟩ := Option.isSome_iff_exists.mp (record_isSome.trans hd)
  obtain ⟨em, hem⟩ := Option.isSome_iff_exists.mp (record_isSome.trans hmd)
  obtain ⟨init, a1, a2, a3⟩ := hc.definitionSchema hf hb hn he hq hx
  refine printed_nested hi a1 a3 ?_ ?_
  · intro w hw
    rcases List.mem_append.mp hw with hw | hw
    · obtain ⟨k, p, m, e', b1, b2, b3, b4, rfl⟩ := (a2 w).mp hw
      exact printed_ident hc hi b2 (by rw [← record_isSome, b4]; rfl)
    · simp only [List.mem_singleton] at hw
      subst hw
      exact printed_ident hc hi hn hd
  · refine ⟨(p.dropLast, em), ?_, dropLast_length hc.rootKind hm hmd hl⟩
    obtain ⟨k, hk⟩ := hp
    cases k with
    | zero =>
      cases hk
      rw [hn] at hm
      injection hm with hm
      subst hm
      rw [he] at hem
      injection hem with hem
      subst hem
      simp
    | succ k => exact List.mem_append_left _ ((a2 _).mpr ⟨k, p, m, em, hk, hm, hpb, hem, rfl⟩)

/-- The same for resources; also if the archive is in a nested namespace. -/
theorem C56_nested_resources {s : Text} {t : Tree} (h : Compile s (.ok t)) (hf : Flat t) (hb : NoBuiltin t)
    (hi : ∀ p m, t.descend p = some m → m.kind = .namespace → Ident m.name) {a : Path} {r : Text} {n : Tree} (hn : t.descend (a ++ [r]) = some n)
    (hd : n.kind.isResource = true) (hq : ¬ InBuiltin a) {x : Text} (hx : Schema t (a ++ [r]) (.ok x))
    (hl : a.length ≠ 2 ∨ ∃ p m, Reachable (depChildren t) (a ++ [r]) p ∧ t.descend p = some m ∧ Spec.Kind.isDefinition m.kind = true ∧ ¬ InBuiltin p ∧ p.length ≠ 2) :
    parseSource x = .error .parsingError := by
  have hc := compile_compiled h
  obtain ⟨m, init, a0, a0', a1, a2, a3⟩ := hc.resourceSchema hf hb hn hd hq hx
  refine printed_nested hi a1 a3 ?_ ?_
  · intro w hw
    rcases List.mem_append.mp hw with hw | hw
    · obtain ⟨k, p, m, e', b1, b2, b3, b4, rfl⟩ := (a2 w).mp hw
      exact printed_ident hc hi b2 (by rw [← record_isSome, b4]; rfl)
    · simp only [List.mem_singleton] at hw
      subst hw
      exact printed_ident hc hi a0 (by rw [a0']; rfl)
  · rcases hl with hl | ⟨p, y, ⟨k, hk⟩, hy, hyd, hpb, hl⟩
    · exact ⟨_, List.mem_append_right _ (List.mem_singleton.mpr rfl), dropLast_length hc.rootKind a0 (by rw [a0']; rfl) hl⟩
    · obtain ⟨em, hem⟩ := Option.isSome_iff_exists.mp (record_isSome.trans hyd)
      refine ⟨(p.dropLast, em), ?_, dropLast_length hc.rootKind hy hyd hl⟩
      cases k with
      | zero =>
        cases hk
        rw [hn] at hy
        injection hy with hy
        subst hy
        cases hk : n.kind <;> rw [hk] at hd hyd <;> first | (cases hd; done) | (cases hyd; done)
      | succ k => exact List.mem_append_left _ ((a2 _).mpr ⟨k, p, y, em, hk, hy, hpb, hem, rfl⟩)

end Props
