import Verif.Lemmas.GenAgainSame

/-!
# C106: stored schemas are sources

Next to an archive its schema is stored, and readers that know nothing else (the inspector of flatdata-py, `Engine` over the
stored text) compile that text. Here: the text is accepted, and what is compiled from it is what was compiled from the source.
-/

namespace Props
open Gen Spec

/-- What a source has to satisfy so that the schema of its definition at `q` can be compiled. -/
structure Storable (s : Text) (t : Tree) (q : Path) : Prop where
  compiled : Compile s (.ok t)
  /-- Definitions contain no namespaces. -/
  flat : Flat t
  /-- Nothing that is written in the source refers into a namespace called `_builtin`, or adds to one. -/
  noBuiltin : NoBuiltin t
  noBuiltinBlock : ∀ blocks, parseSource s = .ok blocks → ∀ b ∈ blocks, "_builtin".toList ∉ splitDot b.name
  /-- Namespaces are not nested (see `C56_nested`). -/
  simple : SimpleNamespaces t
  definition : ∃ n, t.descend q = some n ∧ Spec.Kind.isDefinition n.kind = true
  outside : ¬ InBuiltin q
  /-- Resources to which explicit references or groups of bound resources of the schema refer belong to archives of the schema
  (see `C106_counterexample_outside`). -/
  resources : ResourcesWithin t q
  /-- A resource has no two explicit references that say the same in different words (see `C106_counterexample_twice`). -/
  explicit : ∀ p m, Reachable (depChildren t) q p → t.descend p = some m → ∀ r ∈ m.children, ExplicitApart r

theorem Storable.again {s : Text} {t : Tree} {q : Path} (h : Storable s t q) {x : Text} (hx : Schema t q (.ok x)) :
    ∃ blocks t0, parseSource x = .ok blocks ∧ (∀ b ∈ blocks, Ident b.name ∧ b.name ≠ "_builtin".toList) ∧ buildNodeTree blocks = .ok t0 ∧ Again t q t0 ∧
      (∀ p m e, Reachable (depChildren t) q p → t.descend p = some m → ¬ InBuiltin p → definitionRecord m = some e →
        ∃ ns, p = [ns, m.name] ∧ Ident ns ∧ blockOf ns [e] ∈ blocks) ∧
      ∀ b ∈ blocks, ∃ ns m e, b = blockOf ns [e] ∧ Ident ns ∧ Reachable (depChildren t) q [ns, m.name] ∧ t.descend [ns, m.name] = some m ∧ ¬ InBuiltin [ns, m.name] ∧
        definitionRecord m = some e := by
  obtain ⟨n, hn, hd⟩ := h.definition
  exact againBuilt h.compiled h.flat h.noBuiltin h.simple hn hd h.outside hx h.explicit

/-- C106 (acceptance). The schema of a definition compiles. -/
theorem C106_compiles {s : Text} {t : Tree} {q : Path} (h : Storable s t q) {x : Text} (hx : Schema t q (.ok x)) : ∃ t', Compile x (.ok t') := by
  obtain ⟨bs, t0, h1, h2, h3, h4, h5, h6⟩ := h.again hx
  have hpl : ∀ b ∈ bs, Spec.PlainNames b := fun b hb => lexical_plain (parseSource_lexical h1 b hb)
  obtain ⟨bl, hs, _⟩ := compile_blocks h.compiled
  obtain ⟨root, r1, r2⟩ := againRoot h.compiled h.flat hs (h.noBuiltinBlock _ hs) hpl h3 h4
  obtain ⟨a, ha'⟩ := r2.accepted h.compiled h.flat h.noBuiltin h.resources hpl h3 r1
  refine ⟨a, ?_⟩
  unfold Compile
  rw [h1]
  exact ha'

/-- C106 (definitions). In what is compiled from the schema of a definition, that definition and every definition it depends
on, directly or not, is at the same path, says the same, and means the same: the same size and the same fields at the same
offsets with the same widths and signs, the same values, the same resources. -/
theorem C106_same {s : Text} {t : Tree} {q : Path} (h : Storable s t q) {x : Text} (hx : Schema t q (.ok x)) {t' : Tree} (ht : Compile x (.ok t'))
    {p : Path} {m : Tree} (hr : Reachable (depChildren t) q p) (hm : t.descend p = some m) (hd : Spec.Kind.isDefinition m.kind = true) (hp : ¬ InBuiltin p) :
    ∃ m', t'.descend p = some m' ∧ definitionRecord m' = definitionRecord m ∧ meaning m' = meaning m := by
  obtain ⟨bs, t0, h1, h2, h3, h4, h5, h6⟩ := h.again hx
  have hc := compile_compiled h.compiled
  have hc' := compile_compiled ht
  -- enumerations
  have hen : ∀ p m b, Reachable (depChildren t) q p → t.descend p = some m → ¬ InBuiltin p → m.kind = .enumeration b →
      ∃ m', t'.descend p = some m' ∧ m'.kind = .enumeration b ∧ definitionRecord m' = definitionRecord m := by
    intro p m b hr hm hp hk
    have he : definitionRecord m = some (.enumeration (enumerationRecord m b)) := by unfold definitionRecord; rw [hk]
    obtain ⟨ns, rfl, hns, hbl⟩ := h5 p m _ hr hm hp he
    obtain ⟨n', n1, n2⟩ := C66_enumerations h1 ht hbl (x := enumerationRecord m b) (by simp [blockOf])
    have hname : (blockOf ns [.enumeration (enumerationRecord m b)]).name = ns := rfl
    rw [hname, splitDot_ident' hns] at n1
    refine ⟨n', n1, ?_, ?_⟩
    · rw [n2.kind]; rfl
    · rw [enum_same n2, he]
  -- enumerations of fields
  have hfen : ∀ f ∈ m.children, ∀ r ∈ f.children, ∀ w, r.kind = .ref (.enumeration w) → ∀ n b, t.descend r.targetPath = some n → n.kind = .enumeration b →
      ∃ n', t'.descend r.targetPath = some n' ∧ n'.kind = .enumeration b ∧ definitionRecord n' = definitionRecord n := by
    intro f hf r hrm w hk n b hn hnk
    obtain ⟨k, hw⟩ := hr
    refine hen _ n b ⟨_, walk_trans hw (walk_enumeration hc hm hf hrm hk)⟩ hn ?_ hnk
    intro hbt
    exact h.noBuiltin _ _ _ (hc.child (hc.child hm hf) hrm) hk (by simp) (List.dropLast_subset _ hbt)
  -- records
  have hrec : ∃ m', t'.descend p = some m' ∧ definitionRecord m' = definitionRecord m := by
    obtain ⟨e, he⟩ := Option.isSome_iff_exists.mp (record_isSome.trans hd)
    obtain ⟨ns, rfl, hns, hbl⟩ := h5 p m e hr hm hp he
    have hname : (blockOf ns [e]).name = ns := rfl
    have hen' := he
    unfold definitionRecord at hen'
    cases hk : m.kind <;> rw [hk] at hen' <;> simp only [Option.some.injEq, reduceCtorEq] at hen'
    case «structure» =>
      subst hen'
      obtain ⟨n', n1, n2⟩ := C66_structures h1 ht hbl (x := structureRecord m) (by simp [blockOf])
      rw [hname, splitDot_ident' hns] at n1 n2
      refine ⟨n', n1, ?_⟩
      rw [structure_same hc hc' hm n2 (fun f hf r hr w hk n b hn hnk => by
        obtain ⟨n', a1, a2, _⟩ := hfen f hf r hr w hk n b hn hnk
        exact ⟨n', a1, a2⟩), he]
    case enumeration =>
      subst hen'
      obtain ⟨n', n1, _, n2⟩ := hen _ m _ hr hm hp hk
      exact ⟨n', n1, n2⟩
    case constant b v =>
      subst hen'
      obtain ⟨n', n1, n2⟩ := C66_constants h1 ht hbl (x := { name := m.name, type := b.name, value := v }) (by simp [blockOf])
      rw [hname, splitDot_ident' hns] at n1
      refine ⟨n', n1, ?_⟩
      rw [constant_same n2, he]
    case archive =>
      subst hen'
      obtain ⟨n', n1, n2⟩ := C66_archives h1 ht hbl (x := archiveRecord m) (by simp [blockOf])
      rw [hname, splitDot_ident' hns] at n1 n2
      refine ⟨n', n1, ?_⟩
      rw [archive_same hc hm n2, he]
  obtain ⟨m', m1, m2⟩ := hrec
  refine ⟨m', m1, m2, ?_⟩
  refine (meaning_eq hc hc' hm m1 m2.symm ?_).symm
  intro f hf r hrm w hk n hn
  obtain ⟨n2, _, g2, g3, _⟩ := hc.target (hc.child (hc.child hm hf) hrm) hk
  rw [hn] at g2
  cases g2
  obtain ⟨b, hb2⟩ := g3
  obtain ⟨n', a1, _, a3⟩ := hfen f hf r hrm w hk n b hn hb2
  exact ⟨n', a1, a3⟩

/-- C106 (nothing else). Every definition in what is compiled from the schema of a definition is that definition or one it
depends on, or the type of the index of a multivector in it. -/
theorem C106_only {s : Text} {t : Tree} {q : Path} (h : Storable s t q) {x : Text} (hx : Schema t q (.ok x)) {t' : Tree} (ht : Compile x (.ok t'))
    {p : Path} {m : Tree} (hm : t'.descend p = some m) (hd : Spec.Kind.isDefinition m.kind = true) :
    (Reachable (depChildren t) q p ∧ ¬ InBuiltin p ∧ ∃ n, t.descend p = some n ∧ Spec.Kind.isDefinition n.kind = true) ∨
    ∃ a r w o k, t'.descend a = some r ∧ r.kind = .resource (.multivector w) o k ∧
      p = a.dropLast.dropLast ++ ["_builtin".toList, "multivector".toList, "IndexType".toList ++ natText w] := by
  obtain ⟨bs, t0, h1, h2, h3, h4, h5, h6⟩ := h.again hx
  rcases C66_only h1 ht hm hd with ⟨b, hb, k, hk, rfl⟩ | hi
  · left
    obtain ⟨ns, n, e, rfl, hns, hr, hn, hnb, he⟩ := h6 b hb
    have hname : (blockOf ns [e]).name = ns := rfl
    have hke : k = n.name := by
      rw [← record_name he]
      cases e <;> simpa [blockOf, entryName] using hk
    rw [hname, splitDot_ident' hns, hke]
    exact ⟨hr, hnb, n, hn, by rw [← record_isSome, he]; rfl⟩
  · exact .inr hi

end Props
