import Verif.Lemmas.GenStored5
import Verif.Props.Gen.Engine
import Verif.Props.Gen.Evolution

/-!
# C107: stored schemas are fixpoints

The inspector of flatdata-py, and everybody who only has a directory, compiles the schema that is stored next to an archive. By C106
what is compiled means the same; here, that its schemas are the same texts, so that classes generated from it open what classes generated
from the original source open.
-/

namespace Props
open Gen Spec Model

/-- With at most one constant in each archive there is no order to keep. -/
theorem settled_single {t : Tree} (hd : ∀ p m sz, t.descend p = some m → m.kind = .structure sz → ∀ f ∈ m.children, InvalidLast f)
    (h1 : ∀ p m, t.descend p = some m → m.kind = .archive → (constantsListed m).length ≤ 1) (t' : Tree) : Settled t t' := by
  refine ⟨hd, fun p m m' hm _ hk a b hs _ => ?_⟩
  have e1 := hs.length_le
  have e2 := h1 p m hm hk
  simp only [List.length_cons, List.length_nil] at e1
  omega

/-- C107 (definitions). What is compiled from the stored schema of a definition has, for that definition and all it depends on, the same
schemas as what was compiled from the source. -/
theorem C107_definitions {s : Text} {t : Tree} {q : Path} (h : Storable s t q) {x : Text} (hx : Schema t q (.ok x)) {t' : Tree} (ht : Compile x (.ok t'))
    (hs : Settled t t') {p : Path} {m : Tree} (hr : Reachable (depChildren t) q p) (hm : t.descend p = some m) (hd : Spec.Kind.isDefinition m.kind = true)
    (hp : ¬ InBuiltin p) (y : Text) : Schema t' p (.ok y) ↔ Schema t p (.ok y) := by
  have hg := h.ground
  have hg' := h.groundAgain hx ht
  have hdef : Gen.isDef t p = true := isDef_iff.mpr ⟨⟨m, hm, hd⟩, hp⟩
  obtain ⟨m0, m', a1, a2, a3, a4, a5⟩ := h.mirror hx ht hr hdef
  rw [hm] at a1; cases a1
  have hd' : Spec.Kind.isDefinition m'.kind = true := by rw [← record_isSome, a4, record_isSome]; exact a3
  obtain ⟨z, hz, hzu⟩ := C56_schema h.compiled hg.flat hg.noBuiltin hm (.inl hd)
  obtain ⟨z', hz', hzu'⟩ := C56_schema ht hg'.flat hg'.noBuiltin a2 (.inl hd')
  have e := h.definitionText hx ht hs.decorations hs.constants hr hdef hz hz'
  constructor
  · intro hy
    have := hzu' _ hy
    cases this
    rw [e]; exact hz
  · intro hy
    have := hzu _ hy
    cases this
    rw [← e]; exact hz'

/-- C107 (fixpoint). The schema of the definition, after its schema was compiled, is that schema again. -/
theorem C107_fixpoint {s : Text} {t : Tree} {q : Path} (h : Storable s t q) {x : Text} (hx : Schema t q (.ok x)) {t' : Tree} (ht : Compile x (.ok t'))
    (hs : Settled t t') : Schema t' q (.ok x) := by
  obtain ⟨m, hm, hd⟩ := h.definition
  exact (C107_definitions h hx ht hs ⟨0, .refl _⟩ hm hd h.outside x).mpr hx

/-- C107 (resources). The same for resources of archives: they are there, and have the same schemas. -/
theorem C107_resources {s : Text} {t : Tree} {q : Path} (h : Storable s t q) {x : Text} (hx : Schema t q (.ok x)) {t' : Tree} (ht : Compile x (.ok t'))
    (hs : Settled t t') {p : Path} {m r : Tree} (hr : Reachable (depChildren t) q p) (hm : t.descend p = some m) (hk : m.kind = .archive)
    (hrm : r ∈ m.children) (hrk : r.kind.isResource = true) :
    (∃ r', t'.descend (p ++ [r.name]) = some r' ∧ r'.kind.isResource = true) ∧ ∀ y, Schema t' (p ++ [r.name]) (.ok y) ↔ Schema t (p ++ [r.name]) (.ok y) := by
  have hg := h.ground
  have hg' := h.groundAgain hx ht
  have hp : ¬ InBuiltin p := by
    intro hb
    obtain ⟨⟨sz, e⟩, _⟩ := hg.index _ _ hm (by rw [hk]; rfl) hb
    rw [hk] at e; cases e
  have hdef : Gen.isDef t p = true := isDef_iff.mpr ⟨⟨m, hm, by rw [hk]; rfl⟩, hp⟩
  obtain ⟨m0, m', a1, a2, a3, a4, a5⟩ := h.mirror hx ht hr hdef
  rw [hm] at a1; cases a1
  have harch : m'.kind = .archive ∧ archiveRecord m' = archiveRecord m := by
    rcases same_class a4 a3 with ⟨_, _, e, _, _⟩ | ⟨_, e2, e3⟩ | ⟨⟨_, e⟩, _⟩ | ⟨⟨_, _, e⟩, _⟩ <;> first | exact ⟨e2, e3⟩ | (rw [hk] at e; cases e)
  have hrd := hg.compiled.child hm hrm
  obtain ⟨n', b1, b2, b3, b4, b5⟩ := written_child harch.2 hrm (hg.written hrd hrk)
  have hn' := hg'.compiled.child a2 b1
  rw [b2] at hn'
  refine ⟨⟨n', hn', b5⟩, ?_⟩
  obtain ⟨z, hz, hzu⟩ := C56_schema h.compiled hg.flat hg.noBuiltin hrd (.inr hrk)
  obtain ⟨z', hz', hzu'⟩ := C56_schema ht hg'.flat hg'.noBuiltin hn' (.inr b5)
  have e := h.resourceText hx ht hs.decorations hs.constants hr hdef hrd hrk hn' b5 b3 b4 hz hz'
  intro y
  constructor
  · intro hy
    have := hzu' _ hy
    cases this
    rw [e]; exact hz
  · intro hy
    have := hzu _ hy
    cases this
    rw [← e]; exact hz'

/-- C107 (module). If the Python module of the source can be imported, as in C60, so can the one of the stored schema. -/
theorem C107_importable {s : Text} {t : Tree} {q : Path} (h : Storable s t q) {x : Text} (hx : Schema t q (.ok x)) {t' : Tree} (ht : Compile x (.ok t'))
    (hi : Importable t) : Flat t' ∧ NoBuiltin t' ∧ Importable t' :=
  ⟨(h.groundAgain hx ht).flat, (h.groundAgain hx ht).noBuiltin, h.importable hx ht hi⟩

/-- **C107 (classes).** The classes of archives that are generated from the stored schema are the ones generated from the source: the same names, the same
structures with the same layouts, and the same schemas, also of resources and in sub-archives. -/
theorem C107_class {s : Text} {t : Tree} {q : Path} (h : Storable s t q) {x : Text} (hx : Schema t q (.ok x)) {t' : Tree} (ht : Compile x (.ok t'))
    (hs : Settled t t') (hi : Importable t) {p : Path} (hr : Reachable (depChildren t) q p) {A : ArchiveType} (hA : ArchiveAt t p A) : ArchiveAt t' p A := by
  have hg := h.ground
  have hg' := h.groundAgain hx ht
  obtain ⟨bl, hside⟩ := h.side
  obtain ⟨bl', hside'⟩ := h.sideAgain hx ht
  cases id hA with
  | @mk _ m z rs hm hk hz hres =>
    have hp : ¬ InBuiltin p := by
      intro hb
      obtain ⟨⟨sz, e⟩, _⟩ := hg.index _ _ hm (by rw [hk]; rfl) hb
      rw [hk] at e; cases e
    have hdef : Gen.isDef t p = true := isDef_iff.mpr ⟨⟨m, hm, by rw [hk]; rfl⟩, hp⟩
    obtain ⟨m0, m', a1, a2, a3, a4, a5⟩ := h.mirror hx ht hr hdef
    rw [hm] at a1; cases a1
    have hk' : m'.kind = .archive := by
      rcases same_class a4 a3 with ⟨_, _, e, _, _⟩ | ⟨_, e2, e3⟩ | ⟨⟨_, e⟩, _⟩ | ⟨⟨_, _, e⟩, _⟩ <;> first | exact e2 | (rw [hk] at e; cases e)
    obtain ⟨_, _, _, _, _, _, har, _⟩ := C60_module ht hg'.flat hg'.noBuiltin (h.importable hx ht hi)
    obtain ⟨B, hB, _⟩ := har p m' a2 hk'
    have := archive_equal hside hside' hA ((h.agree hx ht).mono hr) ((h.sameText hx ht hs).mono hr) hp hB
    rw [this]; exact hB

/-- C107 (outermost namespaces). If there is only one namespace in the source, there is only one in the stored schema. -/
theorem C107_namespace {s : Text} {t : Tree} {k a : Text} (h : Storable s t [k, a]) {x : Text} (hx : Schema t [k, a] (.ok x)) {t' : Tree} (ht : Compile x (.ok t'))
    (hk : OnlyNamespace t k) : OnlyNamespace t' k := by
  obtain ⟨m, hm, hd⟩ := h.definition
  obtain ⟨m0, m', a1, a2, a3, a4, a5⟩ := h.mirror hx ht ⟨0, .refl _⟩ (isDef_iff.mpr ⟨⟨m, hm, hd⟩, h.outside⟩)
  obtain ⟨y, y1, y2, _⟩ := descend_parent (p := [k]) a2
  have hg' := h.groundAgain hx ht
  have hns : ∀ {k' : Text} {n : Tree}, t'.descend [k'] = some n → n.kind = .namespace := by
    intro k n hn
    obtain ⟨y, c0, c1, c2⟩ := descend_parent (p := []) hn
    simp only [Tree.descend, Option.some.injEq] at c0
    subst c0
    by_contra hne
    obtain ⟨k0, ks, e1, e2, e3⟩ := compiled_kinds ht (show t'.descend [] = some t' from rfl)
    rw [hg'.compiled.rootKind] at e1
    have : k0 = .root := blank_root e1
    subst this
    rcases e3 n c1 hne with ⟨x, x1, _⟩ | ⟨e, _⟩
    · rw [show ks = [] from e2] at x1; cases x1
    · rw [hg'.compiled.rootKind] at e; cases e
  refine ⟨hk.1, ⟨y, y1, hns y1⟩, ?_⟩
  intro k' n hn hnk hb
  obtain ⟨m, m1, m2, _⟩ := h.below hx ht (by simp) hn (by rw [hnk]; simp) (by rw [hnk]; simp)
  exact hk.2.2 k' m m1 (m2 hnk) hb

/-- **C107 (inspector).** If a class generated from a source opens a directory, the inspector, which only has the directory, opens it as the very same class and shows the
same data. -/
theorem C107_inspector {engine : EngineFn} (hE : IsEngine engine) {s : Text} {t : Tree} {k a : Text} (h : Storable s t [k, a]) {x : Text} (hx : Schema t [k, a] (.ok x))
    (hs : ∀ t', Compile x (.ok t') → Settled t t') (hi : Importable t) (hk : OnlyNamespace t k) {A : ArchiveType} (hA : ArchiveAt t [k, a] A)
    {names : List (List Char)} (hnd : names.Nodup) {archive : Option (List Char)} (hch : Chosen names archive a) {node : Node} {l : List (String × Loaded)}
    (ho : openArchive A .files node = .ok l) : inspectorOpen engine (.dir names node) archive = .ok (A, l) := by
  obtain ⟨t', ht⟩ := C106_compiles h hx
  have hg' := h.groundAgain hx ht
  have hA' := C107_class h hx ht (hs t' ht) hi ⟨0, .refl _⟩ hA
  cases id hA with
  | @mk _ n z rs hn hak hz hres =>
    obtain ⟨y, y1, y2, y3⟩ := descend_parent (p := [k]) hn
    have hzx : z = x := by
      obtain ⟨w, _, hu⟩ := C56_schema h.compiled h.flat h.noBuiltin hn (.inl (by rw [hak]; rfl))
      have e := (hu _ hz).trans (hu _ hx).symm
      injection e
    have hok := (C22_opens_iff _ _ _).mp ⟨l, ho⟩
    have hm : SchemaMatches node (String.ofList n.name ++ ".archive") (String.ofList z) := by
      cases hok (String.ofList n.name ++ ".archive", .rawData (String.ofList z) false) (by simp [mkArchive]) with
      | absent _ h => cases h
      | present _ h => exact h
    rw [hzx, y3] at hm
    have ha : a ≠ [] := by
      rw [← y3]
      exact (ident_name (h.ground.compiled.ident hn (by rw [hak]; simp) (by rw [hak]; simp) (by rw [hak]; simp))).2
    refine (C104_inspector hE hnd hch (s := String.ofList x) ?_ ?_ (t := t') (by simpa using ht) hg'.flat hg'.noBuiltin (h.importable hx ht hi) _ l).mpr
      ⟨ha, k, [k, a], C107_namespace h hx ht hk, by simp [pythonName, joinTexts], hA', ho⟩
    · exact hm.1
    · rw [← hm.2]
      congr 1
      rw [← String.toList_inj]
      simp

end Props
