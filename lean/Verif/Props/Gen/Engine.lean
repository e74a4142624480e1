import Verif.Model.Gen.Engine
import Verif.Spec.Engine
import Verif.Props.Inspector
import Verif.Props.Gen.Evolution

/-!
# C104: the engine behind the inspector and the writer
-/

namespace Props
open Gen Spec Model

theorem mentions_iff (name : Text) : "builtin".toList <:+: name ↔ MentionsBuiltin name := by
  constructor
  · rintro ⟨a, b, h⟩; exact ⟨a, b, h.symm⟩
  · rintro ⟨a, b, h⟩; exact ⟨a, b, h.symm⟩

theorem filter_single {α : Type} {P : α → Bool} {l : List α} (hl : l.Nodup) {x : α} : l.filter P = [x] ↔ (x ∈ l ∧ P x = true) ∧ ∀ y ∈ l, P y = true → y = x := by
  constructor
  · intro h
    have hx : x ∈ l.filter P := by rw [h]; simp
    refine ⟨List.mem_filter.mp hx, fun y hy hp => ?_⟩
    have : y ∈ l.filter P := List.mem_filter.mpr ⟨hy, hp⟩
    rw [h] at this
    simpa using this
  · rintro ⟨⟨h1, h2⟩, h3⟩
    have hnd := hl.filter P
    have hall : ∀ y ∈ l.filter P, y = x := fun y hy => h3 y (List.mem_filter.mp hy).1 (List.mem_filter.mp hy).2
    have hx : x ∈ l.filter P := List.mem_filter.mpr ⟨h1, h2⟩
    generalize l.filter P = m at hnd hall hx
    match m, hnd, hall, hx with
    | [y], _, hall, _ => rw [hall y (by simp)]
    | y :: z :: m, hnd, hall, _ =>
      have e1 := hall y (by simp)
      have e2 := hall z (by simp)
      rw [e1, e2] at hnd
      simp at hnd

theorem descend_single {t n : Tree} {k : Text} : t.descend [k] = some n ↔ t.child k = some n := by
  simp only [Tree.descend]
  cases t.child k <;> simp [Tree.descend]

theorem onlyOne_iff (l : List Tree) (n : Tree) : onlyOne l = .ok n ↔ l = [n] := by
  match l with
  | [] => simp [onlyOne, throw, throwThe, MonadExceptOf.throw]
  | [m] => simp [onlyOne, pure, Except.pure]
  | _ :: _ :: _ => simp [onlyOne, throw, throwThe, MonadExceptOf.throw]

theorem isRootNamespace_iff (c : Tree) : isRootNamespace c = true ↔ c.kind = .namespace ∧ ¬ MentionsBuiltin c.name := by
  unfold isRootNamespace
  rw [← mentions_iff]
  exact ⟨fun h => @of_decide_eq_true _ (_) h, fun h => @decide_eq_true _ (_) h⟩

/-- C104 (root namespace). The engine finds a root namespace exactly if there is only one, apart from those with `builtin` in their names. -/
theorem C104_root_namespace {t : Tree} (hg : Good t) (k : Text) : (∃ n, findRootNamespace t = .ok n ∧ n.name = k) ↔ OnlyNamespace t k := by
  have hnd : t.children.Nodup := List.Nodup.of_map _ hg.nodup
  have hfind : ∀ n, findRootNamespace t = .ok n ↔ t.children.filter isRootNamespace = [n] := fun n => onlyOne_iff _ n
  constructor
  · rintro ⟨n, h, rfl⟩
    obtain ⟨⟨h1, h2⟩, h3⟩ := (filter_single hnd).mp ((hfind n).mp h)
    simp only [isRootNamespace_iff] at h2 h3
    refine ⟨h2.2, ⟨n, descend_single.mpr (child_of_mem hg.nodup h1), h2.1⟩, fun k' n' hd hk hm => ?_⟩
    obtain ⟨g1, rfl⟩ := child_some (descend_single.mp hd)
    rw [h3 n' g1 ⟨hk, hm⟩]
  · rintro ⟨h1, ⟨n, hn, hk⟩, h3⟩
    obtain ⟨g1, g2⟩ := child_some (descend_single.mp hn)
    refine ⟨n, (hfind n).mpr ((filter_single hnd).mpr ⟨⟨g1, ?_⟩, ?_⟩), g2⟩
    · rw [isRootNamespace_iff]; exact ⟨hk, by rw [g2]; exact h1⟩
    · intro y hy hp
      rw [isRootNamespace_iff] at hp
      have := h3 y.name y (descend_single.mpr (child_of_mem hg.nodup hy)) hp.1 hp.2
      have hc := child_of_mem hg.nodup hy
      rw [this, descend_single.mp hn] at hc
      injection hc with hc
      exact hc.symm

theorem compile_unique {s : Text} {t t' : Tree} (h : Compile s (.ok t)) (h' : Compile s (.ok t')) : t = t' := by
  obtain ⟨blocks, h1, h2, h3⟩ := compile_blocks h
  obtain ⟨blocks', g1, _, g3⟩ := compile_blocks h'
  rw [h1] at g1; cases g1
  obtain ⟨o, _, hu⟩ := C64_total fun b hb => lexical_plain (h2 b hb)
  have e1 := hu _ h3
  have e2 := hu _ g3
  rw [← e2] at e1
  injection e1

/-- What the engine looks up in the module. -/
theorem renders_iff {s : Text} {t : Tree} (h : Compile s (.ok t)) {stmts : List PyStmt} {env : List (Text × PyVal)} (hm : PyModule t (.ok stmts))
    (he : execModule [] stmts = some env) (name : Text) (c : PyVal) :
    Renders s name c ↔ name ≠ [] ∧ ∃ k, OnlyNamespace t k ∧ env.lookup (k ++ '_' :: name) = some c := by
  have hg := (compile_compiled h).lk.good
  constructor
  · rintro ⟨h0, t', root, stmts', env', h1, h2, h3, h4, h5⟩
    have := compile_unique h h1
    subst this
    have := pyModule_unique hm h3
    cases this
    rw [he] at h4; cases h4
    refine ⟨h0, root.name, (C104_root_namespace hg _).mp ⟨root, h2, rfl⟩, ?_⟩
    have hu : "_".toList = ['_'] := by decide +kernel
    rw [hu] at h5
    simpa using h5
  · rintro ⟨h0, k, h1, h2⟩
    obtain ⟨root, g1, rfl⟩ := (C104_root_namespace hg _).mpr h1
    refine ⟨h0, t, root, stmts, env, h, g1, hm, he, ?_⟩
    have hu : "_".toList = ['_'] := by decide +kernel
    rw [hu]; simpa using h2

theorem lookup_key {env : List (Text × PyVal)} {x : Text} {c : PyVal} (h : env.lookup x = some c) : x ∈ env.map Prod.fst := by
  induction env with
  | nil => simp at h
  | cons e env ih =>
    by_cases hx : x = e.1
    · simp [hx]
    · have hb : (x == e.1) = false := by simpa using hx
      simp only [List.lookup, hb] at h
      exact List.mem_cons_of_mem _ (ih h)

/-- **C104 (reader).** For every accepted schema, as in C60: the engine returns the class of an archive for a name exactly if there is only one
outermost namespace and the name of the class is that namespace, an underscore and the given name. -/
theorem C104_archive_class {s : Text} {t : Tree} (h : Compile s (.ok t)) (hf : Flat t) (hb : NoBuiltin t) (hi : Importable t) (name : Text) (A : ArchiveType) :
    Renders s name (.archive A) ↔ name ≠ [] ∧ ∃ k p, OnlyNamespace t k ∧ pythonName p = k ++ '_' :: name ∧ ArchiveAt t p A := by
  obtain ⟨stmts, env, h1, _, h2, hst, har, hkeys⟩ := C60_module h hf hb hi
  rw [renders_iff h h1 h2]
  refine and_congr_right fun h0 => ?_
  constructor
  · rintro ⟨k, hk, hl⟩
    obtain ⟨p, n, hn, hc⟩ := hkeys _ (lookup_key hl)
    rcases hc with ⟨⟨size, hs⟩, hc⟩ | ⟨hak, hc | hc⟩
    · obtain ⟨x, d, _, g, _⟩ := hst p n size hn hs
      rw [hc, g] at hl; cases hl
    · obtain ⟨B, g1, _, g3, _⟩ := har p n hn hak
      rw [hc, g3] at hl
      simp only [Option.some.injEq, PyVal.archive.injEq] at hl
      subst hl
      exact ⟨k, p, hk, hc.symm, g1⟩
    · obtain ⟨B, g1, _, _, g4⟩ := har p n hn hak
      rw [hc, g4] at hl; cases hl
  · rintro ⟨k, p, hk, hp, hA⟩
    refine ⟨k, hk, ?_⟩
    cases id hA with
    | @mk _ n x rs hn hak hx hres =>
      obtain ⟨B, _, g2, g3, _⟩ := har p n hn hak
      rw [← hp, g3, g2 _ hA]

/-- **C104 (writer).** The same for builders. -/
theorem C104_builder_class {s : Text} {t : Tree} (h : Compile s (.ok t)) (hf : Flat t) (hb : NoBuiltin t) (hi : Importable t) (name : Text) (A : ArchiveType) :
    Renders s (name ++ "Builder".toList) (.builder A) ↔ ∃ k p, OnlyNamespace t k ∧ pythonName p = k ++ '_' :: name ∧ ArchiveAt t p A := by
  obtain ⟨stmts, env, h1, _, h2, hst, har, hkeys⟩ := C60_module h hf hb hi
  rw [renders_iff h h1 h2]
  have h0 : name ++ "Builder".toList ≠ [] := by
    have : "Builder".toList ≠ [] := by decide +kernel
    intro h; exact this (List.append_eq_nil_iff.mp h).2
  refine (and_iff_right h0).trans ?_
  constructor
  · rintro ⟨k, hk, hl⟩
    obtain ⟨p, n, hn, hc⟩ := hkeys _ (lookup_key hl)
    rcases hc with ⟨⟨size, hs⟩, hc⟩ | ⟨hak, hc | hc⟩
    · obtain ⟨x, d, _, g, _⟩ := hst p n size hn hs
      rw [hc, g] at hl; cases hl
    · obtain ⟨B, g1, _, g3, _⟩ := har p n hn hak
      rw [hc, g3] at hl; cases hl
    · obtain ⟨B, g1, _, _, g4⟩ := har p n hn hak
      rw [hc, g4] at hl
      simp only [Option.some.injEq, PyVal.builder.injEq] at hl
      subst hl
      refine ⟨k, p, hk, ?_, g1⟩
      have : (k ++ '_' :: name) ++ "Builder".toList = pythonName p ++ "Builder".toList := by rw [← hc]; simp
      exact (List.append_cancel_right this).symm
  · rintro ⟨k, p, hk, hp, hA⟩
    refine ⟨k, hk, ?_⟩
    cases id hA with
    | @mk _ n x rs hn hak hx hres =>
      obtain ⟨B, _, g2, _, g4⟩ := har p n hn hak
      have : k ++ '_' :: (name ++ "Builder".toList) = pythonName p ++ "Builder".toList := by rw [hp]; simp
      rw [this, g4, g2 _ hA]

/-- A name without an underscore is only found directly in the root namespace. -/
theorem direct_path {t : Tree} (hc : Compiled t) (hf : Flat t) {k name : Text} {p : Path} {n : Tree} (hk : OnlyNamespace t k) (hn : t.descend p = some n)
    (hak : n.kind = .archive) (hname : '_' ∉ name) (hp : pythonName p = k ++ '_' :: name) : p = [k, name] := by
  have hdef : Spec.Kind.isDefinition n.kind = true := by rw [hak]; rfl
  obtain ⟨ns, k', rfl, _, hne, _, _⟩ := hc.namespaces hf hn hdef
  obtain ⟨m', hm', _, hmk, _⟩ := hc.parents ns k' n hn
  have hpre := flat_prefix hf hm' (hmk hdef) 1 (by omega) (List.length_pos_of_ne_nil hne)
  generalize hq : ns ++ [k'] = q at hp hn ⊢
  cases ns with
  | nil => exact absurd rfl hne
  | cons a ns' =>
    cases hr : ns' ++ [k'] with
    | nil => simp at hr
    | cons b rest =>
      rw [List.cons_append, hr] at hq
      subst hq
      have hns : ∃ m, t.descend [a] = some m ∧ m.kind = .namespace := by
        simp only [List.take_succ_cons, List.take_zero, isNamespaceAt] at hpre
        cases hd : t.descend [a] with
        | none => rw [hd] at hpre; simp at hpre
        | some m => rw [hd] at hpre; exact ⟨m, rfl, by simpa [Tree.isNamespace] using hpre⟩
      obtain ⟨m, m1, m2⟩ := hns
      have hpy : pythonName (a :: b :: rest) = a ++ '_' :: pythonName (b :: rest) := by
        simp [pythonName, joinTexts]
      rw [hpy] at hp
      have hak : a = k := by
        apply hk.2.2 a m m1 m2
        rintro ⟨x, y, hxy⟩
        apply hk.1
        -- `a` is a prefix of `k`
        rcases List.append_eq_append_iff.mp hp with ⟨u, hu1, hu2⟩ | ⟨u, hu1, hu2⟩
        · exact ⟨x, y ++ u, by rw [hu1, hxy]; simp⟩
        · cases u with
          | nil => exact ⟨x, y, by rw [← hxy, hu1]; simp⟩
          | cons c u =>
            exfalso
            simp only [List.cons_append, List.cons.injEq] at hu2
            exact hname (by rw [hu2.2]; simp)
      subst hak
      have := List.append_cancel_left hp
      simp only [List.cons.injEq, true_and] at this
      cases rest with
      | nil => simp [pythonName, joinTexts] at this; rw [this]
      | cons d rest =>
        exfalso
        apply hname
        rw [← this]
        simp [pythonName, joinTexts]

/-- **C104 (names without an underscore).** For such a name the class is the one of the archive of that name that is declared directly in the only
outermost namespace: archives in nested namespaces are not found. -/
theorem C104_direct {s : Text} {t : Tree} (h : Compile s (.ok t)) (hf : Flat t) (hb : NoBuiltin t) (hi : Importable t) {name : Text} (hname : '_' ∉ name)
    (A : ArchiveType) : Renders s name (.archive A) ↔ name ≠ [] ∧ ∃ k, OnlyNamespace t k ∧ ArchiveAt t [k, name] A := by
  rw [C104_archive_class h hf hb hi]
  refine and_congr_right fun _ => ?_
  constructor
  · rintro ⟨k, p, hk, hp, hA⟩
    refine ⟨k, hk, ?_⟩
    cases id hA with
    | @mk _ n x rs hn hak hx hres => rw [← direct_path (compile_compiled h) hf hk hn hak hname hp]; exact hA
  · rintro ⟨k, hk, hA⟩
    exact ⟨k, [k, name], hk, by simp [pythonName, joinTexts], hA⟩

/-- The same for builders. -/
theorem C104_direct_builder {s : Text} {t : Tree} (h : Compile s (.ok t)) (hf : Flat t) (hb : NoBuiltin t) (hi : Importable t) {name : Text} (hname : '_' ∉ name)
    (A : ArchiveType) : Renders s (name ++ "Builder".toList) (.builder A) ↔ ∃ k, OnlyNamespace t k ∧ ArchiveAt t [k, name] A := by
  rw [C104_builder_class h hf hb hi]
  constructor
  · rintro ⟨k, p, hk, hp, hA⟩
    refine ⟨k, hk, ?_⟩
    cases id hA with
    | @mk _ n x rs hn hak hx hres => rw [← direct_path (compile_compiled h) hf hk hn hak hname hp]; exact hA
  · rintro ⟨k, hk, hA⟩
    exact ⟨k, [k, name], hk, by simp [pythonName, joinTexts], hA⟩

/-! ## The inspector -/

theorem renders_unique {s name : Text} {c c' : PyVal} (h : Renders s name c) (h' : Renders s name c') : c = c' := by
  obtain ⟨_, t, root, stmts, env, h1, h2, h3, h4, h5⟩ := h
  obtain ⟨_, t', root', stmts', env', g1, g2, g3, g4, g5⟩ := h'
  have := compile_unique h1 g1
  subst this
  rw [h2] at g2; cases g2
  have := pyModule_unique h3 g3
  cases this
  rw [h4] at g4; cases g4
  rw [h5] at g5
  exact Option.some.inj g5

/-- There is an engine: what it returns is determined by the source and the name. -/
theorem engine_exists : ∃ engine, IsEngine engine := by
  classical
  refine ⟨fun source name => if h : ∃ A, Renders source.toList name (.archive A) then .ok h.choose else .error .runtimeError, fun source name A => ?_⟩
  constructor
  · intro h
    dsimp only at h
    split at h
    · rename_i hx
      cases h
      exact hx.choose_spec
    · cases h
  · intro h
    have hx : ∃ A, Renders source.toList name (.archive A) := ⟨A, h⟩
    dsimp only
    rw [dif_pos hx]
    have := renders_unique hx.choose_spec h
    rw [PyVal.archive.injEq] at this
    rw [this]

/-- **C104 (inspector).** A directory has an archive to choose, called `a`, with a stored schema that is accepted, as in C60: the inspector opens the
directory exactly if the schema has only one outermost namespace, an archive whose class is named after this namespace and
`a`, and this class opens on the directory. -/
theorem C104_inspector {engine : EngineFn} (hE : IsEngine engine) {names : List (List Char)} (hnd : names.Nodup) {archive : Option (List Char)} {a : Text}
    (hch : Chosen names archive a) {node : Node} {s : String} (hs : s ≠ "")
    (hfile : node.entry (String.ofList (a ++ ".archive".toList ++ ".schema".toList)) = some (.file (Py.encodeUtf8 s)))
    {t : Tree} (h : Compile s.toList (.ok t)) (hf : Flat t) (hb : NoBuiltin t) (hi : Importable t) (A : ArchiveType) (l : List (String × Loaded)) :
    inspectorOpen engine (.dir names node) archive = .ok (A, l) ↔
      a ≠ [] ∧ ∃ k p, OnlyNamespace t k ∧ pythonName p = k ++ '_' :: a ∧ ArchiveAt t p A ∧ openArchive A .files node = .ok l := by
  rw [C38_opens_chosen engine names hnd]
  constructor
  · rintro ⟨b, schema, h1, _, h2, h3, h4⟩
    have := C38_choice_unique hch h1
    subst this
    rw [hfile] at h2
    simp only [Option.some.injEq, Node.file.injEq] at h2
    have e : (Except.ok schema : Py.M String) = Except.ok s := by
      exact ((decodeUtf8_iff _ schema).mpr h2).symm.trans ((decodeUtf8_iff _ s).mpr rfl)
    cases e
    obtain ⟨g0, k, p, g1, g2, g3⟩ := (C104_archive_class h hf hb hi a A).mp ((hE _ _ _).mp h3)
    exact ⟨g0, k, p, g1, g2, g3, h4⟩
  · rintro ⟨g0, k, p, g1, g2, g3, h4⟩
    exact ⟨a, s, hch, hs, hfile, (hE _ _ _).mpr ((C104_archive_class h hf hb hi a A).mpr ⟨g0, k, p, g1, g2, g3⟩), h4⟩

/-- **C104 (inspector and generated class).** If a class generated from some schema opens a directory, and the inspector, which only knows the directory,
opens it as an archive of the same name: both show the same data, and the archives have the same namespaces. -/
theorem C104_same {engine : EngineFn} (hE : IsEngine engine) {names : List (List Char)} (hnd : names.Nodup) {archive : Option (List Char)} {a : Text}
    (hch : Chosen names archive a) {node : Node} {s : String} (hs : s ≠ "")
    (hfile : node.entry (String.ofList (a ++ ".archive".toList ++ ".schema".toList)) = some (.file (Py.encodeUtf8 s)))
    {t : Tree} (h : Compile s.toList (.ok t)) (hf : Flat t) (hb : NoBuiltin t) (hi : Importable t)
    {blocks : List PBlock} (hp : parseSource s.toList = .ok blocks) (hno : ∀ b ∈ blocks, "_builtin".toList ∉ splitDot b.name)
    {source : Text} {blocks₀ : List PBlock} {t₀ : Tree} (hp₀ : parseSource source = .ok blocks₀) (h₀ : Compile source (.ok t₀)) (hf₀ : Flat t₀) (hb₀ : NoBuiltin t₀)
    (hno₀ : ∀ b ∈ blocks₀, "_builtin".toList ∉ splitDot b.name) {p₀ : Path} {A₀ : ArchiveType} (hA₀ : ArchiveAt t₀ p₀ A₀)
    {l₀ : List (String × Loaded)} (ho₀ : openArchive A₀ .files node = .ok l₀) {A : ArchiveType} {l : List (String × Loaded)}
    (ho : inspectorOpen engine (.dir names node) archive = .ok (A, l)) (hname : A.name = A₀.name) :
    ArchiveAt t p₀ A ∧ l = l₀ := by
  obtain ⟨_, k, p, _, _, hA, ho'⟩ := (C104_inspector hE hnd hch hs hfile h hf hb hi A l).mp ho
  obtain ⟨e1, e2⟩ := C68_same_data hp hp₀ h h₀ hf hf₀ hb hb₀ hno hno₀ hA hA₀ hname ho' ho₀
  exact ⟨e1 ▸ hA, e2⟩

/-! ## The writer -/

/-- **C104 (writer).** With the name given, the writer has the builder of the archive named after the only outermost namespace and the given name. -/
theorem C104_writer {s : Text} {t : Tree} (h : Compile s (.ok t)) (hf : Flat t) (hb : NoBuiltin t) (hi : Importable t) {name : Text} (hname : name ≠ [])
    (A : ArchiveType) : WriterFor s name A ↔ ∃ k p, OnlyNamespace t k ∧ pythonName p = k ++ '_' :: name ∧ ArchiveAt t p A := by
  unfold WriterFor
  rw [if_neg hname]
  exact C104_builder_class h hf hb hi name A

/-- **C104 (writer without a name).** If no name is given and the word `archive` occurs once in the schema, followed by the name and an opening brace: as if that
name was given. -/
theorem C104_writer_detected {s : Text} {t : Tree} (h : Compile s (.ok t)) (hf : Flat t) (hb : NoBuiltin t) (hi : Importable t) {pre ws1 name ws2 rest : Text}
    (hs : s = pre ++ "archive".toList ++ ws1 ++ name ++ ws2 ++ '{' :: rest) (h1 : ∀ c ∈ ws1, isSpace c = true) (h2 : ∀ c ∈ ws2, isSpace c = true)
    (hn : name ≠ []) (hsp : ∀ c ∈ name, isSpace c = false) (hbr : '{' ∉ name)
    (once : ¬ OccursTwice "archive".toList (pre ++ "archive".toList ++ ws1 ++ name ++ ws2 ++ '{' :: rest)) (A : ArchiveType) :
    WriterFor s [] A ↔ ∃ k p, OnlyNamespace t k ∧ pythonName p = k ++ '_' :: name ∧ ArchiveAt t p A := by
  have hd := C39_detects_name pre ws1 name ws2 rest h1 h2 hn hsp hbr once
  rw [← hs] at hd
  unfold WriterFor
  rw [if_pos rfl, hd, ← C104_builder_class h hf hb hi name A]
  simp

end Props
