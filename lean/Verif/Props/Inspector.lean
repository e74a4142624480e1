import Verif.Model.Inspector
import Verif.Lemmas.Archive
import Mathlib.Data.List.Nodup
import Mathlib.Tactic.IntervalCases
import Mathlib.Tactic.WLOG

/-!
# C38: archive selection by the inspector; C39: archive name detection by the writer
-/

namespace Props
open Py Spec Model

/-! ## C38 -/

/-- The directory listing has an archive called `a`: an entry `a.archive`. -/
def HasArchive (names : List (List Char)) (a : List Char) : Prop := a ++ ".archive".toList ∈ names

/-- `a` is the archive to open: the one asked for, provided it is there; if none was asked for, the only one. -/
def Chosen (names : List (List Char)) : Option (List Char) → List Char → Prop
  | some asked, a => a = asked ∧ HasArchive names a
  | none, a => HasArchive names a ∧ ∀ b, HasArchive names b → b = a

theorem beforeLastDot_archive (a : List Char) : beforeLastDot (a ++ ".archive".toList) = a := by
  have h : ".archive".toList = ['.', 'a', 'r', 'c', 'h', 'i', 'v', 'e'] := by decide +kernel
  rw [h]; simp [beforeLastDot]

theorem isArchiveEntry_iff (p : List Char) : isArchiveEntry p = true ↔ ∃ a, p = a ++ ".archive".toList := by
  rw [isArchiveEntry, List.isSuffixOf_iff_suffix]
  constructor
  · rintro ⟨a, h⟩; exact ⟨a, h.symm⟩
  · rintro ⟨a, h⟩; exact ⟨a, h.symm⟩

theorem mem_signatures (names : List (List Char)) (a : List Char) :
    a ++ ".archive".toList ∈ names.filter isArchiveEntry ↔ HasArchive names a := by
  simp only [List.mem_filter, HasArchive, and_iff_left_iff_imp]
  intro _; exact (isArchiveEntry_iff _).mpr ⟨a, rfl⟩

theorem chosen_of_select {names : List (List Char)} {archive s} (h : selectSignature names archive = .ok s) :
    ∃ a, Chosen names archive a ∧ s = a ++ ".archive".toList := by
  unfold selectSignature at h
  simp only at h
  split at h
  · simp [throw, throwThe, MonadExceptOf.throw] at h
  split at h
  · simp [throw, throwThe, MonadExceptOf.throw] at h
  rename_i h1 h2
  cases archive with
  | some asked =>
    simp only at h
    split at h
    · rename_i hm
      simp [pure, Except.pure] at h
      exact ⟨asked, ⟨rfl, (mem_signatures names asked).mp hm⟩, by simp [← h]⟩
    · simp [throw, throwThe, MonadExceptOf.throw] at h
  | none =>
    simp only [and_true, Nat.not_lt] at h2
    match hs : names.filter isArchiveEntry, h1, h2 with
    | [], h1, _ => exact absurd rfl h1
    | [x], _, _ =>
      have hx : x ∈ names.filter isArchiveEntry := by rw [hs]; simp
      obtain ⟨a, rfl⟩ := (isArchiveEntry_iff x).mp (List.mem_filter.mp hx).2
      rw [hs] at h
      simp [pure, Except.pure] at h
      refine ⟨a, ⟨(mem_signatures names a).mp hx, fun b hb => ?_⟩, by simp [← h]⟩
      have := (mem_signatures names b).mpr hb
      rw [hs, List.mem_singleton] at this
      exact List.append_cancel_right this
    | _ :: _ :: _, _, h2 => simp at h2

theorem select_of_chosen {names : List (List Char)} (hn : names.Nodup) {archive a} (h : Chosen names archive a) :
    selectSignature names archive = .ok (a ++ ".archive".toList) := by
  unfold selectSignature
  cases archive with
  | some asked =>
    obtain ⟨rfl, h⟩ := h
    have hm := (mem_signatures names a).mpr h
    have h1 : names.filter isArchiveEntry ≠ [] := List.ne_nil_of_mem hm
    simp only [h1, if_false, reduceCtorEq, and_false, hm, if_true]; rfl
  | none =>
    obtain ⟨h, hu⟩ := h
    have hm := (mem_signatures names a).mpr h
    have hs : names.filter isArchiveEntry = [a ++ ".archive".toList] := by
      have hnd : (names.filter isArchiveEntry).Nodup := hn.filter _
      have hall : ∀ x ∈ names.filter isArchiveEntry, x = a ++ ".archive".toList := by
        intro x hx
        obtain ⟨b, rfl⟩ := (isArchiveEntry_iff x).mp (List.mem_filter.mp hx).2
        rw [hu b ((mem_signatures names b).mp hx)]
      generalize names.filter isArchiveEntry = l at hm hnd hall
      match l with
      | [] => simp at hm
      | [x] => rw [hall x (by simp)]
      | x :: y :: l =>
        have := hall x (by simp)
        have := hall y (by simp)
        simp_all
    simp only [hs]; rfl

theorem select_error {names : List (List Char)} {archive} {e : Err} (h : selectSignature names archive = .error e) :
    e = .runtimeError := by
  unfold selectSignature at h
  simp only at h
  split at h
  · simpa [throw, throwThe, MonadExceptOf.throw, eq_comm] using h
  split at h
  · simpa [throw, throwThe, MonadExceptOf.throw, eq_comm] using h
  rename_i h1 h2
  cases archive with
  | some asked =>
    simp only at h
    split at h
    · simp [pure, Except.pure] at h
    · simpa [throw, throwThe, MonadExceptOf.throw, eq_comm] using h
  | none =>
    match hs : names.filter isArchiveEntry, h1 with
    | [], h1 => exact absurd rfl h1
    | x :: l, _ => rw [hs] at h; simp [pure, Except.pure] at h

theorem readSchema_iff (node : Node) (sig : List Char) (schema : String) :
    readSchema node sig = .ok schema ↔
      schema ≠ "" ∧ node.entry (String.ofList (sig ++ ".schema".toList)) = some (.file (encodeUtf8 schema)) := by
  unfold readSchema fetch
  cases hn : node.entry (String.ofList (sig ++ ".schema".toList)) with
  | none => simp [throw, throwThe, MonadExceptOf.throw, bind, Except.bind]
  | some x =>
    cases x with
    | dir e => simp [throw, throwThe, MonadExceptOf.throw, bind, Except.bind, pure, Except.pure]
    | file b =>
      by_cases hb : b = []
      · subst hb
        simp only [and_self, if_true, throw, throwThe, MonadExceptOf.throw, bind, Except.bind, reduceCtorEq,
          Option.some.injEq, Node.file.injEq, false_iff, not_and]
        intro hs h
        exact encodeUtf8_ne_nil hs h.symm
      · simp only [hb, and_false, if_false, pure, Except.pure, bind, Except.bind, Option.some.injEq, Node.file.injEq]
        rw [decodeUtf8_iff]
        constructor
        · rintro rfl
          refine ⟨?_, rfl⟩
          rintro rfl
          exact hb (by decide +kernel)
        · exact fun h => h.2

/-- C38 (success). For every directory listing, every archive name or none, and every code generator: opening succeeds
exactly if there is an archive to choose, the schema stored next to its signature is readable, a class is
generated from it under the name of the archive, and this class opens on the directory; the result is that archive. -/
theorem C38_opens_chosen (engine : EngineFn) (names : List (List Char)) (hn : names.Nodup) (node : Node)
    (archive : Option (List Char)) (A : ArchiveType) (loaded : List (String × Loaded)) :
    inspectorOpen engine (.dir names node) archive = .ok (A, loaded) ↔
      ∃ a schema, Chosen names archive a ∧ schema ≠ "" ∧
        node.entry (String.ofList (a ++ ".archive".toList ++ ".schema".toList)) = some (.file (encodeUtf8 schema)) ∧
        engine schema a = .ok A ∧ openArchive A .files node = .ok loaded := by
  simp only [inspectorOpen, openDirectory, bind, Except.bind]
  constructor
  · intro h
    cases hs : selectSignature names archive with
    | error e => rw [hs] at h; simp at h
    | ok s =>
      rw [hs] at h
      simp only at h
      cases hr : readSchema node s with
      | error e => rw [hr] at h; simp at h
      | ok schema =>
        rw [hr] at h
        simp only at h
        cases he : engine schema (beforeLastDot s) with
        | error e => rw [he] at h; simp at h
        | ok A' =>
          rw [he] at h
          cases ho : openArchive A' .files node with
          | error e =>
            simp only at h
            rw [ho] at h; simp at h
          | ok l =>
            simp only at h
            rw [ho] at h
            simp [pure, Except.pure] at h
            obtain ⟨rfl, rfl⟩ := h
            obtain ⟨a, hc, rfl⟩ := chosen_of_select hs
            rw [beforeLastDot_archive] at he
            obtain ⟨h1, h2⟩ := (readSchema_iff _ _ _).mp hr
            exact ⟨a, schema, hc, h1, h2, he, ho⟩
  · rintro ⟨a, schema, hc, h1, h2, he, ho⟩
    rw [select_of_chosen hn hc]
    simp only
    rw [(readSchema_iff _ _ _).mpr ⟨h1, h2⟩]
    simp only [beforeLastDot_archive, he, ho]; rfl

/-- C38 (choice). At most one archive can be chosen. -/
theorem C38_choice_unique {names : List (List Char)} {archive a b} (ha : Chosen names archive a)
    (hb : Chosen names archive b) : a = b := by
  cases archive with
  | some x => rw [ha.1, hb.1]
  | none => exact hb.2 a ha.1

/-- C38 (errors). If there is no archive, if the one asked for is not there, or if none was asked for and there are
several, `RuntimeError` is raised, for directories, tar files and plain files alike. -/
theorem C38_raises_if_none_chosen (engine : EngineFn) (path : PathKind) (archive : Option (List Char))
    (names : List (List Char)) (hn : names.Nodup)
    (hp : (∃ node, path = .dir names node) ∨ (∃ node, path = .fileIn names node) ∨ ∃ s, path = .tarFile s ∧ s.ls = names)
    (h : ¬ ∃ a, Chosen names archive a) : inspectorOpen engine path archive = .error .runtimeError := by
  have hsel : selectSignature names archive = .error .runtimeError := by
    cases hs : selectSignature names archive with
    | error e => rw [select_error hs]
    | ok s => obtain ⟨a, hc, _⟩ := chosen_of_select hs; exact absurd ⟨a, hc⟩ h
  rcases hp with ⟨node, rfl⟩ | ⟨node, rfl⟩ | ⟨s, rfl, rfl⟩ <;>
    simp [inspectorOpen, openDirectory, openTar, hsel, bind, Except.bind]

/-- C38 (missing path). -/
theorem C38_missing_path (engine : EngineFn) (archive : Option (List Char)) :
    inspectorOpen engine .missing archive = .error .runtimeError := rfl

/-- C38 (file path). The path of a file inside an archive directory opens the directory. -/
theorem C38_file_path (engine : EngineFn) (names : List (List Char)) (node : Node) (archive : Option (List Char)) :
    inspectorOpen engine (.fileIn names node) archive = inspectorOpen engine (.dir names node) archive := rfl

/-- C38 (tar). No tar archive can be opened, whatever it contains. -/
theorem C38_tar_raises (engine : EngineFn) (s : TarStorage) (archive : Option (List Char)) :
    ∃ e, inspectorOpen engine (.tarFile s) archive = .error e := by
  simp only [inspectorOpen, openTar, bind, Except.bind]
  cases selectSignature s.ls archive with
  | error e => exact ⟨e, rfl⟩
  | ok sig =>
    simp only
    cases s.get (String.ofList (sig ++ ".schema".toList)) false with
    | error e => exact ⟨e, rfl⟩
    | ok x => exact ⟨_, rfl⟩

/-! Concrete directories -/

/-- One archive `A` without resources besides its signature. -/
def oneArchive : Node := .dir fun n =>
  if n = "A.archive.schema" then some (.file (encodeUtf8 "s"))
  else if n = "A.archive" then some (.file (List.replicate 16 0)) else none

def tinyEngine : EngineFn := fun schema name => pure (mkArchive (String.ofList name) schema [])

example : Chosen ["A.archive".toList, "A.archive.schema".toList, "x".toList] none "A".toList := by
  refine ⟨by unfold HasArchive; decide +kernel, fun b hb => ?_⟩
  simp only [HasArchive, List.mem_cons, List.not_mem_nil, or_false] at hb
  rcases hb with h | h | h
  · exact List.append_cancel_right (h.trans (by decide +kernel : _ = "A".toList ++ ".archive".toList))
  · have := congrArg (List.getLast?) h
    rw [List.getLast?_append, (by decide +kernel : ".archive".toList.getLast? = some 'e')] at this
    exact absurd this (by rw [Option.some_or]; decide +kernel)
  · have := congrArg List.length h
    simp at this

example : (inspectorOpen tinyEngine
    (.dir ["A.archive".toList, "A.archive.schema".toList] oneArchive) none).isOk = true := by decide +kernel
example : (inspectorOpen tinyEngine
    (.dir ["A.archive".toList, "A.archive.schema".toList] oneArchive) (some "A".toList)).isOk = true := by decide +kernel
example : (inspectorOpen tinyEngine
    (.dir ["A.archive".toList, "A.archive.schema".toList] oneArchive) (some "B".toList)).isOk = false := by decide +kernel
example : (inspectorOpen tinyEngine
    (.dir ["A.archive".toList, "B.archive".toList, "A.archive.schema".toList] oneArchive) none).isOk = false := by
  decide +kernel

/-! ## C39 -/

/-- The word `w` occurs in `t` after `a`. -/
def OccursAfter (w t a : List Char) : Prop := ∃ b, t = a ++ w ++ b

/-- The word `archive` occurs at (at least) two different places. -/
def OccursTwice (w t : List Char) : Prop := ∃ a b, OccursAfter w t a ∧ OccursAfter w t b ∧ a ≠ b

theorem findFrom_some {w t : List Char} {i : Nat} (h : findFrom w t = some i) :
    w <+: t.drop i ∧ ∀ j < i, ¬ w <+: t.drop j := by
  induction t generalizing i with
  | nil =>
    simp only [findFrom] at h
    split at h
    · rename_i hw; simp at h; subst h; subst hw; simp
    · simp at h
  | cons c t ih =>
    simp only [findFrom] at h
    split at h
    · rename_i hw; simp at h; subst h; exact ⟨by simpa using hw, by simp⟩
    · rename_i hw
      cases hf : findFrom w t with
      | none => rw [hf] at h; simp at h
      | some k =>
        rw [hf] at h
        simp at h; subst h
        obtain ⟨h1, h2⟩ := ih hf
        refine ⟨by simpa using h1, fun j hj => ?_⟩
        cases j with
        | zero => simpa using hw
        | succ j => simpa using h2 j (by omega)

theorem findFrom_none {w t : List Char} (h : findFrom w t = none) (i : Nat) : ¬ w <+: t.drop i := by
  induction t generalizing i with
  | nil =>
    simp only [findFrom] at h
    split at h
    · simp at h
    · rename_i hw; simp [hw]
  | cons c t ih =>
    simp only [findFrom] at h
    split at h
    · simp at h
    · rename_i hw
      simp only [Option.map_eq_none_iff] at h
      cases i with
      | zero => simpa using hw
      | succ i => simpa using ih h i

theorem occursAfter_iff (w t a : List Char) : OccursAfter w t a ↔ a <+: t ∧ w <+: t.drop a.length := by
  constructor
  · rintro ⟨b, rfl⟩
    exact ⟨⟨w ++ b, by simp⟩, ⟨b, by simp⟩⟩
  · rintro ⟨⟨c, rfl⟩, ⟨b, hb⟩⟩
    rw [List.drop_left] at hb
    exact ⟨b, by rw [← hb]; simp⟩

theorem occursAfter_take {w t : List Char} (hw : w ≠ []) {i : Nat} (h : w <+: t.drop i) :
    OccursAfter w t (t.take i) ∧ i + w.length ≤ t.length ∧ (t.take i).length = i := by
  have hl := h.length_le
  rw [List.length_drop] at hl
  have h0 : 0 < w.length := List.length_pos_iff.mpr hw
  have hlen : (t.take i).length = i := by rw [List.length_take]; omega
  refine ⟨(occursAfter_iff _ _ _).mpr ⟨List.take_prefix i t, by rwa [hlen]⟩, by omega, hlen⟩

theorem archiveWord : "archive".toList = ['a', 'r', 'c', 'h', 'i', 'v', 'e'] := by decide +kernel

/-- Two occurrences of `archive` do not overlap. -/
theorem archive_no_overlap {t : List Char} {i j : Nat} (hi : "archive".toList <+: t.drop i)
    (hj : "archive".toList <+: t.drop j) (hij : i < j) : i + 7 ≤ j := by
  by_contra hc
  obtain ⟨d, rfl⟩ : ∃ d, j = i + d := ⟨j - i, by omega⟩
  obtain ⟨x, hx⟩ := hi
  obtain ⟨y, hy⟩ := hj
  have e1 : (t.drop i)[d]? = some 'a' := by
    rw [List.getElem?_drop]
    have : (t.drop (i + d))[0]? = some 'a' := by rw [← hy, archiveWord]; rfl
    rwa [List.getElem?_drop, Nat.add_zero] at this
  rw [← hx, archiveWord] at e1
  have hd1 : 0 < d := by omega
  have hd2 : d < 7 := by omega
  interval_cases d <;> simp at e1

/-- Which of the two searches of `_get_archive_name` succeed. -/
theorem second_search (t : List Char) :
    pyFind (t.drop (pyFind t "archive".toList + 7).toNat) "archive".toList ≥ 0 ↔ OccursTwice "archive".toList t := by
  have hw : "archive".toList ≠ [] := by rw [archiveWord]; simp
  have h7 : "archive".toList.length = 7 := by rw [archiveWord]; rfl
  constructor
  · intro h
    cases h1 : findFrom "archive".toList t with
    | none =>
      simp only [pyFind, h1] at h
      cases h2 : findFrom "archive".toList (t.drop ((-1 : Int) + 7).toNat) with
      | none => rw [h2] at h; simp at h
      | some k =>
        have := (findFrom_some h2).1
        rw [List.drop_drop] at this
        exact absurd this (findFrom_none h1 _)
    | some i =>
      simp only [pyFind, h1] at h
      cases h2 : findFrom "archive".toList (t.drop ((i : Int) + 7).toNat) with
      | none => rw [h2] at h; simp at h
      | some k =>
        have hk := (findFrom_some h2).1
        rw [List.drop_drop] at hk
        have hi := (findFrom_some h1).1
        obtain ⟨a1, b1, c1⟩ := occursAfter_take hw hi
        obtain ⟨a2, b2, c2⟩ := occursAfter_take hw hk
        refine ⟨_, _, a1, a2, fun he => ?_⟩
        have := congrArg List.length he
        rw [c1, c2] at this
        omega
  · rintro ⟨a, b, ha, hb, hab⟩
    rw [occursAfter_iff] at ha hb
    have hlen : a.length ≠ b.length := by
      intro he
      apply hab
      rw [List.prefix_iff_eq_take.mp ha.1, List.prefix_iff_eq_take.mp hb.1, he]
    wlog hlt : a.length < b.length generalizing a b
    · exact this b a hb ha (Ne.symm hab) (Ne.symm hlen) (by omega)
    cases h1 : findFrom "archive".toList t with
    | none => exact absurd ha.2 (findFrom_none h1 _)
    | some i =>
      obtain ⟨hi, hmin⟩ := findFrom_some h1
      have hia : i ≤ a.length := by
        by_contra hc
        exact hmin a.length (by omega) ha.2
      have hib : i + 7 ≤ b.length := archive_no_overlap hi hb.2 (by omega)
      simp only [pyFind, h1]
      cases h2 : findFrom "archive".toList (t.drop ((i : Int) + 7).toNat) with
      | some k => simp
      | none =>
        exfalso
        refine findFrom_none h2 (b.length - (i + 7)) ?_
        rw [List.drop_drop]
        have : ((i : Int) + 7).toNat + (b.length - (i + 7)) = b.length := by omega
        rw [this]; exact hb.2

/-- C39 (errors). The detection raises exactly for the empty text and for texts in which the word `archive` occurs more
than once (in whatever role), and what it raises is `RuntimeError`. -/
theorem C39_raises_iff (t : List Char) (e : Err) :
    getArchiveName t = .error e ↔ e = .runtimeError ∧ (t = [] ∨ OccursTwice "archive".toList t) := by
  unfold getArchiveName
  by_cases h0 : t = []
  · simp [h0, throw, throwThe, MonadExceptOf.throw, eq_comm]
  · simp only [h0, if_false, false_or]
    by_cases h2 : OccursTwice "archive".toList t
    · rw [if_pos ((second_search t).mpr h2)]
      simp only [h2, throw, throwThe, MonadExceptOf.throw, and_true, Except.error.injEq]
      exact eq_comm
    · rw [if_neg (fun hc => h2 ((second_search t).mp hc))]
      simp only [h2, pure, Except.pure, and_false, reduceCtorEq]

theorem dropWhile_append_all {p : Char → Bool} {a b : List Char} (h : ∀ c ∈ a, p c = true) :
    (a ++ b).dropWhile p = b.dropWhile p := by
  induction a with
  | nil => rfl
  | cons c a ih =>
    rw [List.cons_append, List.dropWhile_cons, if_pos (h c (by simp))]
    exact ih fun x hx => h x (by simp [hx])

theorem dropWhile_none {p : Char → Bool} {a b : List Char} (hb : b ≠ []) (h : ∀ c ∈ b, p c = false) :
    (b ++ a).dropWhile p = b ++ a := by
  cases b with
  | nil => exact absurd rfl hb
  | cons c b =>
    rw [List.cons_append, List.dropWhile_cons, if_neg (by rw [h c (by simp)]; simp)]

theorem pyStrip_padded {ws1 name ws2 : List Char} (h1 : ∀ c ∈ ws1, isSpace c = true) (h2 : ∀ c ∈ ws2, isSpace c = true)
    (hn : name ≠ []) (h : ∀ c ∈ name, isSpace c = false) : pyStrip (ws1 ++ name ++ ws2) = name := by
  unfold pyStrip
  rw [List.append_assoc, dropWhile_append_all h1, dropWhile_none hn h, List.reverse_append,
    dropWhile_append_all (by simpa using h2)]
  have := dropWhile_none (p := isSpace) (a := []) (b := name.reverse) (by simpa using hn) (by simpa using h)
  rw [List.append_nil] at this
  rw [this, List.reverse_reverse]

theorem findFrom_brace {x rest : List Char} (h : '{' ∉ x) : findFrom ['{'] (x ++ '{' :: rest) = some x.length := by
  induction x with
  | nil => simp [findFrom]
  | cons c x ih =>
    simp only [List.mem_cons, not_or] at h
    rw [List.cons_append, findFrom, if_neg, ih h.2]
    · rfl
    · simp only [List.cons_prefix_cons, List.nil_prefix, and_true]; exact h.1

/-- C39 (success). In a text where the word `archive` occurs once, followed by white space (or not), a name, white space
(or not) and an opening brace, the detected name is that name. -/
theorem C39_detects_name (pre ws1 name ws2 rest : List Char)
    (h1 : ∀ c ∈ ws1, isSpace c = true) (h2 : ∀ c ∈ ws2, isSpace c = true) (hn : name ≠ [])
    (hs : ∀ c ∈ name, isSpace c = false) (hb : '{' ∉ name)
    (once : ¬ OccursTwice "archive".toList (pre ++ "archive".toList ++ ws1 ++ name ++ ws2 ++ '{' :: rest)) :
    getArchiveName (pre ++ "archive".toList ++ ws1 ++ name ++ ws2 ++ '{' :: rest) = .ok name := by
  have h7 : "archive".toList.length = 7 := by rw [archiveWord]; rfl
  have hw : "archive".toList ≠ [] := by rw [archiveWord]; simp
  have hspace : isSpace '{' = false := by decide +kernel
  set t := pre ++ "archive".toList ++ ws1 ++ name ++ ws2 ++ '{' :: rest with ht
  have hocc : OccursAfter "archive".toList t pre := ⟨ws1 ++ name ++ ws2 ++ '{' :: rest, by rw [ht]; simp⟩
  have h0 : t ≠ [] := by rw [ht]; simp
  have hf : findFrom "archive".toList t = some pre.length := by
    cases hf : findFrom "archive".toList t with
    | none => exact absurd ((occursAfter_iff _ _ _).mp hocc).2 (findFrom_none hf _)
    | some i =>
      obtain ⟨a1, _, c1⟩ := occursAfter_take hw (findFrom_some hf).1
      by_contra hc
      refine once ⟨_, _, hocc, a1, fun he => hc ?_⟩
      rw [he, c1]
  have hdrop : t.drop (pre.length + 7) = ws1 ++ name ++ ws2 ++ '{' :: rest := by
    have : t = (pre ++ "archive".toList) ++ (ws1 ++ name ++ ws2 ++ '{' :: rest) := by rw [ht]; simp
    rw [this, ← h7, ← List.length_append, List.drop_left]
  have hidx : (pyFind t "archive".toList + 7).toNat = pre.length + 7 := by
    simp only [pyFind, hf]; omega
  have hbr : '{' ∉ ws1 ++ name ++ ws2 := by
    simp only [List.mem_append, not_or]
    refine ⟨⟨fun hc => ?_, hb⟩, fun hc => ?_⟩
    · have := h1 _ hc; rw [hspace] at this; simp at this
    · have := h2 _ hc; rw [hspace] at this; simp at this
  unfold getArchiveName
  rw [if_neg h0]
  simp only
  rw [if_neg (fun hc => once ((second_search t).mp hc)), hidx, hdrop]
  have hstop : (pyFind t "archive".toList + 7 + pyFind (ws1 ++ name ++ ws2 ++ '{' :: rest) ['{']).toNat =
      pre.length + 7 + (ws1 ++ name ++ ws2).length := by
    simp only [pyFind, hf, findFrom_brace hbr]; omega
  rw [hstop]
  simp only [sliceNN, hdrop, Nat.add_sub_cancel_left, List.take_left]
  rw [pyStrip_padded h1 h2 hn hs]; rfl

/-- The hypotheses are met by an ordinary schema. -/
example : getArchiveName "namespace n { archive  Shop \n { } }".toList = .ok "Shop".toList := by decide +kernel
example : ¬ OccursTwice "archive".toList "namespace n { archive  Shop \n { } }".toList := by
  intro h
  have := (C39_raises_iff _ .runtimeError).mpr ⟨rfl, .inr h⟩
  exact absurd this (by decide +kernel)
/-- Two archives: an error. An identifier that contains the word counts as an occurrence. -/
example : getArchiveName "archive A {} archive B {}".toList = .error .runtimeError := by decide +kernel
example : getArchiveName "archive A { archived : raw_data; }".toList = .error .runtimeError := by decide +kernel
/-- Without the word, whatever stands before the first brace (from the seventh character on) is reported as name. -/
example : getArchiveName "struct Point { x : u8; }".toList = .ok "Point".toList := by decide +kernel

end Props
