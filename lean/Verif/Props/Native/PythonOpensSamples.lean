import Verif.Props.Native.PythonOpens

/-!
# C97: concrete archives, and what goes wrong without the conditions
-/

namespace Props
open Py Spec Model Model.Native _root_.Native

/-- The files below a directory, by path. -/
def filesBelow (node : Node) : Files := fun path => fileAt node ((path.toList.splitOn '/').map String.ofList)

theorem joinPath_toList {path : List String} (h : path ≠ []) : (joinPath path).toList = ['/'].intercalate (path.map String.toList) := by
  induction path with
  | nil => exact absurd rfl h
  | cons n path ih =>
    cases path with
    | nil => simp [joinPath, List.intercalate]
    | cons m rest =>
      rw [joinPath, String.toList_append, String.toList_append, ih (by simp)]
      simp [List.intercalate]

/-- Every directory can be seen in this way. -/
theorem filesBelow_ok (node : Node) : FilesBelow node (filesBelow node) := by
  intro path hp hn
  rw [filesBelow, joinPath_toList hp, List.splitOn_intercalate '/' ?_ (by simpa using hp), List.map_map]
  · congr 1
    conv_rhs => rw [← List.map_id path]
    apply List.map_congr_left
    intro s _
    simp
  · intro l hl
    obtain ⟨n, hn', rfl⟩ := List.mem_map.mp hl
    exact hn n hn'

/-- The files below a finite directory are those in its entries. -/
theorem fileAt_small {node : Node} (h : ∀ n b, node.entry n = some (.file b) → b.length < 2 ^ 63)
    (h' : ∀ n e, node.entry n = some (.dir e) → ∀ path b, fileAt (.dir e) path = some b → b.length < 2 ^ 63) (path : List String) (b : Bytes)
    (hb : fileAt node path = some b) : b.length < 2 ^ 63 := by
  match path with
  | [] => simp [fileAt] at hb
  | [n] => exact h n b (fileAt_one.mp hb)
  | n :: m :: rest =>
    rw [fileAt] at hb
    split at hb
    · rename_i e he; exact h' n e he _ b hb
    · cases hb

/-- The entries of the directory of the sub-archive -/
def sampleSub : List (String × Node) :=
  [("B.archive", .file (frame [])), ("B.archive.schema", .file (encodeUtf8 "b")), ("m", .file (frame [0, 7, 0, 9])),
   ("m.schema", .file (encodeUtf8 "m")), ("m_index", .file (frame [0, 2, 4])), ("m_index.schema", .file (encodeUtf8 "index(m)"))]

/-- A directory with an archive: an instance of two bytes, raw data, an optional vector that is absent, and a sub-archive with a
multivector. -/
def sampleNode : Node := .dir fun n => List.lookup n
  [("A.archive", .file (frame [])), ("A.archive.schema", .file (encodeUtf8 "a")), ("head", .file (frame [1, 2])),
   ("head.schema", .file (encodeUtf8 "h")), ("text", .file (frame [65, 66, 0])), ("text.schema", .file (encodeUtf8 "t")),
   ("sub", .dir fun n => sampleSub.lookup n)]

def sampleHead : StructType := mkStruct "Head" [⟨"x", 12, false⟩]
def sampleV : StructType := mkStruct "V" [⟨"y", 16, true⟩]
def sampleM : StructType := mkStruct "E" [⟨"z", 8, false⟩]

/-- its resources in Python -/
def sampleSigs : List (String × Sig) :=
  [("head", .instance sampleHead "h" false), ("text", .rawData "t" false), ("v", .vector sampleV "v" true),
   ("sub", .sub "B" "b" (mkArchive "B" "b" [("m", .multivector (indexType "N" 8) [sampleM] "m" false)]).resources "s" true)]

theorem sample_decls : SameDecls (archiveResources 2) sampleSigs :=
  .instance (t := sampleHead) (.rawData (.vector (t := sampleV) (.archive (.multivector .nil) .nil)))

theorem sample_small : HalfFiles (filesBelow sampleNode) := by
  intro n b h
  refine fileAt_small (node := sampleNode) ?_ ?_ _ b h
  · intro n b h
    have := mem_of_lookup h
    simp only [List.mem_cons, Prod.mk.injEq, List.not_mem_nil, or_false, Node.file.injEq, reduceCtorEq, and_false] at this
    rcases this with ⟨-, rfl⟩ | ⟨-, rfl⟩ | ⟨-, rfl⟩ | ⟨-, rfl⟩ | ⟨-, rfl⟩ | ⟨-, rfl⟩ <;> decide +kernel
  · intro n e h path b hb
    have := mem_of_lookup h
    simp only [List.mem_cons, Prod.mk.injEq, List.not_mem_nil, or_false, Node.dir.injEq, reduceCtorEq, and_false, false_or] at this
    obtain ⟨-, rfl⟩ := this
    refine fileAt_small ?_ ?_ _ b hb
    · intro n b h
      have := mem_of_lookup h
      simp only [List.mem_cons, Prod.mk.injEq, List.not_mem_nil, or_false, Node.file.injEq, sampleSub] at this
      rcases this with ⟨-, rfl⟩ | ⟨-, rfl⟩ | ⟨-, rfl⟩ | ⟨-, rfl⟩ | ⟨-, rfl⟩ | ⟨-, rfl⟩ <;> decide +kernel
    · intro n e h
      have := mem_of_lookup h
      simp [sampleSub] at this

theorem sample_smallFiles : SmallFiles (filesBelow sampleNode) := fun n b hb => lt_trans (sample_small n b hb) (by norm_num)

theorem sample_opens : rustOpen (filesBelow sampleNode) "A" "a" (archiveResources 2) = .ok
    [("head", some (.instance [1, 2])), ("text", some (.rawData [65, 66, 0])), ("v", none),
     ("sub", some (.archive [("m", some (.multivector ⟨⟨[0, 2, 4], 2⟩, [0, 7, 0, 9]⟩))]))] := by
  refine ((C84_rust_open _ sample_smallFiles "A" "a" _).1 _).mpr
    ⟨⟨[], List.replicate 8 0, by decide +kernel, rfl, by decide +kernel⟩, ?_⟩
  refine .instance ⟨List.replicate 8 0, by decide +kernel, rfl, by decide +kernel⟩ (by decide) ?_
  refine .rawData ⟨List.replicate 8 0, by decide +kernel, rfl, by decide +kernel⟩ (fun _ h => by cases h; decide) ?_
  refine .noVector (by decide +kernel) ?_
  refine .archive (p := []) ⟨List.replicate 8 0, by decide +kernel, rfl, by decide +kernel⟩ ?_ (.nil _)
  exact .multivector (w := 8) (index := [0, 2, 4]) ⟨List.replicate 8 0, by decide +kernel, rfl, by decide +kernel⟩
    ⟨List.replicate 8 0, by decide +kernel, rfl, by decide +kernel⟩ (by decide) (by decide) (by decide) (fun _ h => by cases h; decide) (.nil _)

theorem sample_names : GoodNames (archiveResources 2) := by
  simp only [archiveResources, GoodNames, GoodName, resourceName, PlainName]
  decide +kernel

theorem sample_leftovers : NoLeftovers sampleNode (archiveResources 2) := by
  simp only [archiveResources, NoLeftovers, NoLeftover, and_true]
  refine ⟨fun h => absurd h (by decide +kernel), fun h => absurd h (by decide +kernel), fun _ => rfl, fun h => absurd h (by decide +kernel), ?_⟩
  intro e h h2
  have := mem_of_lookup h
  simp only [List.mem_cons, Prod.mk.injEq, List.not_mem_nil, or_false, Node.dir.injEq, reduceCtorEq, and_false, false_or] at this
  obtain ⟨-, rfl⟩ := this
  exact absurd h2 (by decide +kernel)

/-- The conditions of C97 are met by this archive. -/
example (k : StorageKind) : ∃ pl, openArchive (mkArchive "A" "a" sampleSigs) k sampleNode = .ok pl ∧ ShownInPython pl sampleSigs
    [("head", some (.instance [1, 2])), ("text", some (.rawData [65, 66, 0])), ("v", none),
     ("sub", some (.archive [("m", some (.multivector ⟨⟨[0, 2, 4], 2⟩, [0, 7, 0, 9]⟩))]))] :=
  C97_rust_then_python sampleNode _ (filesBelow_ok _) sample_small k "A" "a" (by unfold PlainName; decide +kernel) (by decide) _ _ sample_decls
    (by simp [archiveResources, HaveSchemas, HaveSchema]) sample_names sample_leftovers _ sample_opens

/-- The conditions of the theorems on values are met. -/
example : GoodStruct [⟨"x", 12, false⟩, ⟨"y", 7, true⟩] ∧ RustStruct [⟨"x", 12, false⟩, ⟨"y", 7, true⟩] ∧
    RustTypes (fun n => if n = "x" then .int 16 false else .int 8 true) [⟨"x", 12, false⟩, ⟨"y", 7, true⟩] := by
  refine ⟨⟨by intro f hf; simp at hf; rcases hf with rfl | rfl <;> decide, by decide⟩, ?_, ?_⟩
  · intro i f hi
    match i with
    | 0 => cases hi; unfold RustPortable; decide
    | 1 => cases hi; unfold RustPortable; decide
    | i + 2 => simp at hi
  · intro f hf
    simp at hf
    rcases hf with rfl | rfl <;> exact ⟨⟨by decide, by decide⟩, by decide⟩

/-- The conditions of the theorem on buckets are met by the multivector of this archive. -/
example : RustMulti.at ⟨⟨[0, 2, 4], 2⟩, [0, 7, 0, 9]⟩ 8 1 = some [0, 9] ∧ rustItems ([sampleM].map (·.sizeInBytes)) 2 [0, 9] = some [(0, [9])] ∧
    ([0, 2, 4] : Bytes).length = (8 + 7) / 8 * (2 + 1) := by decide +kernel

/-! ## Without the conditions -/

/-- What is left when the writing of an optional vector was interrupted after its schema: Rust opens the archive without it, Python raises an
exception. (A finding.) -/
theorem C97_counterexample_schema_only :
    let node : Node := .dir fun n => List.lookup n [("A.archive", .file (frame [])), ("A.archive.schema", .file (encodeUtf8 "a")),
      ("v.schema", .file (encodeUtf8 "v"))]
    rustOpen (filesBelow node) "A" "a" [.vector "v" "v" true none false 2] = .ok [("v", none)] ∧
    openArchive (mkArchive "A" "a" [("v", .vector sampleV "v" true)]) .files node = .error .typeError := by
  intro node
  have hs : SmallFiles (filesBelow node) := by
    intro n b h
    refine lt_trans (fileAt_small (node := node) ?_ ?_ _ b h) (by norm_num)
    · intro n b h
      have := mem_of_lookup h
      simp only [List.mem_cons, Prod.mk.injEq, List.not_mem_nil, or_false, Node.file.injEq] at this
      rcases this with ⟨-, rfl⟩ | ⟨-, rfl⟩ | ⟨-, rfl⟩ <;> decide +kernel
    · intro n e h
      have := mem_of_lookup h
      simp at this
  refine ⟨((C84_rust_open _ hs "A" "a" _).1 _).mpr ⟨⟨[], List.replicate 8 0, by decide +kernel, rfl, by decide +kernel⟩, .noVector ?_ (.nil _)⟩, ?_⟩
  · decide +kernel
  · refine load_error ⟨("v", .vector sampleV "v" true), by simp [mkArchive], ?_⟩ ?_
    · rw [openResource_leaf (sig := .vector sampleV "v" true) trivial]
      have : checkSchema .files node "v" "v" true = .ok true := checkSchema_true_iff.mpr ⟨by decide, by rfl⟩
      show (checkSchema .files node "v" "v" true >>= _) = _
      rw [this]
      rfl
    · intro p hp
      simp only [mkArchive, List.mem_cons, List.not_mem_nil, or_false] at hp
      rcases hp with rfl | rfl
      · refine Or.inr ⟨_, py_leaf trivial ⟨by decide, rfl⟩ (py_raw (p := []) (tail := List.replicate 8 0) rfl (by decide) rfl)⟩
      · refine Or.inl ?_
        rw [openResource_leaf (sig := .vector sampleV "v" true) trivial]
        have : checkSchema .files node "v" "v" true = .ok true := checkSchema_true_iff.mpr ⟨by decide, by rfl⟩
        show (checkSchema .files node "v" "v" true >>= _) = _
        rw [this]
        rfl

/-- The converse of C97 does not hold: Python does not look at the eight bytes behind the payload, nor at the schema of the index of a
multivector, nor at the size of an instance; Rust does. Here the payload has been cut. -/
theorem C97_counterexample_truncated :
    let node : Node := .dir fun n => List.lookup n [("A.archive", .file (frame [])), ("A.archive.schema", .file (encodeUtf8 "a")),
      ("v", .file (toLE 8 8 ++ [1, 2, 3, 4, 5, 6, 7, 8])), ("v.schema", .file (encodeUtf8 "v"))]
    (∀ l, rustOpen (filesBelow node) "A" "a" [.rawData "v" "v" true none] ≠ .ok l) ∧
    ∃ pl, openArchive (mkArchive "A" "a" [("v", .rawData "v" true)]) .files node = .ok pl := by
  intro node
  have hs : SmallFiles (filesBelow node) := by
    intro n b h
    refine lt_trans (fileAt_small (node := node) ?_ ?_ _ b h) (by norm_num)
    · intro n b h
      have := mem_of_lookup h
      simp only [List.mem_cons, Prod.mk.injEq, List.not_mem_nil, or_false, Node.file.injEq] at this
      rcases this with ⟨-, rfl⟩ | ⟨-, rfl⟩ | ⟨-, rfl⟩ | ⟨-, rfl⟩ <;> decide +kernel
    · intro n e h
      have := mem_of_lookup h
      simp at this
  constructor
  · intro l h
    have : OpensTo (filesBelow node) [.rawData "v" "v" true none] l := (((C84_rust_open _ hs "A" "a" _).1 l).mp h).2
    cases this with
    | noRawData h' _ => exact absurd h' (by decide +kernel)
    | @rawData _ _ _ _ _ _ _ p hg _ _ =>
      obtain ⟨t, h1, h2, -⟩ := hg
      have e : filesBelow node "v" = some (toLE 8 8 ++ [1, 2, 3, 4, 5, 6, 7, 8]) := by decide +kernel
      rw [e, Option.some.injEq] at h1
      have hlen := congrArg List.length h1
      rw [framed_length h2] at hlen
      have h16 : (toLE 8 8 ++ [1, 2, 3, 4, 5, 6, 7, 8]).length = 16 := by decide +kernel
      have h0 : p.length = 0 := by omega
      rw [h0, List.append_assoc] at h1
      have := congrArg List.head? h1
      rw [show toLE 8 0 = List.replicate 8 0 by decide +kernel, show toLE 8 8 = [8, 0, 0, 0, 0, 0, 0, 0] by decide +kernel] at this
      simp at this
  · refine load_isOk.mpr ?_
    intro p hp
    simp only [mkArchive, List.mem_cons, List.not_mem_nil, or_false] at hp
    rcases hp with rfl | rfl
    · exact ⟨_, py_leaf trivial ⟨by decide, rfl⟩ (py_raw (p := []) (tail := List.replicate 8 0) rfl (by decide) rfl)⟩
    · exact openResource_ok_of_resOk (.present trivial ⟨by decide, rfl⟩ ⟨_, ⟨rfl, by decide +kernel⟩, by decide +kernel, by decide +kernel⟩)

end Props
