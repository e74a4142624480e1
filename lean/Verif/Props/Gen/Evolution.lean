import Verif.Lemmas.Alike
import Verif.Lemmas.GenAlike
import Verif.Props.Gen.Usage

/-!
# C68: schemas that change
-/

namespace Props
open Gen Spec Model

/-- Two archives of the same name whose classes both open a directory: the schema of the archive is the same, and so are its
position in the namespaces and, up to the schema texts of resources, its class. -/
theorem opened_alike {source source' : Text} {blocks blocks' : List PBlock} {t t' : Tree} (hs : Side source blocks t) (hs' : Side source' blocks' t')
    (hf : Flat t) (hf' : Flat t') {p p' : Path} {A A' : ArchiveType} (hA : ArchiveAt t p A) (hA' : ArchiveAt t' p' A') (hname : A.name = A'.name)
    {k : StorageKind} {node : Node} {l l' : List (String × Loaded)} (ho : openArchive A k node = .ok l) (ho' : openArchive A' k node = .ok l') :
    A.schema = A'.schema ∧ p = p' ∧ AlikeAll A.resources A'.resources := by
  have hc := compile_compiled hs.compiled
  have sig : ∀ {B : ArchiveType} {n x rs}, B = mkArchive n x rs → ∀ {l}, openArchive B k node = .ok l → SchemaMatches node (n ++ ".archive") x := by
    intro B n x rs hB l ho
    have hok := (C22_opens_iff B k node).mp ⟨l, ho⟩
    subst hB
    cases hok (n ++ ".archive", .rawData x false) (by simp [mkArchive]) with
    | absent _ h => cases h
    | present _ h => exact h
  cases hA with
  | @mk _ n x rs hn hk hx hres =>
    cases id hA' with
    | @mk _ n' x' rs' hn' hk' hx' hres' =>
      have h1 := sig rfl ho
      have h2 := sig rfl ho'
      simp only [mkArchive] at hname
      rw [← hname] at h2
      have hxx : String.ofList x = String.ofList x' := by
        have e1 := h1.2
        rw [h2.2] at e1
        simp only [Option.some.injEq, Node.file.injEq] at e1
        exact (encodeUtf8_inj e1).symm
      have hxx' : x = x' := by have := congrArg String.toList hxx; simpa using this
      subst hxx'
      have b1 := archive_notBuiltin hs.parsed hs.compiled hs.undeclared hn hk
      have b2 := archive_notBuiltin hs'.parsed hs'.compiled hs'.undeclared hn' hk'
      obtain ⟨e, hag⟩ := C57_definitions hs.compiled hs'.compiled hf hf' hs.nobuiltin hs'.nobuiltin hn hn' (by rw [hk]; rfl) (by rw [hk']; rfl) b1 b2 hx hx'
      subst e
      exact ⟨hxx, rfl, (archive_alike hs hs' (.mk hn hk hx hres) hag b1 hA').2⟩

/-- **C68.** Two versions of a schema, both accepted, with archives of the same name: if their generated classes both open a directory
then the archive is the same definition (same namespace), and both show exactly the same: the same resources, each absent in
both or with the same structure classes over the same bytes; also in sub-archives. -/
theorem C68_same_data {source source' : Text} {blocks blocks' : List PBlock} {t t' : Tree}
    (hs : parseSource source = .ok blocks) (hs' : parseSource source' = .ok blocks') (h : Compile source (.ok t)) (h' : Compile source' (.ok t'))
    (hf : Flat t) (hf' : Flat t') (hb : NoBuiltin t) (hb' : NoBuiltin t')
    (hno : ∀ b ∈ blocks, "_builtin".toList ∉ splitDot b.name) (hno' : ∀ b ∈ blocks', "_builtin".toList ∉ splitDot b.name)
    {p p' : Path} {A A' : ArchiveType} (hA : ArchiveAt t p A) (hA' : ArchiveAt t' p' A') (hname : A.name = A'.name)
    {k : StorageKind} {node : Node} {l l' : List (String × Loaded)} (ho : openArchive A k node = .ok l) (ho' : openArchive A' k node = .ok l') :
    p = p' ∧ l = l' := by
  obtain ⟨_, h2, h3⟩ := opened_alike ⟨hs, h, hb, hno⟩ ⟨hs', h', hb', hno'⟩ hf hf' hA hA' hname ho ho'
  exact ⟨h2, loadAll_compatible (sort_compatible (alikeAll_open h3)) ho ho'⟩

/-- **C68 (writer and reader).** Data written with the builder generated from one schema, as in C67, and opened with the class generated
from another schema for an archive of the same name: either the class refuses to open it, or it shows the values that
were set, and `None` for what was not set. -/
theorem C68_writer_reader {source source' : Text} {blocks blocks' : List PBlock} {t t' : Tree}
    (hs : parseSource source = .ok blocks) (hs' : parseSource source' = .ok blocks') (h : Compile source (.ok t)) (h' : Compile source' (.ok t'))
    (hf : Flat t) (hf' : Flat t') (hb : NoBuiltin t) (hb' : NoBuiltin t') (hi : Importable t)
    (hno : ∀ b ∈ blocks, "_builtin".toList ∉ splitDot b.name) (hno' : ∀ b ∈ blocks', "_builtin".toList ∉ splitDot b.name)
    {p p' : Path} {n : Tree} (hn : t.descend p = some n) (hk : n.kind = .archive) (hx : NoIndexClash n)
    {A' : ArchiveType} (hA' : ArchiveAt t' p' A') (hname : String.ofList n.name = A'.name) :
    ∃ A, ArchiveAt t p A ∧
      ∀ path calls k node, path ≠ "" → (∀ r ∈ resourcesOf n, Supplied t A path calls k node r) →
        (∀ e ∈ A.resources, Leaf e.2 → ∀ file ∈ ownedFiles e.1 e.2,
          node.entry file = (replay noFiles (runCalls A path calls (newBuilder A path)).ops file).map .file) →
        ∀ loaded, openArchive A' k node = .ok loaded → p' = p ∧
          ∀ r ∈ resourcesOf n,
            (∀ before value after, calls = before ++ .set (String.ofList r.name) value :: after →
              NotYetSet A path before (String.ofList r.name) → Suits t r value →
              ∃ sig x, ResourceAt t (p ++ [r.name]) r sig ∧ loaded.lookup (String.ofList r.name) = some x ∧ Shows sig value x) ∧
            ((∀ o m, r.kind ≠ .resource .archive o m) → (∀ v, Call.set (String.ofList r.name) v ∉ calls) →
              loaded.lookup (String.ofList r.name) = some .absent) := by
  obtain ⟨_, _, A, _, _, hA, _, _, hall⟩ := C67_generated_roundtrip hs h hf hb hi hno hn hk hx
  refine ⟨A, hA, ?_⟩
  intro path calls k node hp hsup hnode loaded ho'
  obtain ⟨l, ho, hl⟩ := hall path calls k node hp hsup hnode
  have hnm : A.name = A'.name := by
    rw [← hname]
    cases hA with
    | mk e1 => rw [hn] at e1; cases e1; rfl
  obtain ⟨e1, rfl⟩ := C68_same_data hs hs' h h' hf hf' hb hb' hno hno' hA hA' hnm ho ho'
  refine ⟨e1.symm, fun r hr => ⟨fun before value after hc hny hv => ?_, (hl r hr).2.1⟩⟩
  exact ((hl r hr).1 before value after hc hny hv).2

end Props
