import Verif.Props.BuilderHistory
import Verif.Props.ArchiveUse

/-!
# C33: crash consistency

A crash point is a prefix of the history of file operations of a builder working in a fresh directory.
-/

namespace Props
open Py Spec Model

/-- An empty directory. -/
def noFiles : Files := fun _ => none

/-- `set(name, v)` is one of the calls, it returned, and the files of the resource in `g` are those it left. -/
def CompletedIn (A : ArchiveType) (path : String) (calls : List Call) (name : String) (sig : Sig) (g : Files) : Prop :=
  ∃ before v after, calls = before ++ .set name v :: after ∧
    (setResource A path name v (runCalls A path before (newBuilder A path))).1 = .ok () ∧
    ∀ n ∈ ownedFiles name sig,
      g n = replay noFiles (runCalls A path (before ++ [.set name v]) (newBuilder A path)).ops n

theorem completed_append {A : ArchiveType} {path : String} {cs : List Call} {name : String} {sig : Sig} {g : Files}
    (h : CompletedIn A path cs name sig g) (c : Call) : CompletedIn A path (cs ++ [c]) name sig g := by
  obtain ⟨b, v, a, rfl, h1, h2⟩ := h
  exact ⟨b, v, a ++ [c], by simp, h1, h2⟩

theorem completed_written {A : ArchiveType} {path : String} {cs : List Call} {name : String} {sig : Sig} {g : Files}
    (h : CompletedIn A path cs name sig g) : name ∈ (runCalls A path cs (newBuilder A path)).written := by
  obtain ⟨b, v, a, rfl, h1, -⟩ := h
  rw [runCalls_append]
  apply written_mono a
  simp only [runCall]
  rcases set_cases A path name v (runCalls A path b (newBuilder A path)) with ⟨-, e⟩ | ⟨sg, -, -, e⟩ | ⟨sg, hl', hw', e⟩
  · rw [e] at h1; simp at h1
  · rw [e] at h1; simp at h1
  · rw [e] at h1 ⊢
    exact setBody_marks (sig := sg) (by rw [← h1])

theorem prefix_append_cases {α} {pre a b : List α} (h : pre <+: a ++ b) :
    pre <+: a ∨ ∃ d, pre = a ++ d ∧ d <+: b := by
  rcases List.prefix_or_prefix_of_prefix h (List.prefix_append a b) with h1 | ⟨d, h1⟩
  · exact .inl h1
  · subst h1
    obtain ⟨t, ht⟩ := h
    rw [List.append_assoc] at ht
    exact .inr ⟨d, rfl, t, List.append_cancel_left ht⟩

theorem init_ops {A : ArchiveType} {path : String} (hp : path ≠ "") : (newBuilder A path).ops =
    (.openWb (A.name ++ ".archive") :: writeOps (A.name ++ ".archive") (List.replicate 16 0)) ++
    (.openWb (A.name ++ ".archive.schema") :: writeOps (A.name ++ ".archive.schema") (encodeUtf8 A.schema)) := by
  unfold newBuilder builderInit
  have h1 : A.name ++ ".archive" ≠ "" := by
    intro e; have := congrArg String.length e; rw [String.length_append] at this; simp at this
  have h2 : A.name ++ ".archive.schema" ≠ "" := by
    intro e; have := congrArg String.length e; rw [String.length_append] at this; simp at this
  obtain ⟨s1, e1, o1, -, -, -⟩ := writeRawData_ok hp h1 (List.replicate 16 0) BState.initial
  obtain ⟨s2, e2, o2, -, -, -⟩ := writeRawData_ok hp h2 (encodeUtf8 A.schema) s1
  rw [BM.bind_ok e1, BM.bind_ok e2]
  simp only [markWritten, o2, o1, BState.initial, List.nil_append]

theorem init_files {A : ArchiveType} {path : String} (hp : path ≠ "") {op : FsOp} (h : op ∈ (newBuilder A path).ops) :
    op.file = A.name ++ ".archive" ∨ op.file = A.name ++ ".archive.schema" := by
  rw [init_ops hp] at h
  rcases List.mem_append.mp h with h | h <;> rcases List.mem_cons.mp h with rfl | h
  · exact .inl rfl
  · exact .inl (writeOps_file h)
  · exact .inr rfl
  · exact .inr (writeOps_file h)

/-- If, at a crash point, the data file of a resource is not empty, the resource is complete. -/
theorem nonempty_completed {A : ArchiveType} {path : String} (hp : path ≠ "") (hA : NoClash A) {name : String} {sig : Sig}
    (hl : A.resources.lookup name = some sig)
    (hsig : ∀ n ∈ ownedFiles name sig, n ≠ A.name ++ ".archive" ∧ n ≠ A.name ++ ".archive.schema")
    (calls : List Call) (hfin : Call.finish ∉ calls) (pre : List FsOp)
    (hpre : pre <+: (runCalls A path calls (newBuilder A path)).ops) {b : Bytes}
    (hb : replay noFiles pre name = some b) (hne : b ≠ []) :
    CompletedIn A path calls name sig (replay noFiles pre) := by
  induction calls using List.reverseRecOn generalizing pre b with
  | nil =>
    exfalso
    rw [replay_untouched] at hb
    · simp [noFiles] at hb
    · intro op hop
      have := hsig name (name_owned _ _)
      rcases init_files hp (hpre.subset hop) with e | e <;> rw [e]
      · exact fun h => this.1 h.symm
      · exact fun h => this.2 h.symm
  | append_singleton cs c ih =>
    have hfin' : Call.finish ∉ cs := fun h => hfin (by simp [h])
    have ih := ih hfin'
    rw [runCalls_append] at hpre
    cases c with
    | finish => exact absurd (by simp) hfin
    | set m v =>
      simp only [runCalls, runCall] at hpre
      rcases set_cases A path m v (runCalls A path cs (newBuilder A path)) with ⟨-, e⟩ | ⟨sg, -, -, e⟩ | ⟨sg, hl', hw', e⟩
      · rw [e] at hpre; exact completed_append (ih pre hpre hb hne) _
      · rw [e] at hpre; exact completed_append (ih pre hpre hb hne) _
      · rw [e] at hpre
        by_cases hm : m = name
        · subst hm
          rw [hl] at hl'; cases hl'
          obtain ⟨oa, ob, oc, ho, ha, hbb, hc⟩ := setBody_trace path m sig v (runCalls A path cs (newBuilder A path))
          rw [ho] at hpre
          rcases prefix_append_cases hpre with h | ⟨d, rfl, hd⟩
          · exact completed_append (ih pre h hb hne) _
          rcases prefix_append_cases hd with h | ⟨d', rfl, hd'⟩
          · exfalso
            rcases prefix_append_cases h with h | ⟨d', rfl, hd'⟩
            · rw [replay_append, replay_untouched] at hb
              · exact hw' (completed_written (ih _ (List.prefix_refl _) hb hne))
              · intro op hop; rw [ha op (h.subset hop)]; exact (str_ne_append m ".schema" (by decide)).symm
            · rcases hbb with rfl | ⟨mid, rfl, hmid⟩
              · have : d' = [] := by simpa using hd'
                subst this
                rw [List.append_nil, replay_append, replay_untouched] at hb
                · exact hw' (completed_written (ih _ (List.prefix_refl _) hb hne))
                · intro op hop; rw [ha op hop]; exact (str_ne_append m ".schema" (by decide)).symm
              · cases d' with
                | nil =>
                  rw [List.append_nil, replay_append, replay_untouched] at hb
                  · exact hw' (completed_written (ih _ (List.prefix_refl _) hb hne))
                  · intro op hop; rw [ha op hop]; exact (str_ne_append m ".schema" (by decide)).symm
                | cons x xs =>
                  obtain ⟨rfl, hxs⟩ := List.cons_prefix_cons.mp hd'
                  rw [replay_append, replay_append, replay_cons, replay_untouched] at hb
                  · simp [applyOp] at hb; exact hne hb
                  · intro op hop
                    have := hmid op (hxs.subset hop)
                    simp only [List.mem_cons, List.not_mem_nil, or_false] at this
                    rcases this with e | e <;> rw [e] <;> exact (str_ne_append m _ (by decide)).symm
          · rcases hc with ⟨rfl, hc⟩ | ⟨⟨dd, rfl⟩, hok⟩
            · exfalso
              have : d' = [] := by simpa using hd'
              subst this
              rw [List.append_nil] at hb
              rcases hbb with rfl | ⟨mid, rfl, hmid⟩
              · rw [List.append_nil, replay_append, replay_untouched] at hb
                · exact hw' (completed_written (ih _ (List.prefix_refl _) hb hne))
                · intro op hop; rw [ha op hop]; exact (str_ne_append m ".schema" (by decide)).symm
              · rw [replay_append, replay_append, replay_cons, replay_untouched] at hb
                · simp [applyOp] at hb; exact hne hb
                · intro op hop
                  have := hmid op hop
                  simp only [List.mem_cons, List.not_mem_nil, or_false] at this
                  rcases this with e | e <;> rw [e] <;> exact (str_ne_append m _ (by decide)).symm
            · cases d' with
              | nil =>
                exfalso
                rw [List.append_nil] at hb
                rcases hbb with rfl | ⟨mid, rfl, hmid⟩
                · rw [List.append_nil, replay_append, replay_untouched] at hb
                  · exact hw' (completed_written (ih _ (List.prefix_refl _) hb hne))
                  · intro op hop; rw [ha op hop]; exact (str_ne_append m ".schema" (by decide)).symm
                · rw [replay_append, replay_append, replay_cons, replay_untouched] at hb
                  · simp [applyOp] at hb; exact hne hb
                  · intro op hop
                    have := hmid op hop
                    simp only [List.mem_cons, List.not_mem_nil, or_false] at this
                    rcases this with e | e <;> rw [e] <;> exact (str_ne_append m _ (by decide)).symm
              | cons x xs =>
                obtain ⟨rfl, hxs⟩ := List.cons_prefix_cons.mp hd'
                have : xs = [] := by simpa using hxs
                subst this
                refine ⟨cs, v, [], rfl, by rw [e]; exact hok, fun n _ => ?_⟩
                rw [runCalls_append]
                simp only [runCalls, runCall, e]
                rw [ho]
        · have hdis : ∀ n ∈ ownedFiles name sig, n ∉ ownedFiles m sg := noClash_names hA hl hl' (fun h => hm h.symm)
          obtain ⟨ops, _, ho, hin, -⟩ := touches_set_filesOf (path := path) (n := m) (sig := sg) (v := v)
            (runCalls A path cs (newBuilder A path))
          rw [ho] at hpre
          rcases prefix_append_cases hpre with h | ⟨d, rfl, hd⟩
          · exact completed_append (ih pre h hb hne) _
          · have hsame : ∀ n ∈ ownedFiles name sig, replay noFiles ((runCalls A path cs (newBuilder A path)).ops ++ d) n =
                replay noFiles (runCalls A path cs (newBuilder A path)).ops n := by
              intro n hn
              rw [replay_append, replay_untouched]
              intro op hop he
              exact hdis n hn (he ▸ hin op (hd.subset hop))
            rw [hsame name (name_owned _ _)] at hb
            obtain ⟨b1, v1, a1, h1, h2, h3⟩ := completed_append (ih _ (List.prefix_refl _) hb hne) (.set m v)
            exact ⟨b1, v1, a1, h1, h2, fun n hn => by rw [hsame n hn, h3 n hn]⟩

theorem exists_iff_op (f : Files) (ops : List FsOp) (n : String) :
    replay f ops n ≠ none ↔ f n ≠ none ∨ ∃ op ∈ ops, op.file = n := by
  induction ops generalizing f with
  | nil => simp [replay]
  | cons op ops ih =>
    rw [replay_cons, ih]
    by_cases h : op.file = n
    · have : applyOp f op n ≠ none := by cases op <;> simp [FsOp.file] at h <;> subst h <;> simp [applyOp]
      simp [this, h]
    · rw [applyOp_other h]
      simp [h]

/-- At a crash point, if the index of a multivector exists, so does its data file. -/
theorem index_after_data {A : ArchiveType} {path : String} (hp : path ≠ "") (hA : NoClash A) {name : String}
    {it : StructType} {ts : List StructType} {sch : String} {o : Bool}
    (hl : A.resources.lookup name = some (.multivector it ts sch o))
    (hsig : ∀ n ∈ ownedFiles name (.multivector it ts sch o), n ≠ A.name ++ ".archive" ∧ n ≠ A.name ++ ".archive.schema")
    (calls : List Call) (hfin : Call.finish ∉ calls) (pre : List FsOp)
    (hpre : pre <+: (runCalls A path calls (newBuilder A path)).ops)
    (hi : ∃ op ∈ pre, op.file = name ++ "_index") : ∃ op ∈ pre, op.file = name := by
  induction calls using List.reverseRecOn generalizing pre with
  | nil =>
    exfalso
    obtain ⟨op, hop, hf⟩ := hi
    have := hsig (name ++ "_index") (by simp [ownedFiles])
    rcases init_files hp (hpre.subset hop) with e | e <;> rw [hf] at e
    · exact this.1 e
    · exact this.2 e
  | append_singleton cs c ih =>
    have ih := ih fun h => hfin (by simp [h])
    rw [runCalls_append] at hpre
    cases c with
    | finish => exact absurd (by simp) hfin
    | set m v =>
      simp only [runCalls, runCall] at hpre
      rcases set_cases A path m v (runCalls A path cs (newBuilder A path)) with ⟨-, e⟩ | ⟨sg, -, -, e⟩ | ⟨sg, hl', hw', e⟩
      · rw [e] at hpre; exact ih pre hpre hi
      · rw [e] at hpre; exact ih pre hpre hi
      · rw [e] at hpre
        by_cases hm : m = name
        · subst hm
          rw [hl] at hl'; cases hl'
          obtain ⟨oa, ob, oc, ho, ha, hbb, hc⟩ := setBody_trace path m (.multivector it ts sch o) v
            (runCalls A path cs (newBuilder A path))
          rw [ho] at hpre
          rcases prefix_append_cases hpre with h | ⟨d, rfl, hd⟩
          · exact ih pre h hi
          obtain ⟨op, hop, hf⟩ := hi
          rcases List.mem_append.mp hop with hop | hop
          · obtain ⟨q, hq, hqf⟩ := ih _ (List.prefix_refl _) ⟨op, hop, hf⟩
            exact ⟨q, by simp [hq], hqf⟩
          · rw [List.append_assoc] at hd
            rcases prefix_append_cases hd with h | ⟨d', rfl, hd'⟩
            · have := ha op (h.subset hop)
              rw [hf] at this
              exact absurd this (append_ne_append (by decide))
            · rcases List.mem_append.mp hop with hop | hop
              · have := ha op hop
                rw [hf] at this
                exact absurd this (append_ne_append (by decide))
              · rcases hbb with rfl | ⟨mid, rfl, hmid⟩
                · exfalso
                  rcases hc with ⟨rfl, -⟩ | ⟨⟨dd, rfl⟩, -⟩
                  · have : d' = [] := by simpa using hd'
                    subst this; simp at hop
                  · have := hd'.subset hop
                    simp at this
                    subst this
                    exact str_ne_append m "_index" (by decide) hf
                · cases d' with
                  | nil => simp at hop
                  | cons x xs =>
                    obtain ⟨rfl, hxs⟩ := List.cons_prefix_cons.mp hd'
                    exact ⟨.openWb m, by simp, rfl⟩
        · have hdis : ∀ n ∈ ownedFiles name (.multivector it ts sch o), n ∉ ownedFiles m sg :=
            noClash_names hA hl hl' (fun h => hm h.symm)
          obtain ⟨ops, _, ho, hin, -⟩ := touches_set_filesOf (path := path) (n := m) (sig := sg) (v := v)
            (runCalls A path cs (newBuilder A path))
          rw [ho] at hpre
          rcases prefix_append_cases hpre with h | ⟨d, rfl, hd⟩
          · exact ih pre h hi
          · obtain ⟨op, hop, hf⟩ := hi
            rcases List.mem_append.mp hop with hop | hop
            · obtain ⟨q, hq, hqf⟩ := ih _ (List.prefix_refl _) ⟨op, hop, hf⟩
              exact ⟨q, by simp [hq], hqf⟩
            · exact absurd (hf ▸ hin op (hd.subset hop)) (hdis _ (by simp [ownedFiles]))

/-- The signature file never has other contents than its 16 zero bytes, once it is not empty. -/
theorem signature_contents {name schema path : String} {rs : List (String × Sig)} (hp : path ≠ "")
    (hA : NoClash (mkArchive name schema rs)) (calls : List Call) (hfin : Call.finish ∉ calls) (pre : List FsOp)
    (hpre : pre <+: (runCalls (mkArchive name schema rs) path calls (newBuilder (mkArchive name schema rs) path)).ops) {b : Bytes}
    (hb : replay noFiles pre (name ++ ".archive") = some b) (hne : b ≠ []) : b = List.replicate 16 0 := by
  induction calls using List.reverseRecOn generalizing pre b with
  | nil =>
    rw [runCalls, init_ops hp] at hpre
    have hne' : name ++ ".archive.schema" ≠ name ++ ".archive" := append_ne_append (by decide)
    have h1 : replay noFiles pre (name ++ ".archive") =
        replay noFiles (pre.filter fun op => op.file = name ++ ".archive") (name ++ ".archive") := replay_filter _ _ _
    have h2 := hpre.filter fun op => op.file = name ++ ".archive"
    have h3 : (((.openWb (name ++ ".archive") :: writeOps (name ++ ".archive") (List.replicate 16 0)) ++
        (.openWb (name ++ ".archive.schema") :: writeOps (name ++ ".archive.schema") (encodeUtf8 schema))).filter
          fun op : FsOp => op.file = name ++ ".archive") =
        [.openWb (name ++ ".archive"), .write (name ++ ".archive") (List.replicate 16 0)] := by
      rw [List.filter_append]
      have : (FsOp.openWb (name ++ ".archive.schema") :: writeOps (name ++ ".archive.schema") (encodeUtf8 schema)).filter
          (fun op : FsOp => op.file = name ++ ".archive") = [] := by
        rw [List.filter_eq_nil_iff]
        intro op hop
        rcases List.mem_cons.mp hop with rfl | hop
        · simp [FsOp.file]
        · rw [writeOps_file hop]; simp
      rw [this]
      simp [writeOps, FsOp.file]
    have h4 : (pre.filter fun op => op.file = name ++ ".archive") <+:
        [.openWb (name ++ ".archive"), .write (name ++ ".archive") (List.replicate 16 0)] := by
      rw [← h3]; exact h2
    rw [h1] at hb
    generalize (pre.filter fun op => op.file = name ++ ".archive") = q at h4 hb
    match q, h4 with
    | [], _ => simp [replay, noFiles] at hb
    | [x], h4 =>
      obtain ⟨rfl, -⟩ := List.cons_prefix_cons.mp h4
      simp [replay, applyOp] at hb
      exact absurd hb hne
    | x :: y :: zs, h4 =>
      obtain ⟨rfl, h5⟩ := List.cons_prefix_cons.mp h4
      obtain ⟨rfl, h6⟩ := List.cons_prefix_cons.mp h5
      have : zs = [] := by simpa using h6
      subst this
      simp [replay, applyOp] at hb
      rw [← hb]; rfl
  | append_singleton cs c ih =>
    have ih := ih fun h => hfin (by simp [h])
    rw [runCalls_append] at hpre
    cases c with
    | finish => exact absurd (by simp) hfin
    | set m v =>
      simp only [runCalls, runCall] at hpre
      rcases set_cases (mkArchive name schema rs) path m v
        (runCalls (mkArchive name schema rs) path cs (newBuilder (mkArchive name schema rs) path)) with
        ⟨-, e⟩ | ⟨sg, -, -, e⟩ | ⟨sg, hl', hw', e⟩
      · rw [e] at hpre; exact ih pre hpre hb hne
      · rw [e] at hpre; exact ih pre hpre hb hne
      · rw [e] at hpre
        have hl : (mkArchive name schema rs).resources.lookup (name ++ ".archive") = some (.rawData schema false) := by
          simp [mkArchive]
        have hne2 : name ++ ".archive" ≠ m := by
          rintro rfl
          exact hw' (written_mono cs (by rw [(newBuilder_ok hp).2]; simp [mkArchive]))
        obtain ⟨ops, _, ho, hin, -⟩ := touches_set_filesOf (path := path) (n := m) (sig := sg) (v := v)
          (runCalls (mkArchive name schema rs) path cs (newBuilder (mkArchive name schema rs) path))
        rw [ho] at hpre
        rcases prefix_append_cases hpre with h | ⟨d, rfl, hd⟩
        · exact ih pre h hb hne
        · rw [replay_append, replay_untouched] at hb
          · exact ih _ (List.prefix_refl _) hb hne
          · intro op hop he
            exact noClash_names hA hl hl' hne2 _ (name_owned _ _) (he ▸ hin op (hd.subset hop))

/-- **C33.** Let a builder work in a fresh directory, with any calls of `set`, failing or not, and stop it between any
two file operations. If the archive then opens (`node`: the directory; the directories of sub-archives are arbitrary),
then its signature is complete, and every resource is complete (all its files are as the successful `set` in the history
left them), or it is optional and not stored at all. -/
theorem C33_crash_safe (name schema path : String) (rs : List (String × Sig)) (calls : List Call) (pre : List FsOp)
    (node : Node) (loaded : List (String × Loaded)) (hp : path ≠ "") (hA : NoClash (mkArchive name schema rs))
    (hfin : Call.finish ∉ calls)
    (hpre : pre <+: (runCalls (mkArchive name schema rs) path calls (newBuilder (mkArchive name schema rs) path)).ops)
    (hnode : ∀ p ∈ (mkArchive name schema rs).resources, Leaf p.2 → ∀ n ∈ ownedFiles p.1 p.2,
      node.entry n = (replay noFiles pre n).map .file)
    (hopen : openArchive (mkArchive name schema rs) .files node = .ok loaded) :
    (replay noFiles pre (name ++ ".archive") = some (List.replicate 16 0) ∧
      replay noFiles pre (name ++ ".archive" ++ ".schema") = some (encodeUtf8 schema)) ∧
    ∀ p ∈ rs, Leaf p.2 →
      (p.2.isOptional = true ∧ replay noFiles pre (p.1 ++ ".schema") = none) ∨
      CompletedIn (mkArchive name schema rs) path calls p.1 p.2 (replay noFiles pre) := by
  have hall := (C22_opens_iff (mkArchive name schema rs) .files node).mp ⟨loaded, hopen⟩
  have file_of : ∀ p ∈ (mkArchive name schema rs).resources, Leaf p.2 → ∀ n ∈ ownedFiles p.1 p.2, ∀ b,
      node.entry n = some (.file b) → replay noFiles pre n = some b := by
    intro p hp hl n hn b he
    rw [hnode p hp hl n hn] at he
    cases h : replay noFiles pre n with
    | none => rw [h] at he; simp at he
    | some c => rw [h] at he; simp at he; rw [he]
  constructor
  · have hmem : (name ++ ".archive", Sig.rawData schema false) ∈ (mkArchive name schema rs).resources := by simp [mkArchive]
    have hr := hall _ hmem
    have hf := file_of _ hmem trivial
    cases hr with
    | absent _ ho _ => simp [Sig.isOptional] at ho
    | present _ hs hd =>
      obtain ⟨b, hb, hlen, -⟩ := hd
      have h1 := hf _ (name_owned _ _) b hb.1
      refine ⟨?_, hf _ (by simp [ownedFiles]) _ hs.2⟩
      rw [h1, signature_contents hp hA calls hfin pre hpre h1 (by rintro rfl; simp at hlen)]
  · intro p hpm hleaf
    have hmem : p ∈ (mkArchive name schema rs).resources := by simp [mkArchive, hpm]
    have hr := hall p hmem
    have hf := file_of p hmem hleaf
    have hnd := hA.1
    have hl : (mkArchive name schema rs).resources.lookup p.1 = some p.2 := lookup_of_mem hnd hmem
    have hne : p.1 ≠ name ++ ".archive" := by
      intro e
      simp only [mkArchive, List.map_cons, List.nodup_cons] at hnd
      exact hnd.1 (e ▸ List.mem_map_of_mem hpm)
    have hsig : ∀ n ∈ ownedFiles p.1 p.2, n ≠ (mkArchive name schema rs).name ++ ".archive" ∧
        n ≠ (mkArchive name schema rs).name ++ ".archive.schema" := by
      intro n hn
      have := hA.2 p hmem (name ++ ".archive", .rawData schema false) (by simp [mkArchive]) hne n hn
      simp only [ownedFiles, List.mem_cons, List.not_mem_nil, or_false, not_or] at this
      refine ⟨this.1, fun e => this.2 ?_⟩
      rw [e]; simp only [mkArchive, String.append_assoc]; rfl
    have schemaNone : SchemaAbsent .files node p.1 → replay noFiles pre (p.1 ++ ".schema") = none := by
      intro h
      rcases h with h | ⟨h, -⟩
      · rw [hnode p hmem hleaf _ (by cases p.2 <;> simp [ownedFiles])] at h
        simpa using h
      · simp at h
    obtain ⟨n, sig⟩ := p
    have done : ∀ b, HasFile .files node n b →
        CompletedIn (mkArchive name schema rs) path calls n sig (replay noFiles pre) := by
      intro b hb
      exact nonempty_completed hp hA hl hsig calls hfin pre hpre (hf n (name_owned _ _) b hb.1) (hb.2 rfl)
    cases hr with
    | absent _ ho h => exact .inl ⟨ho, schemaNone h⟩
    | subAbsent h => exact absurd hleaf (by simp [Leaf])
    | sub h => exact absurd hleaf (by simp [Leaf])
    | present _ hs hd =>
      right
      cases sig with
      | «instance» t sch o => obtain ⟨b, hb, -⟩ := hd; exact done b hb
      | vector t sch o => obtain ⟨b, hb, -⟩ := hd; exact done b hb
      | rawData sch o => obtain ⟨b, hb, -⟩ := hd; exact done b hb
      | sub => exact absurd hleaf (by simp [Leaf])
      | multivector it ts sch o =>
        obtain ⟨⟨ib, hib, -⟩, hd⟩ := hd
        rcases hd with ⟨b, hb⟩ | ⟨e, he⟩ | ⟨-, he⟩
        · exact done b hb
        · rw [hnode _ hmem hleaf n (name_owned _ _)] at he
          cases h : replay noFiles pre n <;> rw [h] at he <;> simp at he
        · exfalso
          have hi := hf (n ++ "_index") (by simp [ownedFiles]) ib hib.1
          have h1 : ∃ op ∈ pre, op.file = n ++ "_index" := by
            have := (exists_iff_op noFiles pre (n ++ "_index")).mp (by rw [hi]; simp)
            simpa [noFiles] using this
          have h2 := index_after_data hp hA hl hsig calls hfin pre hpre h1
          rw [hnode _ hmem hleaf n (name_owned _ _)] at he
          have h3 := (exists_iff_op noFiles pre n).mpr (.inr h2)
          cases h : replay noFiles pre n with
          | none => exact h3 h
          | some c => rw [h] at he; simp at he

/-- **C33.** The same with a final `finish`, when every `set` returned: the final `finish` adds no crash point. -/
theorem C33_finish_adds_no_crash_point (A : ArchiveType) (path : String) (calls : List Call) (hp : path ≠ "")
    (hok : ∀ o ∈ outcomes A path calls (newBuilder A path), o.2 = .ok ()) :
    (runCalls A path (calls ++ [.finish]) (newBuilder A path)).ops = (runCalls A path calls (newBuilder A path)).ops := by
  obtain ⟨s', e, ho⟩ := C34_nothing_to_flush A path calls hp hok
  rw [runCalls_append]
  simp only [runCalls, runCall, e]
  exact ho

/-! ## Concrete cases -/

/-- The directory a crash after the first `n` file operations of a history on `shop` leaves behind. -/
def shopAfter (calls : List Call) (n : Nat) : Node :=
  Node.ofFiles (replay noFiles ((runCalls shop "dir" calls (newBuilder shop "dir")).ops.take n))

/-- The history of `shopCalls` without its final `finish`. -/
def shopSets : List Call := shopCalls.take 5

/-- The hypotheses of `C33_crash_safe` are met: the complete history opens, although one `set` in it failed. -/
example : Call.finish ∉ shopSets ∧ (runCalls shop "dir" shopSets (newBuilder shop "dir")).ops.length = 23 ∧
    (openArchive shop .files (shopAfter shopSets 23)).isOk = true := by decide +kernel

/-- At every earlier crash point some required resource is missing, and the archive does not open. -/
example : ∀ n < 23, (openArchive shop .files (shopAfter shopSets n)).isOk = false := by decide +kernel

/-- An archive with one multivector, with an 8-bit index. -/
def narrow : ArchiveType :=
  mkArchive "N" "s" [("m", .multivector (indexType "" 8) [mkStruct "S" [⟨"a", 60, false⟩, ⟨"b", 60, false⟩]] "ms" false)]

/-- Sixteen buckets of one element each: 256 bytes of data, one more than an 8-bit index can address. -/
def narrowCalls : List Call :=
  [.set "m" (.buckets (List.replicate 16 [⟨"S", [("a", 1), ("b", 2)]⟩])), .finish]

/-- **C33, not claimed:** `finish` after a failed `set`. The data and the index that the failed `set` left in memory are
written without frame, and the archive opens: the first eight bytes of the index are taken for its size. -/
theorem C33_counterexample_finish :
    (outcomes narrow "dir" narrowCalls (newBuilder narrow "dir")).map (·.2.isOk) = [false, true] ∧
    (openArchive narrow .files
      (Node.ofFiles (replay noFiles (runCalls narrow "dir" narrowCalls (newBuilder narrow "dir")).ops))).isOk = true := by
  decide +kernel

/-- **C33, not claimed:** a crash inside a file write. Of the 24 bytes of a vector of two 32-bit elements only the first
20 reached the disk; the archive opens. -/
theorem C33_counterexample_torn_write :
    let A := mkArchive "N" "s" [("v", .vector (mkStruct "S" [⟨"a", 32, false⟩]) "vs" false)]
    let ops := (runCalls A "dir" [.set "v" (.list [[("a", 1)], [("a", 2)]])] (newBuilder A "dir")).ops
    let torn := (ops.take 7) ++ (match ops[(7 : Nat)]? with | some (FsOp.write n b) => [FsOp.write n (b.take 20)] | _ => [])
    ops.length = 8 ∧ (replay noFiles torn "v").map List.length = some 20 ∧
      (openArchive A .files (Node.ofFiles (replay noFiles torn))).isOk = true := by
  decide +kernel

end Props
