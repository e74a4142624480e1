import Verif.Props.BuilderCrash
import Verif.Props.Multivector
import Verif.Props.RawData

/-!
# C32: what the builder writes, the reader opens
-/

namespace Props
open Py Spec Model

/-! ## Specification -/

/-- A value a user may pass for a resource with this signature: the structures and values of the round-trip theorems
C12, C13, C14, C17. -/
inductive Acceptable : Sig → Value → Prop
  | «instance» {sname fs d sch o} : GoodStruct fs → DictFits fs d → (mkStruct sname fs).sizeInBytes < 2 ^ 64 →
      Acceptable (.instance (mkStruct sname fs) sch o) (.dict d)
  | vector {sname fs ds sch o} : GoodStruct fs → fs ≠ [] → (∀ d ∈ ds, DictFits fs d) →
      (mkStruct sname fs).sizeInBytes * ds.length < 2 ^ 63 →
      Acceptable (.vector (mkStruct sname fs) sch o) (.list ds)
  | multivector {ns W decls value sch o} : 1 ≤ W → W ≤ 64 → GoodDecls decls → BucketsFit decls value →
      bucketsSize decls value < 2 ^ W → (W + 7) / 8 * (value.length + 1) < 2 ^ 63 →
      Acceptable (.multivector (indexType ns W) (classes decls) sch o) (.buckets value)
  | rawData {b sch o} : b.length < 2 ^ 63 → Acceptable (.rawData sch o) (.bytes b)

/-- The attribute value `x` shows the value that was set. Empty vectors, multivectors and raw data show as `None`. -/
inductive Shows : Sig → Value → Loaded → Prop
  | «instance» {sname fs d sch o x e} : x.get 0 = .ok e → ReadsAs e fs d →
      Shows (.instance (mkStruct sname fs) sch o) (.dict d) (.instance x)
  | vector {sname fs ds sch o v} : ds ≠ [] → v.len = .ok ds.length →
      (∀ (i : Nat) d, ds[i]? = some d → ∃ e, v.get (i : Int) = .ok e ∧ ReadsAs e fs d) →
      Shows (.vector (mkStruct sname fs) sch o) (.list ds) (.vector v)
  | multivector {ns W decls value sch o index mem} : value ≠ [] →
      (Multivector.mk index mem (classes decls)).len = .ok value.length →
      (∀ (i : Nat) bucket, value[i]? = some bucket →
        ∃ xs, (Multivector.mk index mem (classes decls)).get (i : Int) = .ok xs ∧ List.Forall₂ (ElemReads decls) xs bucket) →
      Shows (.multivector (indexType ns W) (classes decls) sch o) (.buckets value) (.multivector index (.bytes mem) (classes decls))
  | rawData {b sch o r} : b ≠ [] → r.len = .ok b.length →
      (∀ i j : Nat, i ≤ j → j ≤ b.length →
        r.getSlice ⟨some (i : Int), some (j : Int), none⟩ = .ok ((b.drop i).take (j - i))) →
      Shows (.rawData sch o) (.bytes b) (.rawData r)
  | noElements {t sch o} : Shows (.vector t sch o) (.list []) .absent
  | noBuckets {it ts sch o} : Shows (.multivector it ts sch o) (.buckets []) .absent
  | noBytes {sch o} : Shows (.rawData sch o) (.bytes []) .absent

/-! ## One resource -/

/-- The schema file after a successful `set`. -/
theorem set_schema_file {A : ArchiveType} {path name : String} {sig : Sig} {value : Value} {s s' : BState} (f : Files)
    (hA : A.resources.lookup name = some sig) (h : setResource A path name value s = (.ok (), s')) :
    filesOfState f s' (name ++ ".schema") = some (encodeUtf8 sig.schema) := by
  unfold setResource at h
  rw [hA] at h
  simp only at h
  split at h
  · simp at h
  · obtain ⟨-, hn, p, mid, hp, hm, ho⟩ := setBody_inv h
    unfold filesOfState
    have h1 : ∀ op ∈ [FsOp.openWb name] ++ mid ++ [.write name (frame p)], op.file ≠ name ++ ".schema" := by
      intro op hop
      simp only [List.mem_append, List.mem_singleton] at hop
      rcases hop with (rfl | hop) | rfl
      · exact str_ne_append name ".schema" (by decide)
      · rcases midOps_files hm op hop with e | e <;> rw [e] <;> exact append_ne_append (by decide)
      · exact str_ne_append name ".schema" (by decide)
    rw [ho, List.append_assoc, List.append_assoc, ← List.append_assoc s.ops, ← List.append_assoc [FsOp.openWb name],
      replay_append, replay_untouched _ _ _ h1, replay_append]
    by_cases hs : encodeUtf8 sig.schema = []
    · simp [replay, applyOp, writeOps, hs]
    · simp [replay, applyOp, writeOps, hs]

theorem openLeaf {k : StorageKind} {node : Node} {name : String} {sig : Sig} (hl : Leaf sig)
    (hs : SchemaMatches node name sig.schema) : openResource k node name sig = openContainer k node name sig := by
  rw [openResource_leaf hl, checkSchema_true_iff.mpr hs]
  rfl

theorem fetch_file {k : StorageKind} {node : Node} {key : String} {o : Bool} {b : Bytes} (h : node.entry key = some (.file b))
    (hb : b ≠ []) : fetch k node key o = .ok (.bytes b) :=
  fetch_ok_iff.mpr (.inr (.inl ⟨b, ⟨h, fun _ => hb⟩, rfl⟩))

theorem ne_nil_of_length {b : Bytes} (h : 16 ≤ b.length) : b ≠ [] := by rintro rfl; simp at h

/-- Setting a resource to an acceptable value succeeds, and whatever directory contains the files it leaves (read
directly or from a tar file) shows that value. -/
theorem set_then_open {A : ArchiveType} {path name : String} {sig : Sig} {value : Value} (s : BState) (f : Files)
    (hA : A.resources.lookup name = some sig) (hpath : path ≠ "") (hname : name ≠ "") (hnew : name ∉ s.written)
    (hsch : sig.schema ≠ "") (hv : Acceptable sig value) :
    ∃ s', setResource A path name value s = (.ok (), s') ∧
      ∀ (k : StorageKind) (node : Node), (∀ n ∈ ownedFiles name sig, node.entry n = (replay f s'.ops n).map .file) →
        ∃ x, openResource k node name sig = .ok x ∧ Shows sig value x := by
  cases hv with
  | @«instance» sname fs d sch o hg hd hlen =>
    obtain ⟨s', mem, x, e, hf, hc, hl, ⟨el, h0, -, -, hr, -⟩, -⟩ :=
      C13_instance_roundtrip A path name sname sch o fs d s f hA hpath hname hnew hg hd hlen
    refine ⟨s', e, fun k node hn => ⟨.instance x, ?_, .instance h0 hr⟩⟩
    have hss := set_schema_file f hA e
    have hm : node.entry name = some (.file mem) := by
      rw [hn _ (name_owned _ _)]; unfold filesOfState at hf; rw [hf]; rfl
    rw [openLeaf (by trivial) ⟨hsch, by rw [hn _ (by simp [ownedFiles])]; unfold filesOfState at hss; rw [hss]; rfl⟩]
    have hml := (instance_open_iff.mp hc).1
    simp only [openContainer, fetch_file hm (ne_nil_of_length hml), bind, Except.bind, asBuffer, pure, Except.pure, hc, ifTruthy,
      hl]
    rfl
  | @vector sname fs ds sch o hg hne hd hlen =>
    obtain ⟨s', mem, v, e, hf, hc, hl, hr⟩ :=
      C12_vector_roundtrip A path name sname sch o fs ds s f hA hpath hname hnew hg hne hd hlen
    refine ⟨s', e, fun k node hn => ⟨if ds.length = 0 then .absent else .vector v, ?_, ?_⟩⟩
    · have hss := set_schema_file f hA e
      have hm : node.entry name = some (.file mem) := by
        rw [hn _ (name_owned _ _)]; unfold filesOfState at hf; rw [hf]; rfl
      rw [openLeaf (by trivial) ⟨hsch, by rw [hn _ (by simp [ownedFiles])]; unfold filesOfState at hss; rw [hss]; rfl⟩]
      have hml := (vector_open_iff.mp hc).1
      simp only [openContainer, fetch_file hm (ne_nil_of_length hml), bind, Except.bind, asBuffer, pure, Except.pure, hc]
      exact ifTruthy_ok_iff.mpr ⟨_, hl, rfl⟩
    · cases ds with
      | nil => exact .noElements
      | cons d ds => exact .vector (by simp) hl hr
  | @multivector ns W decls bs sch o hW hW' hd hb hsize hlen =>
    obtain ⟨s', im, mem, mv, e, hf, hfi, hc, hl, hr⟩ :=
      C14_multivector_roundtrip A path name sch o W decls bs s f hA hpath hname hnew hW hW' hd hb hsize hlen
    have hc' := hc
    simp only [Multivector.create] at hc'
    rw [bind_ok_iff] at hc'
    obtain ⟨index, hci, hmv⟩ := hc'
    have hmv : mv = ⟨index, mem, classes decls⟩ := by simpa [pure, Except.pure, eq_comm] using hmv
    subst hmv
    refine ⟨s', e, fun k node hn => ⟨if bs.length = 0 then .absent else .multivector index (.bytes mem) (classes decls), ?_, ?_⟩⟩
    · have hss := set_schema_file f hA e
      have hm : node.entry name = some (.file mem) := by
        rw [hn _ (name_owned _ _)]; unfold filesOfState at hf; rw [hf]; rfl
      have hmi : node.entry (name ++ "_index") = some (.file im) := by
        rw [hn _ (by simp [ownedFiles])]; unfold filesOfState at hfi; rw [hfi]; rfl
      rw [openLeaf (by trivial) ⟨hsch, by rw [hn _ (by simp [ownedFiles])]; unfold filesOfState at hss; rw [hss]; rfl⟩]
      have hml := (vector_open_iff.mp hci).1
      obtain ⟨p, -, hp⟩ := C20_set_framed A path name (.buckets bs) s s' f e
      have hmem : mem = frame p := by rw [hf] at hp; simpa using hp
      have hmem : 16 ≤ mem.length := by rw [hmem, frame_length]; omega
      simp only [openContainer, fetch_file hm (ne_nil_of_length hmem), fetch_file hmi (ne_nil_of_length hml), bind,
        Except.bind, asBuffer, pure, Except.pure, hci]
      exact ifTruthy_ok_iff.mpr ⟨_, hl, rfl⟩
    · cases bs with
      | nil => exact .noBuckets
      | cons d ds => exact .multivector (by simp) hl hr
  | @rawData b sch o hlen =>
    obtain ⟨s', mem, r, e, hf, hc, hl, -, hr, -⟩ := C17_raw_roundtrip A path name sch o b s f hA hpath hname hnew hlen
    refine ⟨s', e, fun k node hn => ⟨if b.length = 0 then .absent else .rawData r, ?_, ?_⟩⟩
    · have hss := set_schema_file f hA e
      have hm : node.entry name = some (.file mem) := by
        rw [hn _ (name_owned _ _)]; unfold filesOfState at hf; rw [hf]; rfl
      rw [openLeaf (by trivial) ⟨hsch, by rw [hn _ (by simp [ownedFiles])]; unfold filesOfState at hss; rw [hss]; rfl⟩]
      have hml := (raw_open_iff.mp hc).1
      simp only [openContainer, fetch_file hm (ne_nil_of_length hml), bind, Except.bind, asBuffer, pure, Except.pure, hc]
      exact ifTruthy_ok_iff.mpr ⟨_, hl, rfl⟩
    · cases b with
      | nil => exact .noBytes
      | cons d ds => exact .rawData (by simp) hl hr

/-! ## The whole archive -/

/-- No earlier `set` of the resource returned (`OverflowError`: see C28). -/
def NotYetSet (A : ArchiveType) (path : String) (before : List Call) (name : String) : Prop :=
  ∀ pre w post, before = pre ++ .set name w :: post →
    ∃ e, e ≠ .overflowError ∧ (setResource A path name w (runCalls A path pre (newBuilder A path))).1 = .error e

/-- What the history did with a resource: it set it to an acceptable value; or it is optional and was never touched;
or it is a sub-archive, which is optional and missing, or was built elsewhere and opens from its directory. -/
inductive Provided (A : ArchiveType) (path : String) (calls : List Call) (k : StorageKind) (node : Node) (name : String) :
    Sig → Prop
  | set {sig before value after} : Leaf sig → calls = before ++ .set name value :: after → NotYetSet A path before name →
      Acceptable sig value → Provided A path calls k node name sig
  | unset {sig} : Leaf sig → sig.isOptional = true → (∀ v, Call.set name v ∉ calls) → Provided A path calls k node name sig
  | subMissing {n asch rs sch} : node.entry name = none → Provided A path calls k node name (.sub n asch rs sch true)
  | sub {n asch rs sch o e loaded} : node.entry name = some (.dir e) →
      openArchive ⟨n, asch, rs⟩ k (.dir e) = .ok loaded → Provided A path calls k node name (.sub n asch rs sch o)

theorem touches_init (A : ArchiveType) (path : String) :
    Touches [A.name ++ ".archive", A.name ++ ".archive.schema"] (builderInit A path) :=
  touches_bind (touches_writeRawData (by simp)) fun _ => touches_bind (touches_writeRawData (by simp)) fun _ =>
    touches_mark (by simp)

/-- The files of a resource that is never set are never touched. -/
theorem untouched_files {A : ArchiveType} {path : String} (hA : NoClash A) {name : String} {sig : Sig}
    (hl : A.resources.lookup name = some sig) (calls : List Call) (hno : ∀ v, Call.set name v ∉ calls)
    {n : String} (hn : n ∈ ownedFiles name sig) (h1 : n ≠ A.name ++ ".archive") (h2 : n ≠ A.name ++ ".archive.schema")
    (f : Files) :
    replay f (runCalls A path calls (newBuilder A path)).ops n = f n ∧
      (runCalls A path calls (newBuilder A path)).store.lookup n = none := by
  induction calls using List.reverseRecOn with
  | nil =>
    obtain ⟨ops, w, ho, hin, -, -, hs⟩ := touches_init A path BState.initial
    simp only [runCalls, newBuilder]
    refine ⟨?_, by rw [hs n (by simp [h1, h2])]; rfl⟩
    rw [ho, replay_append, replay_untouched]
    · rfl
    · intro op hop e
      have := hin op hop
      rw [e] at this; simp [h1, h2] at this
  | append_singleton cs c ih =>
    obtain ⟨ih1, ih2⟩ := ih fun v h => hno v (by simp [h])
    have hg : GoodStore (runCalls A path cs (newBuilder A path)) := good_calls cs (good_new A path)
    rw [runCalls_append]
    generalize runCalls A path cs (newBuilder A path) = s at *
    cases c with
    | finish =>
      obtain ⟨s', e, -, -, k⟩ := finish_run hg
      have hr := finish_replay hg f n
      simp only [runCalls, runCall]
      rw [e] at hr ⊢
      refine ⟨?_, by rw [k, ih2]; rfl⟩
      rw [hr]
      simp only [closeOps, ih2]
      exact ih1
    | set m v =>
      have hne : name ≠ m := by rintro rfl; exact hno v (by simp)
      simp only [runCalls, runCall]
      rcases set_cases A path m v s with ⟨-, e⟩ | ⟨sg, -, -, e⟩ | ⟨sg, hl', -, e⟩
      · rw [e]; exact ⟨ih1, ih2⟩
      · rw [e]; exact ⟨ih1, ih2⟩
      · rw [e]
        have hnm := noClash_names hA hl hl' hne n hn
        obtain ⟨ops, _, ho, hin, -, -, hs⟩ := touches_set_filesOf (path := path) (n := m) (sig := sg) (v := v) s
        refine ⟨?_, by rw [hs n hnm, ih2]⟩
        rw [ho, replay_append, replay_untouched]
        · exact ih1
        · intro op hop he; exact hnm (he ▸ hin op hop)

theorem not_written {A : ArchiveType} {path name : String} {sig : Sig} {before : List Call} (hp : path ≠ "") (hA : NoClash A)
    (hl : A.resources.lookup name = some sig) (hne : name ≠ A.name ++ ".archive") (h : NotYetSet A path before name) :
    name ∉ (runCalls A path before (newBuilder A path)).written := by
  intro hw
  have he : setResource A path name .other (runCalls A path before (newBuilder A path)) =
      (.error .resourceAlreadySet, runCalls A path before (newBuilder A path)) := by
    unfold setResource; rw [hl]; simp [hw]
  rcases C28_rejected_only_if_set A path name .other before hp hA he with h' | ⟨pre, w, post, hb, ho⟩
  · exact hne h'
  · obtain ⟨e, h1, h2⟩ := h pre w post hb
    rcases ho with ho | ho
    · rw [h2] at ho; simp at ho
    · rw [h2] at ho; simp at ho; exact h1 ho

/-- **C32.** Let a builder work through any history in which every required resource is set to an acceptable value
(`Acceptable`), the optional ones are set or left alone, and sub-archives were built in their directories. Then every such
`set` returned, the resulting directory opens with the same archive class, directly or packed into a tar file, and every
resource that was set shows its value; the others are `None` (or the opened sub-archive). -/
theorem C32_build_then_open (name schema path : String) (rs : List (String × Sig)) (calls : List Call)
    (k : StorageKind) (node : Node) (hp : path ≠ "") (hA : NoClash (mkArchive name schema rs))
    (hschema : schema ≠ "") (hschemas : ∀ p ∈ rs, Leaf p.2 → p.2.schema ≠ "") (hnames : ∀ p ∈ rs, p.1 ≠ "")
    (hprov : ∀ p ∈ rs, Provided (mkArchive name schema rs) path calls k node p.1 p.2)
    (hnode : ∀ p ∈ (mkArchive name schema rs).resources, Leaf p.2 → ∀ n ∈ ownedFiles p.1 p.2,
      node.entry n = (replay noFiles
        (runCalls (mkArchive name schema rs) path calls (newBuilder (mkArchive name schema rs) path)).ops n).map .file) :
    ∃ loaded, openArchive (mkArchive name schema rs) k node = .ok loaded ∧
      (∀ p ∈ rs, Leaf p.2 → ∀ before value after, calls = before ++ .set p.1 value :: after →
        NotYetSet (mkArchive name schema rs) path before p.1 → Acceptable p.2 value →
        (setResource (mkArchive name schema rs) path p.1 value
          (runCalls (mkArchive name schema rs) path before (newBuilder (mkArchive name schema rs) path))).1 = .ok () ∧
        ∃ x, loaded.lookup p.1 = some x ∧ Shows p.2 value x) ∧
      (∀ p ∈ rs, Leaf p.2 → (∀ v, Call.set p.1 v ∉ calls) → loaded.lookup p.1 = some .absent) ∧
      (∀ sname n asch rs' sch o e l, (sname, Sig.sub n asch rs' sch o) ∈ rs → rs' ≠ [] →
        node.entry sname = some (.dir e) → openArchive ⟨n, asch, rs'⟩ k (.dir e) = .ok l →
        loaded.lookup sname = some (.archive n l)) := by
  set A := mkArchive name schema rs with hAdef
  have hsigmem : (name ++ ".archive", Sig.rawData schema false) ∈ A.resources := by simp [hAdef, mkArchive]
  have hnd := hA.1
  have hmem : ∀ p ∈ rs, p ∈ A.resources := fun p h => by simp [hAdef, mkArchive, h]
  have hlook : ∀ p ∈ A.resources, A.resources.lookup p.1 = some p.2 := fun p h => lookup_of_mem hnd h
  have hneq : ∀ p ∈ rs, p.1 ≠ A.name ++ ".archive" := by
    intro p h e
    simp only [hAdef, mkArchive, List.map_cons, List.nodup_cons] at hnd e
    exact hnd.1 (e ▸ List.mem_map_of_mem h)
  have hsig : ∀ p ∈ rs, ∀ n ∈ ownedFiles p.1 p.2, n ≠ A.name ++ ".archive" ∧ n ≠ A.name ++ ".archive.schema" := by
    intro p h n hn
    have := hA.2 p (hmem p h) _ hsigmem (hneq p h) n hn
    simp only [ownedFiles, List.mem_cons, List.not_mem_nil, or_false, not_or] at this
    refine ⟨this.1, fun e => this.2 ?_⟩
    rw [e]; simp only [hAdef, mkArchive, String.append_assoc]; rfl
  -- a set resource
  have hset : ∀ p ∈ rs, Leaf p.2 → ∀ before value after, calls = before ++ .set p.1 value :: after →
        NotYetSet A path before p.1 → Acceptable p.2 value →
        (setResource A path p.1 value (runCalls A path before (newBuilder A path))).1 = .ok () ∧
        ∃ x, openResource k node p.1 p.2 = .ok x ∧ Shows p.2 value x := by
    intro p h hleaf before value after hc hny hacc
    obtain ⟨s', e, ho⟩ := set_then_open (runCalls A path before (newBuilder A path)) noFiles (hlook p (hmem p h)) hp
      (hnames p h) (not_written hp hA (hlook p (hmem p h)) (hneq p h) hny) (hschemas p h hleaf) hacc
    refine ⟨by rw [e], ho k node fun n hn => ?_⟩
    rw [hnode p (hmem p h) hleaf n hn, hc,
      C34_completed_resources_stay A path p.1 p.2 value before after noFiles hA (hlook p (hmem p h))
        (by simp only [runCall]; rw [e]) n hn, runCalls_append]
    simp only [runCalls, runCall, e]
  have hunset : ∀ p ∈ rs, Leaf p.2 → (∀ v, Call.set p.1 v ∉ calls) → node.entry (p.1 ++ ".schema") = none := by
    intro p h hleaf hno
    have ho : p.1 ++ ".schema" ∈ ownedFiles p.1 p.2 := by cases p.2 <;> simp [ownedFiles]
    obtain ⟨h1, h2⟩ := hsig p h _ ho
    rw [hnode p (hmem p h) hleaf _ ho, (untouched_files hA (hlook p (hmem p h)) calls hno ho h1 h2 noFiles).1]
    rfl
  have hopen : ∀ p ∈ A.resources, ResOk k node p.1 p.2 := by
    intro p h
    have h' : p = (name ++ ".archive", Sig.rawData schema false) ∨ p ∈ rs := by
      simpa [hAdef, mkArchive] using h
    rcases h' with rfl | h'
    · have hstay := fun n (hn : n ∈ ownedFiles (name ++ ".archive") (Sig.rawData schema false)) =>
        (closed_calls (path := path) hA calls (hlook _ hsigmem)
          (by rw [(newBuilder_ok hp).2]; simp [hAdef, mkArchive] : name ++ ".archive" ∈ (newBuilder A path).written)
          (good_new A path) hn (closed_new hp n)).2 noFiles
      obtain ⟨s', e, f1, f2⟩ := C20_signature A path hp noFiles
      have hs' : newBuilder A path = s' := by unfold newBuilder; rw [e]
      unfold filesOfState at f1 f2
      rw [← hs'] at f1 f2
      refine .present trivial ⟨hschema, ?_⟩ ⟨frame [], ⟨?_, by simp [frame]⟩, by rw [frame_length]; omega, by decide +kernel⟩
      · rw [hnode _ hsigmem trivial _ (by simp [ownedFiles]), hstay _ (by simp [ownedFiles])]
        have : name ++ ".archive" ++ ".schema" = A.name ++ ".archive.schema" := by
          simp only [hAdef, mkArchive, String.append_assoc]; rfl
        rw [this, f2]; rfl
      · rw [hnode _ hsigmem trivial _ (by simp [ownedFiles]), hstay _ (by simp [ownedFiles])]
        rw [show name ++ ".archive" = A.name ++ ".archive" from rfl, f1]; rfl
    · obtain ⟨pn, psig⟩ := p
      cases hprov _ h' with
      | set hleaf hc hny hacc =>
        obtain ⟨-, x, hx, -⟩ := hset _ h' hleaf _ _ _ hc hny hacc
        exact resOk_of_openResource _ hx
      | unset hleaf ho hno => exact .absent hleaf ho (.inl (hunset _ h' hleaf hno))
      | subMissing hm => exact .subAbsent hm
      | sub he hl => exact .sub he ((C22_opens_iff _ k _).mp ⟨_, hl⟩)
  obtain ⟨loaded, hload⟩ := (C22_opens_iff A k node).mpr hopen
  refine ⟨loaded, hload, ?_, ?_, ?_⟩
  · intro p h hleaf before value after hc hny hacc
    obtain ⟨h1, x, hx, hs⟩ := hset p h hleaf before value after hc hny hacc
    obtain ⟨y, hy, hlk⟩ := loadAll_sorted_lookup hload hnd (hmem p h)
    rw [hx] at hy; cases hy
    exact ⟨h1, x, hlk, hs⟩
  · intro p h hleaf hno
    rw [C26_none_iff A hnd k node loaded hload p.1 p.2 (hmem p h)]
    have hab := hunset p h hleaf hno
    obtain ⟨pn, psig⟩ := p
    cases hprov _ h with
    | @set _ before value after _ hc => exact absurd (by rw [hc]; simp) (hno value)
    | unset _ ho _ =>
      cases psig with
      | sub => exact absurd hleaf (by simp [Leaf])
      | «instance» => exact ⟨ho, .inl hab⟩
      | vector => exact .inl ⟨ho, .inl hab⟩
      | multivector => exact .inl ⟨ho, .inl hab⟩
      | rawData => exact .inl ⟨ho, .inl hab⟩
    | subMissing => exact absurd hleaf (by simp [Leaf])
    | sub => exact absurd hleaf (by simp [Leaf])
  · intro sname n asch rs' sch o e l hm hne he hl
    obtain ⟨y, hy, hlk⟩ := loadAll_sorted_lookup hload hnd (hmem _ hm)
    rw [hlk]
    simp only [openResource] at hy
    rw [fetch_ok_iff.mpr (.inr (.inr ⟨e, he, rfl⟩))] at hy
    change (loadAll _ >>= _) = _ at hy
    unfold openArchive at hl
    rw [hl] at hy
    obtain ⟨l', hl', hy⟩ := bind_ok_iff.mp hy
    cases hl'
    obtain ⟨m, hm, rfl⟩ := ifTruthy_ok_iff.mp hy
    have : m = rs'.length := by simpa [pure, Except.pure, eq_comm] using hm
    rw [this, if_neg (by simpa using hne)]

/-! ## Non-vacuity -/

/-- A history on `shop`, in another order than the declaration; `info` is left out. -/
def shopHistory : List Call :=
  [.set "text" (.bytes [1, 2, 3]), .set "tags" (.buckets [[⟨"Tag", [("t", 5)]⟩], []]),
   .set "items" (.list [[("id", 7), ("price", 100)]]), .finish]

theorem notYetSet_of_no_set {A : ArchiveType} {path : String} {before : List Call} {name : String}
    (h : ∀ w, Call.set name w ∉ before) : NotYetSet A path before name :=
  fun pre w post e => absurd (by rw [e]; simp) (h w)

theorem shop_items : Acceptable (.vector (mkStruct "Item" [⟨"id", 20, false⟩, ⟨"price", 12, false⟩]) "items" false)
    (.list [[("id", 7), ("price", 100)]]) := by
  refine .vector ⟨?_, by decide⟩ (by simp) ?_ (by decide)
  · intro f hf
    simp only [List.mem_cons, List.not_mem_nil, or_false] at hf
    rcases hf with rfl | rfl <;> decide
  · intro d hd
    simp only [List.mem_cons, List.not_mem_nil, or_false] at hd
    subst hd
    refine ⟨?_, by decide⟩
    intro f hf
    simp only [List.mem_cons, List.not_mem_nil, or_false] at hf
    rcases hf with rfl | rfl
    · exact ⟨7, by decide⟩
    · exact ⟨100, by decide⟩

theorem shop_provided : ∀ p ∈ shopResources,
    Provided shop "dir" shopHistory .files
      (Node.ofFiles (replay noFiles (runCalls shop "dir" shopHistory (newBuilder shop "dir")).ops)) p.1 p.2 := by
  intro p hp
  simp only [shopResources, List.mem_cons, List.not_mem_nil, or_false] at hp
  rcases hp with rfl | rfl | rfl | rfl
  · exact .set (before := shopHistory.take 2) (after := [.finish]) trivial rfl
      (notYetSet_of_no_set (by simp [shopHistory])) shop_items
  · have hgood : GoodDecls [("Tag", [⟨"t", 7, false⟩])] := by
      refine ⟨by decide, by decide, ?_⟩
      intro p hp
      simp only [List.mem_cons, List.not_mem_nil, or_false] at hp
      subst hp
      refine ⟨?_, by decide⟩
      intro f hf
      simp only [List.mem_cons, List.not_mem_nil, or_false] at hf
      subst hf; decide
    have hfit : BucketsFit [("Tag", [⟨"t", 7, false⟩])] [[⟨"Tag", [("t", 5)]⟩], []] := by
      intro b hb o ho
      simp only [List.mem_cons, List.not_mem_nil, or_false] at hb
      rcases hb with rfl | rfl
      · simp only [List.mem_cons, List.not_mem_nil, or_false] at ho
        subst ho
        refine ⟨_, by simp; rfl, ?_, by decide⟩
        intro f hf
        simp only [List.mem_cons, List.not_mem_nil, or_false] at hf
        subst hf
        exact ⟨5, by decide⟩
      · simp at ho
    exact .set (before := shopHistory.take 1) (after := shopHistory.drop 2) trivial rfl
      (notYetSet_of_no_set (by simp [shopHistory]))
      (.multivector (decls := [("Tag", [⟨"t", 7, false⟩])]) (by decide) (by decide) hgood hfit (by decide) (by decide))
  · exact .unset trivial rfl (by intro v; simp [shopHistory])
  · exact .set (before := []) (after := shopHistory.drop 1) trivial rfl (notYetSet_of_no_set (by simp)) (.rawData (by decide))

theorem entry_ofFiles (f : Files) (n : String) : (Node.ofFiles f).entry n = (f n).map .file := rfl

theorem shop_schemas : ∀ p ∈ shopResources, Leaf p.2 → p.2.schema ≠ "" := by
  intro p hp _
  simp only [shopResources, List.mem_cons, List.not_mem_nil, or_false] at hp
  rcases hp with rfl | rfl | rfl | rfl <;> decide

theorem shop_names : ∀ p ∈ shopResources, p.1 ≠ "" := by
  intro p hp
  simp only [shopResources, List.mem_cons, List.not_mem_nil, or_false] at hp
  rcases hp with rfl | rfl | rfl | rfl <;> decide

/-- The hypotheses of `C32_build_then_open` are met by `shopHistory`. -/
example : ∃ loaded, openArchive shop .files
    (Node.ofFiles (replay noFiles (runCalls shop "dir" shopHistory (newBuilder shop "dir")).ops)) = .ok loaded ∧
    loaded.lookup "info" = some .absent ∧
    ∃ x, loaded.lookup "items" = some x ∧
      Shows (.vector (mkStruct "Item" [⟨"id", 20, false⟩, ⟨"price", 12, false⟩]) "items" false)
        (.list [[("id", 7), ("price", 100)]]) x := by
  obtain ⟨loaded, h1, h2, h3, -⟩ := C32_build_then_open "Shop" "archive Shop" "dir" shopResources shopHistory .files
    (Node.ofFiles (replay noFiles (runCalls shop "dir" shopHistory (newBuilder shop "dir")).ops)) (by decide) shop_noClash
    (by decide) shop_schemas shop_names shop_provided (fun p _ _ n _ => entry_ofFiles _ n)
  have hi : ("info", Sig.instance (mkStruct "Info" [⟨"v", 33, true⟩]) "info" true) ∈ shopResources := by simp [shopResources]
  have hv : ("items", Sig.vector (mkStruct "Item" [⟨"id", 20, false⟩, ⟨"price", 12, false⟩]) "items" false) ∈ shopResources := by
    simp [shopResources]
  have g3 := h3 _ hi trivial (by intro v; simp [shopHistory])
  have g2 := h2 _ hv trivial (shopHistory.take 2) _ [.finish] rfl (notYetSet_of_no_set (by simp [shopHistory])) shop_items
  exact ⟨loaded, h1, g3, g2.2⟩

end Props
