import Verif.Lemmas.Payload
import Verif.Props.Vector

/-!
# C12, C13, C20: what the builder writes for instances and vectors, and reading it back

`replay f s.ops` are the files of the archive directory after the builder's history, starting from the
files `f` that were there before.
-/

namespace Props
open Py Spec Model

/-! ## Vocabulary -/

/-- A dictionary the builder accepts for a structure with fields `fs`: exactly the declared fields, with any integers. -/
def DictFits (fs : List FieldDecl) (d : Dict) : Prop :=
  (∀ f ∈ fs, ∃ v, d.lookup f.name = some v) ∧ ∀ p ∈ d, p.1 ∈ fs.map (·.name)

/-- A structure declaration covered by the round-trip theorems: fields of at least one bit (and at most 64) with distinct names. -/
structure GoodStruct (fs : List FieldDecl) : Prop where
  widths : GoodWidths fs
  names : (fs.map (·.name)).Nodup

/-- Every field of the structure object shows what was stored for it (`Spec.shownValue`), which is the value itself if it is in
the range of the field and neither of two defects applies: -1 in a signed 1-bit field, and an unaligned unsigned 64-bit field
with a set bit behind it in its last byte. -/
def ReadsAs (x : StructView) (fs : List FieldDecl) (d : Dict) : Prop :=
  ∀ (i : Nat) f, fs[i]? = some f → ∃ v, d.lookup f.name = some v ∧
    x.getAttr f.name = .ok (shownValue (bitOffset fs i) f (fs.drop (i + 1)) d v) ∧
    (InRange f.width f.isSigned v → (shownValue (bitOffset fs i) f (fs.drop (i + 1)) d v = v ↔
      ¬ (f.isSigned = true ∧ f.width = 1 ∧ v = -1) ∧
      ¬ (f.isSigned = false ∧ f.width = 64 ∧ bitOffset fs i % 8 ≠ 0 ∧ image d (fs.drop (i + 1)) % 2 ^ (8 - bitOffset fs i % 8) ≠ 0)))

/-- In a structure without signed 1-bit fields and without unsigned 64-bit fields at unaligned offsets, values in the ranges of the
fields are shown unchanged. -/
theorem readsAs_values {x : StructView} {fs : List FieldDecl} {d : Dict} (h : ReadsAs x fs d)
    (hd : ∀ (i : Nat) f, fs[i]? = some f → ¬ (f.isSigned = true ∧ f.width = 1) ∧ ¬ (f.isSigned = false ∧ f.width = 64 ∧ bitOffset fs i % 8 ≠ 0))
    (hr : ∀ f ∈ fs, ∀ v, d.lookup f.name = some v → InRange f.width f.isSigned v) :
    ∀ f ∈ fs, ∃ v, d.lookup f.name = some v ∧ x.getAttr f.name = .ok v := by
  intro f hf
  obtain ⟨i, hi⟩ := List.getElem?_of_mem hf
  obtain ⟨v, hv, e, hiff⟩ := h i f hi
  have := (hiff (hr f hf v hv)).mpr ⟨fun h => (hd i f hi).1 ⟨h.1, h.2.1⟩, fun h => (hd i f hi).2 ⟨h.1, h.2.1, h.2.2.1⟩⟩
  rw [this] at e
  exact ⟨v, hv, e⟩

/-- The files of the directory after the builder's history. -/
def filesOfState (f : Files) (s : BState) : Files := replay f s.ops

theorem validate_of_fits {name rname : String} {fs : List FieldDecl} {d : Dict} (h : DictFits fs d) :
    validateStructureFields rname d (mkStruct name fs) = .ok () := by
  rw [validate_ok]
  refine ⟨fun k hk => ?_, h.2⟩
  obtain ⟨f, hf, rfl⟩ := List.mem_map.mp (show k ∈ fs.map (·.name) from hk)
  obtain ⟨v, hv⟩ := h.1 f hf
  simp [hv]

theorem set_run {A : ArchiveType} {path name : String} {sig : Sig} {value : Value} {s : BState}
    (hA : A.resources.lookup name = some sig) (hw : name ∉ s.written) :
    setResource A path name value s = setBody path name sig value s := by
  unfold setResource; rw [hA]; simp only [hw, if_false]

theorem writeOps_file {n : String} {d : Bytes} {op : FsOp} (h : op ∈ writeOps n d) : op.file = n := by
  unfold writeOps at h
  split at h
  · simp at h
  · simp at h; subst h; rfl

/-- The two files of a simple resource after its operations. -/
theorem simple_files (f : Files) (pre : List FsOp) (name : String) (sch p : Bytes) :
    let f' := replay f (pre ++ ((.openWb (name ++ ".schema") :: writeOps (name ++ ".schema") sch) ++
        [.openWb name] ++ [] ++ [.write name (frame p)]))
    f' name = some (frame p) ∧ f' (name ++ ".schema") = some sch ∧
    ∀ n, n ≠ name → n ≠ name ++ ".schema" → f' n = replay f pre n := by
  have hne : name ≠ name ++ ".schema" := str_ne_append name ".schema" (by decide)
  intro f'
  have hf' : f' = replay (replay f pre) ((.openWb (name ++ ".schema") :: writeOps (name ++ ".schema") sch) ++
        [.openWb name] ++ [] ++ [.write name (frame p)]) := by rw [← replay_append]
  refine ⟨?_, ?_, ?_⟩
  · rw [hf', List.append_nil, List.append_assoc, replay_append]
    simp [replay, applyOp]
  · rw [hf', List.append_nil, List.append_assoc, replay_append,
      replay_untouched _ _ (name ++ ".schema")]
    · by_cases hs : sch = []
      · simp [replay, applyOp, writeOps, hs]
      · simp [replay, applyOp, writeOps, hs]
    · intro op hop; simp at hop; rcases hop with rfl | rfl <;> exact hne
  · intro n h1 h2
    rw [hf', replay_untouched]
    intro op hop
    simp only [List.append_nil, List.mem_append, List.mem_cons, List.not_mem_nil, or_false] at hop
    rcases hop with ((rfl | h) | rfl) | rfl
    · exact fun e => h2 e.symm
    · rw [writeOps_file h]; exact fun e => h2 e.symm
    · exact fun e => h1 e.symm
    · exact fun e => h1 e.symm

theorem serialize_all {name : String} {fs : List FieldDecl} (hg : GoodStruct fs) (ds : List Dict)
    (hd : ∀ d ∈ ds, DictFits fs d) :
    ∃ bufs, ds.mapM (serialize (mkStruct name fs)) = .ok bufs ∧
      (∀ b ∈ bufs, b.length = (mkStruct name fs).sizeInBytes) ∧ bufs.length = ds.length ∧
      ∀ (i : Nat) d, ds[i]? = some d → ∃ b, bufs[i]? = some b ∧
        ∀ (mem : Bytes) (pos : Nat), (mem.drop pos).take b.length = b → pos + b.length ≤ mem.length →
          ReadsAs ⟨mkStruct name fs, mem, pos⟩ fs d := by
  induction ds with
  | nil => exact ⟨[], rfl, by simp, rfl, by simp⟩
  | cons d ds ih =>
    obtain ⟨bufs, h1, h2, h3, h4⟩ := ih fun e he => hd e (by simp [he])
    obtain ⟨b, e, hl, -, hr⟩ := C06_struct_roundtrip name fs d hg.widths hg.names (hd d (by simp)).1
    refine ⟨b :: bufs, ?_, ?_, by simp [h3], ?_⟩
    · rw [List.mapM_cons, e, h1]; rfl
    · intro c hc; rcases List.mem_cons.mp hc with rfl | hc
      · exact hl
      · exact h2 c hc
    · intro i d' hi
      cases i with
      | zero => simp at hi; subst hi; exact ⟨b, by simp, hr⟩
      | succ i => simp at hi; simpa using h4 i d' hi

/-! ## C12 -/

/-- **C12.** Whatever happened before: if `name` is declared as a vector of structure `sname`/`fs` and has
not been set yet, then setting it to a list of fitting dictionaries succeeds, and opening the written file
gives a vector of the same length whose `i`-th element reads back dictionary `i` (`ReadsAs`). (The payload must be shorter than `2^63` bytes, the largest length Python can
represent.) -/
theorem C12_vector_roundtrip (A : ArchiveType) (path name sname schema : String) (opt : Bool)
    (fs : List FieldDecl) (ds : List Dict) (s : BState) (f : Files)
    (hA : A.resources.lookup name = some (.vector (mkStruct sname fs) schema opt))
    (hpath : path ≠ "") (hname : name ≠ "") (hnew : name ∉ s.written)
    (hg : GoodStruct fs) (hfs : fs ≠ []) (hd : ∀ d ∈ ds, DictFits fs d)
    (hlen : (mkStruct sname fs).sizeInBytes * ds.length < 2 ^ 63) :
    ∃ s' mem v, setResource A path name (.list ds) s = (.ok (), s') ∧
      filesOfState f s' name = some mem ∧
      FdVector.create mem (mkStruct sname fs) = .ok v ∧
      v.len = .ok ds.length ∧
      ∀ (i : Nat) d, ds[i]? = some d → ∃ x, v.get (i : Int) = .ok x ∧ ReadsAs x fs d := by
  obtain ⟨bufs, hm, hbl, hbn, hread⟩ := serialize_all (name := sname) hg ds hd
  have hflat : bufs.flatten.length = (mkStruct sname fs).sizeInBytes * ds.length := by
    rw [flatten_length_const bufs hbl, hbn]
  have hsz : 0 < (mkStruct sname fs).sizeInBytes := by
    cases fs with
    | nil => exact absurd rfl hfs
    | cons g gs =>
      have := hg.widths g (by simp)
      show 0 < (sizeInBitsFrom 0 (g :: gs) + 7) / 8
      rw [sizeInBitsFrom_eq]; simp; omega
  have hpay : ∀ s : BState, s.store.lookup name = some ⟨[], true⟩ →
      ∃ s', setPayload path name (.vector (mkStruct sname fs) schema opt) (.list ds) s = (.ok (), s') ∧
        s'.ops = s.ops ++ [] ∧ s'.written = s.written ++ [] ∧
        s'.store.lookup name = some ⟨bufs.flatten, true⟩ := by
    intro s hs
    obtain ⟨s', e, hw⟩ := writeElements_ok ds bufs hm s hs
    refine ⟨s', ?_, by simp [hw.ops], by simp [hw.written], by simpa using hw.own _ hs⟩
    show (forEach ds (fun v => BM.lift (validateStructureFields name v (mkStruct sname fs))) >>= fun _ =>
      forEach ds fun v => writeElement name (mkStruct sname fs) v) s = _
    rw [BM.bind_ok (forEach_lift_ok (fun d hd' => validate_of_fits (hd d hd')) s), e]
  have hlt : bufs.flatten.length < 2 ^ 64 := by
    rw [hflat]; exact lt_of_lt_of_le hlen (Nat.pow_le_pow_right (by omega) (by omega))
  obtain ⟨s', e, ho, -, -⟩ := setBody_ok hpath hname hlt hpay s
  obtain ⟨hf1, -, -⟩ := simple_files f s.ops name (encodeUtf8 schema) bufs.flatten
  refine ⟨s', frame bufs.flatten, ⟨frame bufs.flatten, mkStruct sname fs, ds.length⟩, ?_, ?_, ?_, ?_, ?_⟩
  · rw [set_run hA hnew, e]
  · unfold filesOfState; rw [ho]; exact hf1
  · rw [C08_vector_open _ _ hsz, frame_length, frame_header _ hlt, hflat]
    rw [if_neg (by omega), if_neg (by simp), Nat.mul_div_cancel_left _ hsz]
  · apply vector_len_ok
    show ds.length < 2 ^ 63
    exact lt_of_le_of_lt (Nat.le_mul_of_pos_left _ hsz) hlen
  · intro i d hi
    have hil : i < ds.length := (List.getElem?_eq_some_iff.mp hi).1
    obtain ⟨b, hb, hr⟩ := hread i d hi
    have hblen := hbl b (List.mem_of_getElem? hb)
    have hin : (mkStruct sname fs).sizeInBytes * i + (mkStruct sname fs).sizeInBytes ≤
        (mkStruct sname fs).sizeInBytes * ds.length := by
      rw [← Nat.mul_succ]; exact Nat.mul_le_mul_left _ hil
    refine ⟨_, by rw [vector_get_nonneg, if_pos hil], ?_⟩
    apply hr
    · show ((frame bufs.flatten).drop (8 + (mkStruct sname fs).sizeInBytes * i)).take b.length = b
      rw [hblen, frame_drop _ _ _ (by rw [hflat]; exact hin)]
      exact flatten_slice bufs hbl i b hb
    · show 8 + (mkStruct sname fs).sizeInBytes * i + b.length ≤ (frame bufs.flatten).length
      rw [frame_length, hblen, hflat]; omega

/-! ## C13 -/

/-- **C13.** The same for a single structure: the instance has length 1, indices 0 and -1 and iteration
give the structure holding the dictionary, every other index raises `IndexError`, and attribute access on
the instance itself reads the fields. -/
theorem C13_instance_roundtrip (A : ArchiveType) (path name sname schema : String) (opt : Bool)
    (fs : List FieldDecl) (d : Dict) (s : BState) (f : Files)
    (hA : A.resources.lookup name = some (.instance (mkStruct sname fs) schema opt))
    (hpath : path ≠ "") (hname : name ≠ "") (hnew : name ∉ s.written)
    (hg : GoodStruct fs) (hd : DictFits fs d)
    (hlen : (mkStruct sname fs).sizeInBytes < 2 ^ 64) :
    ∃ s' mem x, setResource A path name (.dict d) s = (.ok (), s') ∧
      filesOfState f s' name = some mem ∧
      Instance.create mem (mkStruct sname fs) = .ok x ∧ x.len = 1 ∧
      (∃ e, x.get 0 = .ok e ∧ x.get (-1) = .ok e ∧ x.toList = [e] ∧ ReadsAs e fs d ∧ ∀ n, x.getAttr n = e.getAttr n) ∧
      (∀ i : Int, i ≠ 0 → i ≠ -1 → x.get i = .error .indexError) := by
  obtain ⟨b, e, hl, -, hr⟩ := C06_struct_roundtrip sname fs d hg.widths hg.names hd.1
  have hpay : ∀ s : BState, s.store.lookup name = some ⟨[], true⟩ →
      ∃ s', setPayload path name (.instance (mkStruct sname fs) schema opt) (.dict d) s = (.ok (), s') ∧
        s'.ops = s.ops ++ [] ∧ s'.written = s.written ++ [] ∧ s'.store.lookup name = some ⟨b, true⟩ := by
    intro s hs
    obtain ⟨s', e', hw⟩ := resWrite_ok (b := b) hs
    refine ⟨s', ?_, by simp [hw.ops], by simp [hw.written], by simpa using hw.own _ hs⟩
    show (BM.lift (validateStructureFields name d (mkStruct sname fs)) >>= fun _ =>
      BM.lift (serialize (mkStruct sname fs) d) >>= fun bout => resWrite name bout) s = _
    rw [BM.bind_ok (lift_ok (validate_of_fits hd) s), BM.bind_ok (lift_ok e s), e']
  obtain ⟨s', e1, ho, -, -⟩ := setBody_ok hpath hname (by rw [hl]; exact hlen) hpay s
  obtain ⟨hf1, -, -⟩ := simple_files f s.ops name (encodeUtf8 schema) b
  have hreads : ReadsAs ⟨mkStruct sname fs, frame b, 8⟩ fs d := by
    apply hr
    · have h8 := frame_drop b 0 b.length (by omega)
      simp only [Nat.add_zero, List.drop_zero] at h8
      rw [h8]; simp
    · rw [frame_length]; omega
  refine ⟨s', frame b, ⟨frame b, mkStruct sname fs⟩, ?_, ?_, ?_, rfl, ⟨_, rfl, rfl, rfl, hreads, fun _ => rfl⟩, ?_⟩
  · rw [set_run hA hnew, e1]
  · unfold filesOfState; rw [ho]; exact hf1
  · have : checkResource (frame b) = .ok () := checkResource_ok (by rw [frame_length]; omega)
    simp only [Instance.create, this, bind, Except.bind]; rfl
  · intro i h0 h1
    simp only [Instance.get]
    by_cases hi : i < 0
    · rw [if_pos hi, if_pos (by omega)]; rfl
    · rw [if_neg hi, if_pos (by omega)]; rfl

/-! ## Non-vacuity -/

example : GoodStruct [⟨"a", 3, false⟩, ⟨"b", 17, true⟩, ⟨"c", 64, false⟩] ∧
    DictFits [⟨"a", 3, false⟩, ⟨"b", 17, true⟩, ⟨"c", 64, false⟩] [("b", -5), ("c", 2 ^ 63), ("a", 9)] := by
  refine ⟨⟨?_, by decide⟩, ?_, by decide⟩
  · intro f hf
    simp only [List.mem_cons, List.not_mem_nil, or_false] at hf
    rcases hf with rfl | rfl | rfl <;> decide
  · intro f hf
    simp only [List.mem_cons, List.not_mem_nil, or_false] at hf
    rcases hf with rfl | rfl | rfl
    · exact ⟨9, by decide⟩
    · exact ⟨-5, by decide⟩
    · exact ⟨2 ^ 63, by decide⟩

/-- A concrete run: builder construction, setting a vector, and the resulting file. -/
example : (filesOfState (fun _ => none)
    ((do builderInit (mkArchive "A" "schema A" [("v", .vector (mkStruct "S" [⟨"x", 12, false⟩]) "v schema" false)]) "dir"
         setResource (mkArchive "A" "schema A" [("v", .vector (mkStruct "S" [⟨"x", 12, false⟩]) "v schema" false)]) "dir" "v"
           (.list [[("x", 1)], [("x", 4095)]]) : BM Unit) BState.initial).2 "v") =
    some ([4, 0, 0, 0, 0, 0, 0, 0] ++ [1, 0, 255, 15] ++ [0, 0, 0, 0, 0, 0, 0, 0]) := by decide +kernel

end Props
