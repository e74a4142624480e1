import Verif.Lemmas.Shape
import Verif.Lemmas.Raw
import Verif.Props.RoundTrip

/-!
# C20, C21: the binary frame of written files, and truncated or foreign files
-/

namespace Props
open Py Spec Model

/-! ## C20 -/

theorem append_ne_append {n a b : String} (h : a ≠ b) : n ++ a ≠ n ++ b :=
  fun e => h ((String.append_right_inj n).mp e)

theorem writeOps_mem {n : String} {d : Bytes} {op : FsOp} (h : op ∈ writeOps n d) : op.file = n := by
  unfold writeOps at h
  split at h
  · simp at h
  · simp at h; subst h; rfl

/-- The file an operation sequence leaves when it opens `n`, does something else, and then writes `d`. -/
theorem replay_open_write (f : Files) (pre mid post : List FsOp) (n : String) (d : Bytes)
    (hmid : ∀ op ∈ mid, op.file ≠ n) (hpost : ∀ op ∈ post, op.file ≠ n) :
    replay f (pre ++ [.openWb n] ++ mid ++ [.write n d] ++ post) n = some d := by
  rw [replay_append, replay_untouched _ post n hpost, replay_append]
  have : replay f (pre ++ [.openWb n] ++ mid) n = some [] := by
    rw [replay_append, replay_untouched _ mid n hmid, replay_append]
    simp [replay, applyOp]
  simp [replay, applyOp] at this ⊢
  simp [this]

theorem midOps_files {name : String} {sig : Sig} {mid : List FsOp} (h : MidOps name sig mid) :
    ∀ op ∈ mid, op.file = name ++ "_index" ∨ op.file = name ++ "_index.schema" := by
  unfold MidOps at h
  split at h
  · obtain ⟨ip, -, rfl⟩ := h
    intro op hop
    simp only [List.cons_append, List.nil_append, List.mem_cons] at hop
    rcases hop with rfl | rfl | rfl | hop
    · exact .inl rfl
    · exact .inl rfl
    · exact .inr rfl
    · exact .inr (writeOps_mem hop)
  · subst h; simp

/-- **C20.** Whatever the kind of the resource, the value and the past: if `set` succeeds, the file of the
resource is a size header, a payload of that size, and eight zero bytes. -/
theorem C20_set_framed (A : ArchiveType) (path name : String) (value : Value) (s s' : BState) (f : Files)
    (h : setResource A path name value s = (.ok (), s')) :
    ∃ p, p.length < 2 ^ 64 ∧ filesOfState f s' name = some (frame p) := by
  unfold setResource at h
  split at h
  · simp at h
  · split at h
    · simp at h
    · rename_i sig _ _
      obtain ⟨-, hn, p, mid, hp, hm, ho⟩ := setBody_inv h
      refine ⟨p, hp, ?_⟩
      unfold filesOfState
      rw [ho]
      have := replay_open_write f (s.ops ++ (.openWb (name ++ ".schema") :: writeOps (name ++ ".schema") (encodeUtf8 sig.schema)))
        mid [] name (frame p) (fun op hop => by
          rcases midOps_files hm op hop with e | e <;> rw [e] <;>
            exact (str_ne_append name _ (by decide)).symm) (by simp)
      simpa using this

/-- **C20, index files.** The same for the index file of a multivector. -/
theorem C20_index_framed (A : ArchiveType) (path name : String) (value : Value) (s s' : BState) (f : Files)
    (it : StructType) (ts : List StructType) (sch : String) (opt : Bool)
    (hA : A.resources.lookup name = some (.multivector it ts sch opt))
    (h : setResource A path name value s = (.ok (), s')) :
    ∃ p, p.length < 2 ^ 64 ∧ filesOfState f s' (name ++ "_index") = some (frame p) := by
  unfold setResource at h
  rw [hA] at h
  simp only at h
  split at h
  · simp at h
  · obtain ⟨-, hn, p, mid, hp, ⟨ip, hip, rfl⟩, ho⟩ := setBody_inv h
    refine ⟨ip, hip, ?_⟩
    unfold filesOfState
    rw [ho]
    have := replay_open_write f (s.ops ++ (.openWb (name ++ ".schema") :: writeOps (name ++ ".schema") (encodeUtf8 sch))
        ++ [.openWb name])
      [] ((.openWb (name ++ "_index.schema") ::
          writeOps (name ++ "_index.schema") (encodeUtf8 ("index(" ++ sch ++ ")"))) ++ [.write name (frame p)])
      (name ++ "_index") (frame ip) (by simp) (fun op hop => by
        simp only [List.cons_append, List.mem_cons, List.mem_append, List.not_mem_nil, or_false] at hop
        rcases hop with rfl | hop | rfl
        · exact append_ne_append (by decide)
        · rw [writeOps_mem hop]; exact append_ne_append (by decide)
        · exact str_ne_append name _ (by decide))
    simpa [Sig.schema] using this

/-- **C20, signature.** Constructing a builder writes the archive signature as an empty framed resource, and
its schema. -/
theorem C20_signature (A : ArchiveType) (path : String) (hpath : path ≠ "") (f : Files) :
    ∃ s', builderInit A path BState.initial = (.ok (), s') ∧
      filesOfState f s' (A.name ++ ".archive") = some (frame []) ∧
      filesOfState f s' (A.name ++ ".archive.schema") = some (encodeUtf8 A.schema) := by
  have h1 : A.name ++ ".archive" ≠ "" := by
    intro e; exact absurd (String.append_eq_empty_iff.mp e).2 (by decide)
  have h2 : A.name ++ ".archive.schema" ≠ "" := by
    intro e; exact absurd (String.append_eq_empty_iff.mp e).2 (by decide)
  obtain ⟨s1, e1, o1, -, -, -⟩ := writeRawData_ok hpath h1 (List.replicate 16 0) BState.initial
  obtain ⟨s2, e2, o2, -, -, -⟩ := writeRawData_ok hpath h2 (encodeUtf8 A.schema) s1
  have hne : A.name ++ ".archive" ≠ A.name ++ ".archive.schema" := append_ne_append (by decide)
  refine ⟨{ s2 with written := s2.written ++ [A.name ++ ".archive"] }, ?_, ?_, ?_⟩
  · unfold builderInit
    rw [BM.bind_ok e1, BM.bind_ok e2]; rfl
  · have hw : writeOps (A.name ++ ".archive") (List.replicate 16 0) =
        [.write (A.name ++ ".archive") (frame [])] := by rfl
    show replay f s2.ops _ = _
    rw [o2, o1, hw]
    have := replay_open_write f [] [] (.openWb (A.name ++ ".archive.schema") ::
      writeOps (A.name ++ ".archive.schema") (encodeUtf8 A.schema)) (A.name ++ ".archive") (frame []) (by simp)
      (fun op hop => by
        simp only [List.mem_cons] at hop
        rcases hop with rfl | hop
        · exact hne.symm
        · rw [writeOps_mem hop]; exact hne.symm)
    simpa [BState.initial] using this
  · show replay f s2.ops _ = _
    rw [o2, replay_append]
    by_cases hs : encodeUtf8 A.schema = []
    · simp [replay, applyOp, writeOps, hs]
    · simp [replay, applyOp, writeOps, hs]

/-- **C20.** A framed file is never rejected for its size, and its header is the payload size. -/
theorem C20_frame_opens (p : Bytes) (h : p.length < 2 ^ 63) (t : StructType) :
    (∃ r, RawData.create (frame p) = .ok r ∧ r.len = .ok p.length) ∧
    (∃ x, Instance.create (frame p) t = .ok x) ∧
    FdVector.create (frame p) t ≠ .error .corruptResource := by
  have hc : checkResource (frame p) = .ok () := checkResource_ok (by rw [frame_length]; omega)
  refine ⟨⟨⟨frame p⟩, ?_, ?_⟩, ⟨⟨frame p, t⟩, ?_⟩, ?_⟩
  · simp only [RawData.create, hc, bind, Except.bind]; rfl
  · simp only [RawData.len, read_header (show 8 ≤ (frame p).length by rw [frame_length]; omega), bind, Except.bind,
      frame_header p (by omega), Int.toNat_natCast]
    exact pyLen_ok h
  · simp only [Instance.create, hc, bind, Except.bind]; rfl
  · have hl : ¬ (frame p).length < 16 := by rw [frame_length]; omega
    by_cases ht : t.sizeInBytes = 0
    · rw [C08_vector_open_empty_type _ _ ht, if_neg hl]; simp
    · rw [C08_vector_open _ _ (by omega), if_neg hl]; split <;> simp

/-! ## C21 -/

/-- **C21.** A resource shorter than 16 bytes is rejected by every container (for a multivector: if its
index is that short). -/
theorem C21_short_rejected (mem data : Bytes) (t : StructType) (ts : List StructType) (h : mem.length < 16) :
    FdVector.create mem t = .error .corruptResource ∧ Instance.create mem t = .error .corruptResource ∧
    RawData.create mem = .error .corruptResource ∧ Multivector.create mem data t ts = .error .corruptResource := by
  have hc := checkResource_err h
  refine ⟨?_, ?_, ?_, ?_⟩
  · simp only [FdVector.create, hc, bind, Except.bind]
  · simp only [Instance.create, hc, bind, Except.bind]
  · simp only [RawData.create, hc, bind, Except.bind]
  · simp only [Multivector.create, FdVector.create, hc, bind, Except.bind]

/-- **C21.** A longer resource is accepted whatever its size header says about its length: instances and
raw data always, vectors whenever the header is a multiple of the element size. -/
theorem C21_long_accepted (mem : Bytes) (t : StructType) (h : 16 ≤ mem.length) :
    (∃ x, Instance.create mem t = .ok x) ∧ (∃ r, RawData.create mem = .ok r) ∧
    (0 < t.sizeInBytes → unsignedAt mem 0 64 % t.sizeInBytes = 0 → ∃ v, FdVector.create mem t = .ok v ∧
      v.size = unsignedAt mem 0 64 / t.sizeInBytes) := by
  have hc := checkResource_ok h
  refine ⟨⟨⟨mem, t⟩, ?_⟩, ⟨⟨mem⟩, ?_⟩, fun ht hm => ?_⟩
  · simp only [Instance.create, hc, bind, Except.bind]; rfl
  · simp only [RawData.create, hc, bind, Except.bind]; rfl
  · exact ⟨_, by rw [C08_vector_open mem t ht, if_neg (by omega), if_neg (by simp [hm])], rfl⟩

theorem fromLE_zeros (k : Nat) : fromLE (List.replicate k 0) = 0 := by
  induction k with
  | zero => rfl
  | succ k ih => simp [List.replicate_succ, fromLE, ih]

theorem fromLE_append_zeros (b : Bytes) (k : Nat) : fromLE (b ++ List.replicate k 0) = fromLE b := by
  induction b with
  | nil => simpa [fromLE] using fromLE_zeros k
  | cons x b ih => simp [fromLE, ih]

theorem slice_zeros (d : Bytes) (k a b : Nat) :
    ∃ j, sliceNN (d ++ List.replicate k 0) a b = sliceNN d a b ++ List.replicate j 0 := by
  unfold sliceNN
  refine ⟨min (b - a - (d.drop a).length) (k - (a - d.length)), ?_⟩
  rw [List.drop_append, List.take_append, List.drop_replicate, List.take_replicate]

theorem getByte_append (d : Bytes) (k i : Nat) :
    getByte d i = .error .indexError ∨ getByte d i = getByte (d ++ List.replicate k 0) i := by
  by_cases h : i < d.length
  · right; unfold getByte; rw [List.getElem?_append_left h]
  · left; unfold getByte; rw [List.getElem?_eq_none (by omega)]; rfl

/-- **C21.** Reading a field that reaches beyond the end of the buffer either raises `IndexError` or
silently gives the value the field would have if the missing bytes were zero. -/
theorem C21_clipped_read (d : Bytes) (o w k : Nat) (s : Bool) :
    readValue d o w s = .error .indexError ∨ readValue d o w s = readValue (d ++ List.replicate k 0) o w s := by
  unfold readValue
  by_cases h1 : w = 1
  · simp only [h1, if_true]
    rcases getByte_append d k (o / 8) with e | e
    · left; rw [e]; rfl
    · right; rw [e]
  · simp only [h1, if_false]
    have hrb : readBits d o w = .error .indexError ∨ readBits d o w = readBits (d ++ List.replicate k 0) o w := by
      unfold readBits
      obtain ⟨j, hj⟩ := slice_zeros d k (o / 8) (o / 8 + (w + 7) / 8)
      simp only [hj, fromLE_append_zeros]
      split
      · rcases getByte_append d k (o / 8 + (w + 7) / 8) with e | e
        · left; rw [e]; rfl
        · right; rw [e]
      · right; rfl
    rcases hrb with e | e
    · left; rw [e]; rfl
    · right; rw [e]

/-- Two 16-byte files opened as vectors of a 32-bit field. The first one has no room for its padding, the
second one claims 80 bytes of payload but holds none of elements 2 to 19: both open, and the elements that
are not in the file read as 0. -/
theorem C21_example_truncated :
    (do let v ← FdVector.create ([4, 0, 0, 0, 0, 0, 0, 0] ++ [7, 0, 0, 0, 0, 0, 0, 0]) (mkStruct "S" [⟨"x", 32, false⟩])
        let n ← v.len
        let x ← v.get 0
        let y ← x.getAttr "x"
        pure (n, y)) = .ok (1, 7) ∧
    (do let v ← FdVector.create ([80, 0, 0, 0, 0, 0, 0, 0] ++ [7, 0, 0, 0, 0, 0, 0, 0]) (mkStruct "S" [⟨"x", 32, false⟩])
        let n ← v.len
        let x ← v.get 19
        let y ← x.getAttr "x"
        pure (n, y)) = .ok (20, 0) := by
  decide +kernel

end Props
