import Verif.Lemmas.Payload

/-! Inversion: what a successful `set` did. -/

namespace Model
open Py Spec

theorem BM.bind_inv {α β} {x : BM α} {f : α → BM β} {s s' : BState} {b : β} (h : (x >>= f) s = (.ok b, s')) :
    ∃ a s1, x s = (.ok a, s1) ∧ f a s1 = (.ok b, s') := by
  simp only [BM.bind_run] at h
  cases hx : x s with
  | mk r s1 =>
    rw [hx] at h
    cases r with
    | error e => simp at h
    | ok a => exact ⟨a, s1, rfl, h⟩

/-- The operation adds nothing to the file history. -/
def NoOps {α : Type} (m : BM α) : Prop := ∀ s, (m s).2.ops = s.ops

theorem noOps_pure {α} (a : α) : NoOps (pure a : BM α) := fun _ => rfl
theorem noOps_lift {α} (a : M α) : NoOps (BM.lift a) := fun _ => rfl
theorem noOps_raise {α} (e : Err) : NoOps (BM.raise e : BM α) := fun _ => rfl
theorem noOps_theRes (n : String) : NoOps (theRes n) := fun _ => rfl
theorem noOps_putRes (n : String) (r : Res) : NoOps (putRes n r) := fun _ => rfl
theorem noOps_mark (n : String) : NoOps (markWritten n) := fun _ => rfl

theorem noOps_bind {α β} {m : BM α} {f : α → BM β} (hm : NoOps m) (hf : ∀ a, NoOps (f a)) : NoOps (m >>= f) := by
  intro s
  simp only [BM.bind_run]
  have h1 := hm s
  cases hr : m s with
  | mk r s' =>
    rw [hr] at h1
    cases r with
    | error e => exact h1
    | ok a => simp only at h1 ⊢; rw [hf a s', h1]

theorem noOps_forEach {α} {l : List α} {f : α → BM Unit} (h : ∀ a, NoOps (f a)) : NoOps (forEach l f) := by
  induction l with
  | nil => exact noOps_pure ()
  | cons a l ih => exact noOps_bind (h a) fun _ => ih

theorem noOps_resWrite (n : String) (d : Bytes) : NoOps (resWrite n d) :=
  noOps_bind (noOps_theRes n) fun _ => noOps_putRes _ _

theorem noOps_writeBucket {n : String} {ts : List StructType} {objs : List Obj} {dp : Nat} :
    NoOps (writeBucket n ts objs dp) := by
  induction objs generalizing dp with
  | nil => exact noOps_pure _
  | cons o os ih =>
    exact noOps_bind (noOps_bind (noOps_lift _) fun _ => noOps_bind (noOps_resWrite _ _) fun _ =>
      noOps_pure _) fun _ => ih

theorem noOps_writeBuckets {n : String} {ts : List StructType} {bs : List (List Obj)} {dp : Nat} :
    NoOps (writeBuckets n ts bs dp) := by
  induction bs generalizing dp with
  | nil => exact noOps_pure _
  | cons o os ih =>
    exact noOps_bind noOps_writeBucket fun _ => noOps_bind ih fun _ => noOps_pure _

theorem sizeHeader_inv {d h : Bytes} (e : sizeHeader d = .ok h) : h = toLE 8 d.length ∧ d.length < 2 ^ 64 := by
  unfold sizeHeader at e
  rw [toBytes_unsigned] at e
  split at e
  · rename_i hl; exact ⟨(Except.ok.inj e).symm, by simpa using hl⟩
  · simp at e

/-- add_size, add_padding and close, when they succeed. -/
theorem closeFramed_inv {name : String} {s s1 s2 s3 : BState} (h1 : resAddSize name s = (.ok (), s1))
    (h2 : resAddPadding name s1 = (.ok (), s2)) (h3 : resClose name s2 = (.ok (), s3)) :
    ∃ p, p.length < 2 ^ 64 ∧ p = ((s.store.lookup name).getD ⟨[], false⟩).data ∧
      s3.ops = s.ops ++ [.write name (frame p)] ∧ s3.written = s.written ∧
      (∃ v, s3.store.lookup name = some v ∧ v.valid = false) ∧
      ∀ n, n ≠ name → s3.store.lookup n = s.store.lookup n := by
  rw [resAddSize_def] at h1
  obtain ⟨r, t, e1, h1⟩ := BM.bind_inv h1
  obtain ⟨rfl, rfl⟩ : (s.store.lookup name).getD ⟨[], false⟩ = r ∧ s = t := by
    simp only [theRes, Prod.mk.injEq, Except.ok.injEq] at e1; exact e1
  obtain ⟨h, t, e2, h1⟩ := BM.bind_inv h1
  obtain ⟨e3, rfl⟩ : sizeHeader _ = .ok h ∧ s = t := by
    simp only [BM.lift_run, Prod.mk.injEq] at e2; exact e2
  obtain ⟨rfl, hlen⟩ := sizeHeader_inv e3
  clear e1 e2 e3
  generalize hr : (s.store.lookup name).getD ⟨[], false⟩ = r at *
  have e1 : s1 = { s with store := dictSet s.store name { r with data := toLE 8 r.data.length ++ r.data } } := by
    simp only [putRes, Prod.mk.injEq] at h1; exact h1.2.symm
  have l1 : s1.store.lookup name = some { r with data := toLE 8 r.data.length ++ r.data } := by
    rw [e1]; simp [lookup_dictSet]
  have e2 : s2 = { s1 with store := dictSet s1.store name { r with data := frame r.data } } := by
    simp only [resAddPadding, BM.bind_run, theRes_run l1, putRes, Prod.mk.injEq] at h2
    rw [← h2.2]; simp [frame]
  have l2 : s2.store.lookup name = some { r with data := frame r.data } := by
    rw [e2]; simp [lookup_dictSet]
  have hne : frame r.data ≠ [] := by simp [frame]
  have e3 : s3 = { s2 with ops := s2.ops ++ [.write name (frame r.data)],
                           store := dictSet s2.store name ⟨[], false⟩ } := by
    simp only [resClose, BM.bind_run, theRes_run l2, hne, if_false, emit, putRes, Prod.mk.injEq] at h3
    exact h3.2.symm
  refine ⟨r.data, hlen, rfl, ?_, ?_, ⟨⟨[], false⟩, ?_, rfl⟩, ?_⟩
  · rw [e3, e2, e1]
  · rw [e3, e2, e1]
  · rw [e3]; simp [lookup_dictSet]
  · intro n hn; rw [e3, e2, e1]; simp [lookup_dictSet, hn]

theorem storageGet_inv {path name : String} {s s' : BState} (h : storageGet path name s = (.ok (), s')) :
    path ≠ "" ∧ name ≠ "" := by
  unfold storageGet at h
  split at h
  · simp at h
  · split at h
    · simp at h
    · exact ⟨by assumption, by assumption⟩

theorem writeRawData_inv {path name : String} {d : Bytes} {s s' : BState}
    (h : writeRawData path name d s = (.ok (), s')) : path ≠ "" ∧ name ≠ "" := by
  unfold writeRawData at h
  obtain ⟨_, _, e, -⟩ := BM.bind_inv h
  exact storageGet_inv e

/-- The file operations between opening and writing the data file: those of the index of a multivector. -/
def MidOps (name : String) (sig : Sig) (mid : List FsOp) : Prop :=
  match sig with
  | .multivector _ _ sch _ => ∃ ip, ip.length < 2 ^ 64 ∧
      mid = [.openWb (name ++ "_index"), .write (name ++ "_index") (frame ip)] ++
        (.openWb (name ++ "_index.schema") ::
          writeOps (name ++ "_index.schema") (encodeUtf8 ("index(" ++ sch ++ ")")))
  | _ => mid = []

theorem setMultivector_inv {path name : String} {it : StructType} {ts : List StructType} {sch : String}
    {value : List (List Obj)} {s s' : BState}
    (h : setMultivector path name it ts sch value s = (.ok (), s')) :
    ∃ ip, ip.length < 2 ^ 64 ∧ s'.ops = s.ops ++ ([.openWb (name ++ "_index"), .write (name ++ "_index") (frame ip)] ++
        (.openWb (name ++ "_index.schema") ::
          writeOps (name ++ "_index.schema") (encodeUtf8 ("index(" ++ sch ++ ")")))) := by
  unfold setMultivector at h
  obtain ⟨_, s1, e1, h⟩ := BM.bind_inv h
  have o1 : s1.ops = s.ops := by
    have := noOps_forEach (l := value) (f := fun subList => forEach subList fun obj => BM.lift (validateObj name ts obj))
      (fun _ => noOps_forEach fun _ => noOps_lift _) s
    rw [e1] at this; exact this
  obtain ⟨pts, s2, e2, h⟩ := BM.bind_inv h
  have o2 : s2.ops = s1.ops := by
    have := noOps_writeBuckets (n := name) (ts := ts) (bs := value) (dp := 0) s1
    rw [e2] at this; exact this
  obtain ⟨_, s3, e3, h⟩ := BM.bind_inv h
  have e3' : storageGet path (name ++ "_index") s2 = (.ok (), s3) := by
    unfold indexWriterInit at e3
    split at e3
    · simp at e3
    · exact e3
  obtain ⟨hp, hni⟩ := storageGet_inv e3'
  obtain ⟨s3', e3'', o3, -, -, -⟩ := storageGet_ok hp hni s2
  rw [e3'] at e3''; cases e3''
  obtain ⟨_, s4, e4, h⟩ := BM.bind_inv h
  have o4 : s4.ops = s3.ops := by
    have := noOps_forEach (l := pts) (f := fun index => indexWriterAdd name it.sizeInBytes index)
      (fun _ => noOps_bind (noOps_lift _) fun _ => noOps_resWrite _ _) s3
    rw [e4] at this; exact this
  obtain ⟨_, s5, e5, h⟩ := BM.bind_inv h
  unfold indexWriterFinish at e5
  obtain ⟨_, t1, f1, e5⟩ := BM.bind_inv e5
  obtain ⟨_, t2, f2, f3⟩ := BM.bind_inv e5
  obtain ⟨ip, hip, -, o5, -, -, -⟩ := closeFramed_inv f1 f2 f3
  obtain ⟨_, s6, e6, h⟩ := BM.bind_inv h
  obtain ⟨-, hns⟩ := writeRawData_inv e6
  obtain ⟨s6', e6', o6, -, -, -⟩ := writeRawData_ok hp hns (encodeUtf8 ("index(" ++ sch ++ ")")) s5
  rw [e6] at e6'; cases e6'
  obtain ⟨_, s7, e7, h⟩ := BM.bind_inv h
  have o7 : s7.ops = s6.ops := by rw [← show (markWritten name s6).2.ops = s6.ops from rfl, e7]
  have o8 : s'.ops = s7.ops := by
    rw [← show (markWritten (name ++ "_index") s7).2.ops = s7.ops from rfl, h]
  refine ⟨ip, hip, ?_⟩
  rw [o8, o7, o6, o5, o4, o3, o2, o1]; simp

theorem setPayload_mid {path name : String} {sig : Sig} {value : Value} {s s' : BState}
    (h : setPayload path name sig value s = (.ok (), s')) :
    ∃ mid, s'.ops = s.ops ++ mid ∧ MidOps name sig mid := by
  unfold setPayload at h
  split at h
  · rename_i t sch o d
    refine ⟨[], ?_, rfl⟩
    have : NoOps (setInstance name t d) := noOps_bind (noOps_lift _) fun _ => noOps_bind (noOps_lift _) fun _ =>
      noOps_resWrite _ _
    have := this s; rw [h] at this; simpa using this
  · rename_i t sch o l
    refine ⟨[], ?_, rfl⟩
    have : NoOps (setVector name t l) := noOps_bind (noOps_forEach fun _ => noOps_lift _) fun _ =>
      noOps_forEach fun _ => noOps_bind (noOps_lift _) fun _ => noOps_resWrite _ _
    have := this s; rw [h] at this; simpa using this
  · obtain ⟨ip, hip, ho⟩ := setMultivector_inv h
    exact ⟨_, ho, ip, hip, rfl⟩
  · rename_i sch o b
    refine ⟨[], ?_, rfl⟩
    have := noOps_resWrite name b s; rw [h] at this; simpa using this
  · refine ⟨[], ?_, rfl⟩
    simp only [BM.pure_run, Prod.mk.injEq] at h; rw [h.2]; simp
  · refine ⟨[], ?_, rfl⟩
    simp only [BM.pure_run, Prod.mk.injEq] at h; rw [h.2]; simp
  · simp at h

/-- Shape of a successful `set`. -/
theorem setBody_inv {path name : String} {sig : Sig} {value : Value} {s s' : BState}
    (h : setBody path name sig value s = (.ok (), s')) :
    path ≠ "" ∧ name ≠ "" ∧ ∃ p mid, p.length < 2 ^ 64 ∧ MidOps name sig mid ∧
      s'.ops = s.ops ++ ((.openWb (name ++ ".schema") :: writeOps (name ++ ".schema") (encodeUtf8 sig.schema)) ++
        [.openWb name] ++ mid ++ [.write name (frame p)]) := by
  unfold setBody at h
  obtain ⟨_, s1, e1, h⟩ := BM.bind_inv h
  obtain ⟨hp, hns⟩ := writeRawData_inv e1
  obtain ⟨_, e1', o1, -, -, -⟩ := writeRawData_ok hp hns (encodeUtf8 sig.schema) s
  rw [e1] at e1'; cases e1'
  obtain ⟨_, s2, e2, h⟩ := BM.bind_inv h
  obtain ⟨-, hn⟩ := storageGet_inv e2
  obtain ⟨_, e2', o2, -, -, -⟩ := storageGet_ok hp hn s1
  rw [e2] at e2'; cases e2'
  obtain ⟨_, s3, e3, h⟩ := BM.bind_inv h
  obtain ⟨mid, o3, hm⟩ := setPayload_mid e3
  obtain ⟨_, t1, f1, h⟩ := BM.bind_inv h
  obtain ⟨_, t2, f2, h⟩ := BM.bind_inv h
  obtain ⟨_, t3, f3, h⟩ := BM.bind_inv h
  obtain ⟨p, hpl, -, o4, -, -, -⟩ := closeFramed_inv f1 f2 f3
  have o5 : s'.ops = t3.ops := by rw [← show (markWritten name t3).2.ops = t3.ops from rfl, h]
  refine ⟨hp, hn, p, mid, hpl, hm, ?_⟩
  rw [o5, o4, o3, o2, o1]; simp

/-- A successful `set` marks the resource as written. -/
theorem setBody_marks {path name : String} {sig : Sig} {value : Value} {s s' : BState}
    (h : setBody path name sig value s = (.ok (), s')) : name ∈ s'.written := by
  unfold setBody at h
  obtain ⟨_, s1, e1, h⟩ := BM.bind_inv h
  obtain ⟨_, s2, e2, h⟩ := BM.bind_inv h
  obtain ⟨_, s3, e3, h⟩ := BM.bind_inv h
  obtain ⟨_, s4, e4, h⟩ := BM.bind_inv h
  obtain ⟨_, s5, e5, h⟩ := BM.bind_inv h
  obtain ⟨_, s6, e6, h⟩ := BM.bind_inv h
  simp only [markWritten, Prod.mk.injEq] at h
  rw [← h.2]; simp

end Model
