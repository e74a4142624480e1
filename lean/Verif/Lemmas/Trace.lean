import Verif.Lemmas.History

/-! The operations of a `set`, successful or not; `finish`; store invariants. -/

namespace Model
open Py Spec Props

/-! ## Operations of a `set` -/

/-- `m` only appends file operations on files in `F`. -/
def OpsIn (F : List String) {α : Type} (m : BM α) : Prop :=
  ∀ s, ∃ ops', (m s).2.ops = s.ops ++ ops' ∧ ∀ op ∈ ops', op.file ∈ F

theorem opsIn_noOps {F : List String} {α} {m : BM α} (h : NoOps m) : OpsIn F m :=
  fun s => ⟨[], by simp [h s], by simp⟩

theorem opsIn_touches {F : List String} {α} {m : BM α} (h : Touches F m) : OpsIn F m :=
  fun s => let ⟨o, _, h1, h2, _⟩ := h s; ⟨o, h1, h2⟩

theorem opsIn_bind {F : List String} {α β} {m : BM α} {f : α → BM β} (hm : OpsIn F m) (hf : ∀ a, OpsIn F (f a)) :
    OpsIn F (m >>= f) := by
  intro s
  obtain ⟨o1, e1, h1⟩ := hm s
  simp only [BM.bind_run]
  cases hr : m s with
  | mk r s' =>
    rw [hr] at e1
    cases r with
    | error e => exact ⟨o1, e1, h1⟩
    | ok a =>
      obtain ⟨o2, e2, h2⟩ := hf a s'
      simp only at e1 ⊢
      exact ⟨o1 ++ o2, by rw [e2, e1]; simp, fun op hop => (List.mem_append.mp hop).elim (h1 op) (h2 op)⟩

theorem opsIn_setPayload {path name : String} {sig : Sig} {v : Value} :
    OpsIn [name ++ "_index", name ++ "_index.schema"] (setPayload path name sig v) := by
  unfold setPayload
  split
  · exact opsIn_noOps (noOps_bind (noOps_lift _) fun _ => noOps_bind (noOps_lift _) fun _ => noOps_resWrite _ _)
  · exact opsIn_noOps (noOps_bind (noOps_forEach fun _ => noOps_lift _) fun _ =>
      noOps_forEach fun _ => noOps_bind (noOps_lift _) fun _ => noOps_resWrite _ _)
  · refine opsIn_bind (opsIn_noOps (noOps_forEach fun _ => noOps_forEach fun _ => noOps_lift _)) fun _ => ?_
    refine opsIn_bind (opsIn_noOps noOps_writeBuckets) fun _ => ?_
    refine opsIn_bind ?_ fun _ => ?_
    · unfold indexWriterInit; split
      · exact opsIn_noOps (noOps_raise _)
      · exact opsIn_touches (touches_storageGet (by simp))
    refine opsIn_bind (opsIn_noOps (noOps_forEach fun _ => noOps_bind (noOps_lift _) fun _ => noOps_resWrite _ _))
      fun _ => ?_
    refine opsIn_bind (opsIn_touches (touches_bind (touches_resAddSize (by simp)) fun _ =>
      touches_bind (touches_resAddPadding (by simp)) fun _ => touches_resClose (by simp))) fun _ => ?_
    exact opsIn_bind (opsIn_touches (touches_writeRawData (by simp))) fun _ =>
      opsIn_noOps (noOps_bind (noOps_mark _) fun _ => noOps_mark _)
  · exact opsIn_noOps (noOps_resWrite _ _)
  · exact opsIn_noOps (noOps_pure _)
  · exact opsIn_noOps (noOps_pure _)
  · exact opsIn_noOps (noOps_raise _)

theorem noOps_resAddSize (n : String) : NoOps (resAddSize n) :=
  noOps_bind (noOps_theRes n) fun _ => noOps_bind (noOps_lift _) fun _ => noOps_putRes _ _

theorem resClose_isOk (n : String) (s : BState) : ∃ s', resClose n s = (.ok (), s') := by
  unfold resClose
  simp only [theRes, BM.bind_run]
  split
  · exact ⟨_, rfl⟩
  · exact ⟨_, rfl⟩

/-- Operations of a `set`, successful or not: operations on the schema file; then, if the data file was opened
at all, opening it and operations on the index files; the data file is written at the very end and only if the
`set` succeeds. -/
theorem setBody_trace (path name : String) (sig : Sig) (value : Value) (s : BState) :
    ∃ a b c, (setBody path name sig value s).2.ops = s.ops ++ (a ++ b ++ c) ∧
      (∀ op ∈ a, op.file = name ++ ".schema") ∧
      (b = [] ∨ ∃ mid, b = .openWb name :: mid ∧ ∀ op ∈ mid, op.file ∈ [name ++ "_index", name ++ "_index.schema"]) ∧
      ((c = [] ∧ (setBody path name sig value s).1 ≠ .ok ()) ∨
        ((∃ d, c = [.write name d]) ∧ (setBody path name sig value s).1 = .ok ())) := by
  cases hr : setBody path name sig value s with
  | mk r s' =>
    cases r with
    | ok u =>
      obtain ⟨-, -, p, mid, -, hm, ho⟩ := setBody_inv hr
      refine ⟨_, .openWb name :: mid, [.write name (frame p)], by rw [ho]; simp only [List.append_assoc]; rfl, ?_, ?_, ?_⟩
      · intro op hop
        rcases List.mem_cons.mp hop with rfl | hop
        · rfl
        · exact writeOps_mem hop
      · exact .inr ⟨mid, rfl, fun op hop => by rcases midOps_files hm op hop with e | e <;> simp [e]⟩
      · exact .inr ⟨⟨_, rfl⟩, rfl⟩
    | error e =>
      unfold setBody at hr
      have hw : OpsIn [name ++ ".schema"] (writeRawData path (name ++ ".schema") (encodeUtf8 sig.schema)) :=
        opsIn_touches (touches_writeRawData (by simp))
      obtain ⟨a, ha, hai⟩ := hw s
      have hai' : ∀ op ∈ a, op.file = name ++ ".schema" := fun op hop => by simpa using hai op hop
      cases h1 : writeRawData path (name ++ ".schema") (encodeUtf8 sig.schema) s with
      | mk r1 s1 =>
        rw [h1] at ha
        cases r1 with
        | error e1 =>
          rw [BM.bind_err h1] at hr; cases hr
          exact ⟨a, [], [], by simpa using ha, hai', .inl rfl, .inl ⟨rfl, by simp⟩⟩
        | ok _ =>
          rw [BM.bind_ok h1] at hr
          cases h2 : storageGet path name s1 with
          | mk r2 s2 =>
            cases r2 with
            | error e2 =>
              have : s2.ops = s1.ops := by
                unfold storageGet at h2
                split at h2
                · simp at h2; rw [h2.2]
                · split at h2
                  · simp at h2; rw [h2.2]
                  · simp [emit, putRes] at h2
              rw [BM.bind_err h2] at hr; cases hr
              exact ⟨a, [], [], by simpa [this] using ha, hai', .inl rfl, .inl ⟨rfl, by simp⟩⟩
            | ok _ =>
              rw [BM.bind_ok h2] at hr
              obtain ⟨hp, hn⟩ := storageGet_inv h2
              obtain ⟨_, h2', o2, -, -, -⟩ := storageGet_ok hp hn s1
              rw [h2] at h2'; cases h2'
              obtain ⟨mid, hm, hmi⟩ := opsIn_setPayload (path := path) (name := name) (sig := sig) (v := value) s2
              cases h3 : setPayload path name sig value s2 with
              | mk r3 s3 =>
                rw [h3] at hm
                have key : s3.ops = s.ops ++ (a ++ (.openWb name :: mid) ++ []) := by
                  simp only at hm ha; rw [hm, o2, ha]; simp
                cases r3 with
                | error e3 =>
                  rw [BM.bind_err h3] at hr; cases hr
                  exact ⟨a, _, [], key, hai', .inr ⟨mid, rfl, hmi⟩, .inl ⟨rfl, by simp⟩⟩
                | ok _ =>
                  rw [BM.bind_ok h3] at hr
                  have h4o := noOps_resAddSize name s3
                  cases h4 : resAddSize name s3 with
                  | mk r4 s4 =>
                    rw [h4] at h4o
                    cases r4 with
                    | error e4 =>
                      rw [BM.bind_err h4] at hr; cases hr
                      simp only at h4o
                      exact ⟨a, _, [], by rw [h4o, key], hai', .inr ⟨mid, rfl, hmi⟩, .inl ⟨rfl, by simp⟩⟩
                    | ok _ =>
                      rw [BM.bind_ok h4] at hr
                      exfalso
                      obtain ⟨s5, h5⟩ : ∃ s5, resAddPadding name s4 = (.ok (), s5) := by
                        simp only [resAddPadding, theRes, BM.bind_run]; exact ⟨_, rfl⟩
                      rw [BM.bind_ok h5] at hr
                      obtain ⟨s6, h6⟩ := resClose_isOk name s5
                      rw [BM.bind_ok h6] at hr
                      simp [markWritten] at hr

/-! ## `finish` -/

/-- The write operation closing causes for one store entry. -/
def closeOps (store : List (String × Res)) (n : String) : List FsOp :=
  match store.lookup n with
  | some r => if r.valid then writeOps n r.data else []
  | none => []

/-- Closing a store entry. -/
def shut (r : Res) : Res := if r.valid then ⟨[], false⟩ else r

theorem shut_invalid (r : Res) : (shut r).valid = false := by
  unfold shut; split
  · rfl
  · simp_all

theorem closeIfValid_run (n : String) (s : BState) :
    ∃ s', closeIfValid n s = (.ok (), s') ∧ s'.ops = s.ops ++ closeOps s.store n ∧ s'.written = s.written ∧
      ∀ m, s'.store.lookup m = if m = n then (s.store.lookup m).map shut else s.store.lookup m := by
  unfold closeIfValid closeOps
  simp only [BM.bind_run, theRes]
  cases hl : s.store.lookup n with
  | none =>
    simp only [Option.getD_none, Bool.false_eq_true, if_false]
    refine ⟨s, rfl, by simp, rfl, fun m => ?_⟩
    split
    · rename_i e; subst e; rw [hl]; rfl
    · rfl
  | some r =>
    simp only [Option.getD_some]
    by_cases hv : r.valid = true
    · simp only [hv, if_true]
      unfold resClose
      simp only [BM.bind_run, theRes, hl, Option.getD_some]
      by_cases hd : r.data = []
      · simp only [hd, if_true, writeOps]
        refine ⟨_, rfl, by simp, rfl, fun m => ?_⟩
        simp only [lookup_dictSet]
        split
        · rename_i e; subst e; rw [hl]; simp [shut, hv]
        · rfl
      · simp only [hd, if_false, writeOps]
        refine ⟨_, rfl, by simp, rfl, fun m => ?_⟩
        simp only [lookup_dictSet]
        split
        · rename_i e; subst e; rw [hl]; simp [shut, hv]
        · rfl
    · simp only [hv]
      refine ⟨s, rfl, by simp, rfl, fun m => ?_⟩
      split
      · rename_i e; subst e; rw [hl]; simp [shut, hv]
      · rfl

theorem closeAll_run (l : List String) (hnd : l.Nodup) (s : BState) :
    ∃ s', forEach l closeIfValid s = (.ok (), s') ∧ s'.ops = s.ops ++ l.flatMap (closeOps s.store) ∧
      s'.written = s.written ∧
      ∀ m, s'.store.lookup m = if m ∈ l then (s.store.lookup m).map shut else s.store.lookup m := by
  induction l generalizing s with
  | nil => exact ⟨s, rfl, by simp, rfl, fun _ => by simp⟩
  | cons n l ih =>
    rw [List.nodup_cons] at hnd
    obtain ⟨s1, e1, o1, w1, k1⟩ := closeIfValid_run n s
    obtain ⟨s2, e2, o2, w2, k2⟩ := ih hnd.2 s1
    refine ⟨s2, ?_, ?_, by rw [w2, w1], ?_⟩
    · show (closeIfValid n >>= fun _ => forEach l closeIfValid) s = _
      rw [BM.bind_ok e1, e2]
    · rw [o2, o1, List.flatMap_cons, List.append_assoc]
      congr 2
      apply List.flatMap_congr
      intro m hm
      unfold closeOps
      rw [k1 m, if_neg (by rintro rfl; exact hnd.1 hm)]
    · intro m
      rw [k2, k1]
      by_cases hm : m = n
      · subst hm; simp [hnd.1]
      · simp [hm]

/-! ## The store is a dictionary -/

/-- The keys of the store are distinct. -/
def GoodStore (s : BState) : Prop := (s.store.map (·.1)).Nodup

theorem dictSet_keys {α} (d : List (String × α)) (k : String) (v : α) :
    (dictSet d k v).map (·.1) = if k ∈ d.map (·.1) then d.map (·.1) else d.map (·.1) ++ [k] := by
  induction d with
  | nil => simp [dictSet]
  | cons p d ih =>
    obtain ⟨a, b⟩ := p
    simp only [dictSet]
    by_cases h : a = k
    · subst h; simp
    · simp only [h, if_false, List.map_cons, ih, List.mem_cons]
      have : ¬ k = a := fun e => h e.symm
      simp only [this, false_or]
      split <;> simp

/-- `m` keeps the store a dictionary. -/
def KeepsStore {α : Type} (m : BM α) : Prop := ∀ s, GoodStore s → GoodStore (m s).2

theorem keeps_id {α} {m : BM α} (h : ∀ s, (m s).2.store = s.store) : KeepsStore m := by
  intro s hs; unfold GoodStore; rw [h s]; exact hs

theorem keeps_bind {α β} {m : BM α} {f : α → BM β} (hm : KeepsStore m) (hf : ∀ a, KeepsStore (f a)) :
    KeepsStore (m >>= f) := by
  intro s hs
  have h1 := hm s hs
  simp only [BM.bind_run]
  cases hr : m s with
  | mk r s' =>
    rw [hr] at h1
    cases r with
    | error e => exact h1
    | ok a => exact hf a s' h1

theorem keeps_pure {α} (a : α) : KeepsStore (pure a : BM α) := keeps_id fun _ => rfl
theorem keeps_lift {α} (a : M α) : KeepsStore (BM.lift a) := keeps_id fun _ => rfl
theorem keeps_raise {α} (e : Err) : KeepsStore (BM.raise e : BM α) := keeps_id fun _ => rfl
theorem keeps_theRes (n : String) : KeepsStore (theRes n) := keeps_id fun _ => rfl
theorem keeps_emit (op : FsOp) : KeepsStore (emit op) := keeps_id fun _ => rfl
theorem keeps_mark (n : String) : KeepsStore (markWritten n) := keeps_id fun _ => rfl
theorem keeps_putRes (n : String) (r : Res) : KeepsStore (putRes n r) := by
  intro s hs
  show ((dictSet s.store n r).map (·.1)).Nodup
  rw [dictSet_keys]
  split
  · exact hs
  · rename_i hn
    rw [List.nodup_append]
    exact ⟨hs, by simp, fun a ha b hb e => by simp at hb; subst hb; subst e; exact hn ha⟩

theorem keeps_forEach {α} {l : List α} {f : α → BM Unit} (h : ∀ a, KeepsStore (f a)) : KeepsStore (forEach l f) := by
  induction l with
  | nil => exact keeps_pure ()
  | cons a l ih => exact keeps_bind (h a) fun _ => ih

theorem keeps_storageGet (path n : String) : KeepsStore (storageGet path n) := by
  unfold storageGet
  split
  · exact keeps_raise _
  · split
    · exact keeps_raise _
    · exact keeps_bind (keeps_emit _) fun _ => keeps_putRes _ _

theorem keeps_resWrite (n : String) (d : Bytes) : KeepsStore (resWrite n d) :=
  keeps_bind (keeps_theRes n) fun _ => keeps_putRes _ _
theorem keeps_resAddSize (n : String) : KeepsStore (resAddSize n) :=
  keeps_bind (keeps_theRes n) fun _ => keeps_bind (keeps_lift _) fun _ => keeps_putRes _ _
theorem keeps_resAddPadding (n : String) : KeepsStore (resAddPadding n) :=
  keeps_bind (keeps_theRes n) fun _ => keeps_putRes _ _
theorem keeps_resClose (n : String) : KeepsStore (resClose n) := by
  refine keeps_bind (keeps_theRes n) fun r => ?_
  split
  · exact keeps_putRes _ _
  · exact keeps_bind (keeps_emit _) fun _ => keeps_putRes _ _
theorem keeps_writeRawData (path n : String) (d : Bytes) : KeepsStore (writeRawData path n d) :=
  keeps_bind (keeps_storageGet _ _) fun _ => keeps_bind (keeps_resWrite _ _) fun _ => keeps_resClose _
theorem keeps_closeIfValid (n : String) : KeepsStore (closeIfValid n) := by
  refine keeps_bind (keeps_theRes n) fun r => ?_
  split
  · exact keeps_resClose _
  · exact keeps_pure _

theorem keeps_writeBucket {n : String} {ts : List StructType} {objs : List Obj} {dp : Nat} :
    KeepsStore (writeBucket n ts objs dp) := by
  induction objs generalizing dp with
  | nil => exact keeps_pure _
  | cons o os ih =>
    exact keeps_bind (keeps_bind (keeps_lift _) fun _ => keeps_bind (keeps_resWrite _ _) fun _ => keeps_pure _) fun _ => ih

theorem keeps_writeBuckets {n : String} {ts : List StructType} {bs : List (List Obj)} {dp : Nat} :
    KeepsStore (writeBuckets n ts bs dp) := by
  induction bs generalizing dp with
  | nil => exact keeps_pure _
  | cons o os ih => exact keeps_bind keeps_writeBucket fun _ => keeps_bind ih fun _ => keeps_pure _

theorem keeps_setPayload {path name : String} {sig : Sig} {v : Value} : KeepsStore (setPayload path name sig v) := by
  unfold setPayload
  split
  · exact keeps_bind (keeps_lift _) fun _ => keeps_bind (keeps_lift _) fun _ => keeps_resWrite _ _
  · exact keeps_bind (keeps_forEach fun _ => keeps_lift _) fun _ =>
      keeps_forEach fun _ => keeps_bind (keeps_lift _) fun _ => keeps_resWrite _ _
  · refine keeps_bind (keeps_forEach fun _ => keeps_forEach fun _ => keeps_lift _) fun _ => ?_
    refine keeps_bind keeps_writeBuckets fun _ => ?_
    refine keeps_bind ?_ fun _ => ?_
    · unfold indexWriterInit; split
      · exact keeps_raise _
      · exact keeps_storageGet _ _
    refine keeps_bind (keeps_forEach fun _ => keeps_bind (keeps_lift _) fun _ => keeps_resWrite _ _) fun _ => ?_
    refine keeps_bind (keeps_bind (keeps_resAddSize _) fun _ => keeps_bind (keeps_resAddPadding _) fun _ =>
      keeps_resClose _) fun _ => ?_
    exact keeps_bind (keeps_writeRawData _ _ _) fun _ => keeps_bind (keeps_mark _) fun _ => keeps_mark _
  · exact keeps_resWrite _ _
  · exact keeps_pure _
  · exact keeps_pure _
  · exact keeps_raise _

theorem keeps_setBody {path name : String} {sig : Sig} {v : Value} : KeepsStore (setBody path name sig v) :=
  keeps_bind (keeps_writeRawData _ _ _) fun _ => keeps_bind (keeps_storageGet _ _) fun _ =>
  keeps_bind keeps_setPayload fun _ => keeps_bind (keeps_resAddSize _) fun _ => keeps_bind (keeps_resAddPadding _) fun _ =>
  keeps_bind (keeps_resClose _) fun _ => keeps_mark _

theorem keeps_finish : KeepsStore finish := by
  intro s hs
  exact keeps_forEach (l := s.store.map (·.1)) (fun _ => keeps_closeIfValid _) s hs

theorem lookup_none_of_not_mem {α} {l : List (String × α)} {m : String} (h : m ∉ l.map (·.1)) : l.lookup m = none := by
  induction l with
  | nil => rfl
  | cons p l ih =>
    simp only [List.map_cons, List.mem_cons, not_or] at h
    obtain ⟨a, b⟩ := p
    rw [List.lookup_cons]
    have : (m == a) = false := by simpa using h.1
    rw [this]; exact ih h.2

/-- What `finish` does. -/
theorem finish_run {s : BState} (hs : GoodStore s) :
    ∃ s', finish s = (.ok (), s') ∧ s'.ops = s.ops ++ (s.store.map (·.1)).flatMap (closeOps s.store) ∧
      s'.written = s.written ∧ ∀ m, s'.store.lookup m = (s.store.lookup m).map shut := by
  obtain ⟨s', e, o, w, k⟩ := closeAll_run (s.store.map Prod.fst) hs s
  refine ⟨s', e, o, w, fun m => ?_⟩
  rw [k]
  split
  · rfl
  · rename_i h; rw [lookup_none_of_not_mem h]; rfl

theorem closeOps_file {store : List (String × Res)} {n : String} {op : FsOp} (h : op ∈ closeOps store n) : op.file = n := by
  unfold closeOps at h
  split at h
  · split at h
    · exact writeOps_mem h
    · simp at h
  · simp at h

/-- The operations of `finish` on one file. -/
theorem closeOps_filter (store : List (String × Res)) (l : List String) (hnd : l.Nodup) (n : String) :
    (l.flatMap (closeOps store)).filter (fun op => op.file = n) = if n ∈ l then closeOps store n else [] := by
  induction l with
  | nil => rfl
  | cons m l ih =>
    rw [List.nodup_cons] at hnd
    rw [List.flatMap_cons, List.filter_append, ih hnd.2]
    by_cases hm : m = n
    · subst hm
      rw [if_neg hnd.1, if_pos (by simp), List.append_nil, List.filter_eq_self]
      intro op hop; simpa using closeOps_file hop
    · have : (closeOps store m).filter (fun op => op.file = n) = [] := by
        rw [List.filter_eq_nil_iff]
        intro op hop; rw [closeOps_file hop]; simpa using hm
      rw [this]
      have : (n ∈ m :: l) ↔ n ∈ l := by
        rw [List.mem_cons]; exact ⟨fun h => h.resolve_left (fun e => hm e.symm), .inr⟩
      simp only [this, List.nil_append]

theorem finish_replay {s : BState} (hs : GoodStore s) (f : Files) (n : String) :
    replay f (finish s).2.ops n = replay (replay f s.ops) (closeOps s.store n) n := by
  obtain ⟨s', e, o, -, -⟩ := finish_run hs
  rw [e]
  show replay f s'.ops n = _
  rw [o, replay_append]
  apply replay_filter_eq
  rw [closeOps_filter _ _ hs]
  split
  · rw [List.filter_eq_self.mpr]; intro op hop; simpa using closeOps_file hop
  · rename_i h
    have : closeOps s.store n = [] := by unfold closeOps; rw [lookup_none_of_not_mem h]
    rw [this]; rfl

/-! ## Marks -/

/-- The operation marks nothing as written. -/
def NoMarks {α : Type} (m : BM α) : Prop := ∀ s, (m s).2.written = s.written

theorem noMarks_id {α} {m : BM α} (h : ∀ s, (m s).2.written = s.written) : NoMarks m := h
theorem noMarks_bind {α β} {m : BM α} {f : α → BM β} (hm : NoMarks m) (hf : ∀ a, NoMarks (f a)) : NoMarks (m >>= f) := by
  intro s
  simp only [BM.bind_run]
  have h1 := hm s
  cases hr : m s with
  | mk r s' =>
    rw [hr] at h1
    cases r with
    | error e => exact h1
    | ok a => simp only at h1 ⊢; rw [hf a s', h1]

theorem noMarks_forEach {α} {l : List α} {f : α → BM Unit} (h : ∀ a, NoMarks (f a)) : NoMarks (forEach l f) := by
  induction l with
  | nil => exact fun _ => rfl
  | cons a l ih => exact noMarks_bind (h a) fun _ => ih

theorem noMarks_storageGet (path n : String) : NoMarks (storageGet path n) := by
  unfold storageGet
  split
  · exact fun _ => rfl
  · split
    · exact fun _ => rfl
    · exact noMarks_bind (fun _ => rfl) fun _ => fun _ => rfl
theorem noMarks_theRes (n : String) : NoMarks (theRes n) := fun _ => rfl
theorem noMarks_putRes (n : String) (r : Res) : NoMarks (putRes n r) := fun _ => rfl
theorem noMarks_lift {α} (a : M α) : NoMarks (BM.lift a) := fun _ => rfl
theorem noMarks_pure {α} (a : α) : NoMarks (pure a : BM α) := fun _ => rfl
theorem noMarks_resWrite (n : String) (d : Bytes) : NoMarks (resWrite n d) :=
  noMarks_bind (noMarks_theRes n) fun _ => noMarks_putRes _ _
theorem noMarks_resAddSize (n : String) : NoMarks (resAddSize n) :=
  noMarks_bind (noMarks_theRes n) fun _ => noMarks_bind (noMarks_lift _) fun _ => noMarks_putRes _ _
theorem noMarks_resAddPadding (n : String) : NoMarks (resAddPadding n) :=
  noMarks_bind (noMarks_theRes n) fun _ => noMarks_putRes _ _
theorem noMarks_resClose (n : String) : NoMarks (resClose n) := by
  refine noMarks_bind (noMarks_theRes n) fun r => ?_
  split
  · exact noMarks_putRes _ _
  · exact noMarks_bind (fun _ => rfl) fun _ => noMarks_putRes _ _
theorem noMarks_writeRawData (path n : String) (d : Bytes) : NoMarks (writeRawData path n d) :=
  noMarks_bind (noMarks_storageGet _ _) fun _ => noMarks_bind (noMarks_resWrite _ _) fun _ => noMarks_resClose _
theorem noMarks_writeBucket {n : String} {ts : List StructType} {objs : List Obj} {dp : Nat} :
    NoMarks (writeBucket n ts objs dp) := by
  induction objs generalizing dp with
  | nil => exact noMarks_pure _
  | cons o os ih =>
    exact noMarks_bind (noMarks_bind (noMarks_lift _) fun _ => noMarks_bind (noMarks_resWrite _ _) fun _ => noMarks_pure _) fun _ => ih
theorem noMarks_writeBuckets {n : String} {ts : List StructType} {bs : List (List Obj)} {dp : Nat} :
    NoMarks (writeBuckets n ts bs dp) := by
  induction bs generalizing dp with
  | nil => exact noMarks_pure _
  | cons o os ih => exact noMarks_bind noMarks_writeBucket fun _ => noMarks_bind ih fun _ => noMarks_pure _

/-- `setMultivector` without the two marks at its end. -/
def setMultivectorCore (path name : String) (indexT : StructType) (types : List StructType) (schema : String)
    (value : List (List Obj)) : BM Unit := do
  forEach value fun subList => forEach subList fun obj => BM.lift (validateObj name types obj)
  let points ← writeBuckets name types value 0
  indexWriterInit path name indexT.sizeInBytes
  forEach points fun index => indexWriterAdd name indexT.sizeInBytes index
  indexWriterFinish name
  writeRawData path (name ++ "_index.schema") (encodeUtf8 ("index(" ++ schema ++ ")"))

theorem noMarks_core {path name : String} {it : StructType} {ts : List StructType} {schema : String}
    {value : List (List Obj)} : NoMarks (setMultivectorCore path name it ts schema value) := by
  refine noMarks_bind (noMarks_forEach fun _ => noMarks_forEach fun _ => noMarks_lift _) fun _ => ?_
  refine noMarks_bind noMarks_writeBuckets fun _ => ?_
  refine noMarks_bind ?_ fun _ => ?_
  · unfold indexWriterInit
    split
    · exact fun _ => rfl
    · exact noMarks_storageGet _ _
  refine noMarks_bind (noMarks_forEach fun _ => noMarks_bind (noMarks_lift _) fun _ => noMarks_resWrite _ _) fun _ => ?_
  refine noMarks_bind (noMarks_bind (noMarks_resAddSize _) fun _ => noMarks_bind (noMarks_resAddPadding _) fun _ =>
    noMarks_resClose _) fun _ => ?_
  exact noMarks_writeRawData _ _ _

theorem setMultivector_core (path name : String) (it : StructType) (ts : List StructType) (schema : String)
    (value : List (List Obj)) (s : BState) : setMultivector path name it ts schema value s =
      (setMultivectorCore path name it ts schema value >>= fun _ => markWritten name >>= fun _ =>
        markWritten (name ++ "_index")) s := by
  unfold setMultivector setMultivectorCore
  simp only [BM.bind_run]
  repeat (first | rfl | split)

/-- Names a resource occupies in the list of written resources. -/
def markNames (name : String) : Sig → List String
  | .multivector .. => [name, name ++ "_index"]
  | _ => []

theorem setPayload_marks (path name : String) (sig : Sig) (value : Value) (s : BState) :
    (setPayload path name sig value s).2.written = s.written ++
      if (setPayload path name sig value s).1.isOk then markNames name sig else [] := by
  have plain : ∀ (m : BM Unit), NoMarks m → (m s).2.written = s.written ++ if (m s).1.isOk then [] else [] := by
    intro m hm; rw [hm s]; simp
  unfold setPayload
  split
  · exact plain _ (noMarks_bind (noMarks_lift _) fun _ => noMarks_bind (noMarks_lift _) fun _ => noMarks_resWrite _ _)
  · exact plain _ (noMarks_bind (noMarks_forEach fun _ => noMarks_lift _) fun _ =>
      noMarks_forEach fun _ => noMarks_bind (noMarks_lift _) fun _ => noMarks_resWrite _ _)
  · rename_i it ts sch o l
    have hs := setMultivector_core path name it ts sch l s
    show (setMultivector path name it ts sch l s).2.written = _ ++ if (setMultivector path name it ts sch l s).1.isOk then _ else _
    rw [hs]
    have hc := noMarks_core (path := path) (name := name) (it := it) (ts := ts) (schema := sch) (value := l) s
    cases h : setMultivectorCore path name it ts sch l s with
    | mk r s1 =>
      rw [h] at hc
      cases r with
      | error e => rw [BM.bind_err h]; simpa [Except.isOk, Except.toBool] using hc
      | ok u =>
        rw [BM.bind_ok h]
        simp only [BM.bind_run, markWritten, Except.isOk, Except.toBool, if_true, markNames]
        simp only at hc
        rw [hc]; simp
  · exact plain _ (noMarks_resWrite _ _)
  · simp [markNames]
  · simp [markNames]
  · simp [BM.raise, Except.isOk, Except.toBool]

/-- What a `set` marks as written: its resource if it succeeds; nothing if it fails, except that a multivector
that is too long for the size header has been marked already. -/
theorem setBody_marks_iff (path name : String) (sig : Sig) (value : Value) (s : BState) :
    ∃ w, (setBody path name sig value s).2.written = s.written ++ w ∧
      (∀ n ∈ w, n = name ∨ n ∈ markNames name sig) ∧
      ((setBody path name sig value s).1 ≠ .ok () → w = [] ∨
        ((setBody path name sig value s).1 = .error .overflowError ∧ w = markNames name sig)) := by
  unfold setBody
  have hw := noMarks_writeRawData path (name ++ ".schema") (encodeUtf8 sig.schema) s
  cases h1 : writeRawData path (name ++ ".schema") (encodeUtf8 sig.schema) s with
  | mk r1 s1 =>
  rw [h1] at hw
  cases r1 with
  | error e => rw [BM.bind_err h1]; exact ⟨[], by simpa using hw, by simp, fun _ => .inl rfl⟩
  | ok _ =>
  rw [BM.bind_ok h1]
  have hg := noMarks_storageGet path name s1
  cases h2 : storageGet path name s1 with
  | mk r2 s2 =>
  rw [h2] at hg
  simp only at hg hw
  cases r2 with
  | error e => rw [BM.bind_err h2]; exact ⟨[], by simp [hg, hw], by simp, fun _ => .inl rfl⟩
  | ok _ =>
  rw [BM.bind_ok h2]
  have hm := setPayload_marks path name sig value s2
  cases h3 : setPayload path name sig value s2 with
  | mk r3 s3 =>
  rw [h3] at hm
  cases r3 with
  | error e =>
    rw [BM.bind_err h3]
    refine ⟨[], ?_, by simp, fun _ => .inl rfl⟩
    simp only at hm ⊢; rw [hm, hg, hw]; simp [Except.isOk, Except.toBool]
  | ok _ =>
  rw [BM.bind_ok h3]
  simp only [Except.isOk, Except.toBool, if_true] at hm
  have h4w := noMarks_resAddSize name s3
  cases h4 : resAddSize name s3 with
  | mk r4 s4 =>
  rw [h4] at h4w
  simp only at h4w
  cases r4 with
  | error e =>
    rw [BM.bind_err h4]
    refine ⟨markNames name sig, by simp only; rw [h4w, hm, hg, hw], fun n hn => .inr hn, fun _ => .inr ⟨?_, rfl⟩⟩
    rw [resAddSize_def] at h4
    simp only [BM.bind_run, theRes, BM.lift_run] at h4
    unfold sizeHeader at h4
    rw [toBytes_unsigned] at h4
    split at h4
    · simp [putRes] at h4
    · rename_i e' s' hq
      simp only [Prod.mk.injEq] at h4 hq
      have he : e' = e := by have := h4.1; injection this
      subst he
      split at hq
      · have := hq.1; simp at this
      · have hh : Err.overflowError = e' := by have := hq.1; injection this
        rw [← hh]
  | ok _ =>
  rw [BM.bind_ok h4]
  obtain ⟨s5, h5, w5⟩ : ∃ s5, resAddPadding name s4 = (.ok (), s5) ∧ s5.written = s4.written := by
    simp only [resAddPadding, theRes, BM.bind_run]; exact ⟨_, rfl, rfl⟩
  rw [BM.bind_ok h5]
  obtain ⟨s6, h6⟩ := resClose_isOk name s5
  have w6 := noMarks_resClose name s5
  rw [h6] at w6
  rw [BM.bind_ok h6]
  simp only at w6
  refine ⟨markNames name sig ++ [name], ?_, ?_, by simp [markWritten]⟩
  · simp only [markWritten]; rw [w6, w5, h4w, hm, hg, hw]; simp
  · intro n hn; simp at hn; tauto

end Model
