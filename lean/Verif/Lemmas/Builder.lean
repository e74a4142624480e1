import Verif.Spec.Calls

namespace Model
open Py

/-! ## Dictionaries -/

theorem lookup_dictSet {α} (d : List (String × α)) (k k' : String) (v : α) :
    (dictSet d k v).lookup k' = if k' = k then some v else d.lookup k' := by
  induction d with
  | nil =>
    by_cases h : k' = k
    · simp [dictSet, h]
    · have : (k' == k) = false := by simpa using h
      simp [dictSet, h]
  | cons p d ih =>
    obtain ⟨a, b⟩ := p
    simp only [dictSet]
    by_cases ha : a = k
    · subst ha
      by_cases h : k' = a
      · subst h; simp
      · have : (k' == a) = false := by simpa using h
        simp [List.lookup_cons, this, h]
    · simp only [ha, if_false, List.lookup_cons, ih]
      by_cases h : k' = a
      · subst h; simp [ha]
      · have : (k' == a) = false := by simpa using h
        simp [this]

/-! ## Running builder operations -/

@[simp] theorem BM.bind_run {α β} (x : BM α) (f : α → BM β) (s : BState) :
    (x >>= f) s = match x s with | (.ok a, s') => f a s' | (.error e, s') => (.error e, s') := rfl

@[simp] theorem BM.pure_run {α} (a : α) (s : BState) : (pure a : BM α) s = (.ok a, s) := rfl
@[simp] theorem BM.lift_run {α} (x : M α) (s : BState) : BM.lift x s = (x, s) := rfl
@[simp] theorem BM.raise_run {α} (e : Err) (s : BState) : (BM.raise e : BM α) s = (.error e, s) := rfl

theorem BM.bind_ok {α β} {x : BM α} {f : α → BM β} {s s' : BState} {a : α} (h : x s = (.ok a, s')) :
    (x >>= f) s = f a s' := by simp [h]

theorem BM.bind_err {α β} {x : BM α} {f : α → BM β} {s s' : BState} {e : Err} (h : x s = (.error e, s')) :
    (x >>= f) s = (.error e, s') := by simp [h]

theorem theRes_run {name : String} {s : BState} {r : Res} (h : s.store.lookup name = some r) :
    theRes name s = (.ok r, s) := by simp [theRes, h]

/-! ## Frame property: which files, marks and store entries an operation can touch -/

def FsOp.file : FsOp → String
  | .openWb n => n
  | .write n _ => n

/-- `m` touches only the names in `F`, and only appends to the history. -/
def Touches (F : List String) {α : Type} (m : BM α) : Prop :=
  ∀ s, ∃ ops' w', (m s).2.ops = s.ops ++ ops' ∧ (∀ op ∈ ops', op.file ∈ F) ∧
    (m s).2.written = s.written ++ w' ∧ (∀ n ∈ w', n ∈ F) ∧
    ∀ n, n ∉ F → (m s).2.store.lookup n = s.store.lookup n

theorem touches_id {F : List String} {α} {m : BM α} (h : ∀ s, (m s).2 = s) : Touches F m := by
  intro s; exact ⟨[], [], by simp [h]⟩

theorem touches_pure {F : List String} {α} (a : α) : Touches F (pure a : BM α) := touches_id fun _ => rfl
theorem touches_lift {F : List String} {α} (a : M α) : Touches F (BM.lift a) := touches_id fun _ => rfl
theorem touches_raise {F : List String} {α} (e : Err) : Touches F (BM.raise e : BM α) := touches_id fun _ => rfl
theorem touches_theRes {F : List String} (n : String) : Touches F (theRes n) := touches_id fun _ => rfl

theorem touches_bind {F : List String} {α β} {m : BM α} {f : α → BM β} (hm : Touches F m)
    (hf : ∀ a, Touches F (f a)) : Touches F (m >>= f) := by
  intro s
  obtain ⟨o1, w1, h1, h2, h3, h4, h5⟩ := hm s
  simp only [BM.bind_run]
  cases hr : m s with
  | mk r s' =>
    rw [hr] at h1 h3 h5
    cases r with
    | error e => exact ⟨o1, w1, h1, h2, h3, h4, h5⟩
    | ok a =>
      obtain ⟨o2, w2, g1, g2, g3, g4, g5⟩ := hf a s'
      refine ⟨o1 ++ o2, w1 ++ w2, ?_, ?_, ?_, ?_, ?_⟩
      · simp only at h1; simp only; rw [g1, h1, List.append_assoc]
      · intro op hop; rcases List.mem_append.mp hop with h | h
        · exact h2 op h
        · exact g2 op h
      · simp only at h3; simp only; rw [g3, h3, List.append_assoc]
      · intro n hn; rcases List.mem_append.mp hn with h | h
        · exact h4 n h
        · exact g4 n h
      · intro n hn; simp only at h5; simp only; rw [g5 n hn, h5 n hn]

theorem touches_emit {F : List String} {op : FsOp} (h : op.file ∈ F) : Touches F (emit op) := by
  intro s
  exact ⟨[op], [], rfl, by simpa using h, by simp [emit], by simp, fun n _ => rfl⟩

theorem touches_putRes {F : List String} {n : String} (r : Res) (h : n ∈ F) : Touches F (putRes n r) := by
  intro s
  refine ⟨[], [], by simp [putRes], by simp, by simp [putRes], by simp, fun m hm => ?_⟩
  simp only [putRes, lookup_dictSet]
  rw [if_neg]; rintro rfl; exact hm h

theorem touches_mark {F : List String} {n : String} (h : n ∈ F) : Touches F (markWritten n) := by
  intro s
  exact ⟨[], [n], by simp [markWritten], by simp, rfl, by simpa using h, fun m _ => rfl⟩

theorem touches_forEach {F : List String} {α} {l : List α} {f : α → BM Unit} (h : ∀ a, Touches F (f a)) :
    Touches F (forEach l f) := by
  induction l with
  | nil => exact touches_pure ()
  | cons a l ih => exact touches_bind (h a) fun _ => ih

theorem touches_storageGet {F : List String} {path n : String} (h : n ∈ F) : Touches F (storageGet path n) := by
  unfold storageGet
  split
  · exact touches_raise _
  · split
    · exact touches_raise _
    · exact touches_bind (touches_emit h) fun _ => touches_putRes _ h

theorem touches_resWrite {F : List String} {n : String} {d : Bytes} (h : n ∈ F) : Touches F (resWrite n d) :=
  touches_bind (touches_theRes n) fun _ => touches_putRes _ h

theorem touches_resAddSize {F : List String} {n : String} (h : n ∈ F) : Touches F (resAddSize n) :=
  touches_bind (touches_theRes n) fun _ => touches_bind (touches_lift _) fun _ => touches_putRes _ h

theorem touches_resAddPadding {F : List String} {n : String} (h : n ∈ F) : Touches F (resAddPadding n) :=
  touches_bind (touches_theRes n) fun _ => touches_putRes _ h

theorem touches_resClose {F : List String} {n : String} (h : n ∈ F) : Touches F (resClose n) := by
  refine touches_bind (touches_theRes n) fun r => ?_
  split
  · exact touches_putRes _ h
  · exact touches_bind (touches_emit h) fun _ => touches_putRes _ h

theorem touches_writeRawData {F : List String} {path n : String} {d : Bytes} (h : n ∈ F) :
    Touches F (writeRawData path n d) :=
  touches_bind (touches_storageGet h) fun _ => touches_bind (touches_resWrite h) fun _ => touches_resClose h

theorem touches_writeBucket {F : List String} {n : String} {ts : List StructType} {objs : List Obj} {dp : Nat}
    (h : n ∈ F) : Touches F (writeBucket n ts objs dp) := by
  induction objs generalizing dp with
  | nil => exact touches_pure _
  | cons o os ih =>
    exact touches_bind (touches_bind (touches_lift _) fun _ => touches_bind (touches_resWrite h) fun _ =>
      touches_pure _) fun _ => ih

theorem touches_writeBuckets {F : List String} {n : String} {ts : List StructType} {bs : List (List Obj)}
    {dp : Nat} (h : n ∈ F) : Touches F (writeBuckets n ts bs dp) := by
  induction bs generalizing dp with
  | nil => exact touches_pure _
  | cons o os ih =>
    exact touches_bind (touches_writeBucket h) fun _ => touches_bind ih fun _ => touches_pure _

/-- The files a `set` of resource `name` can touch. -/
def ownFiles (name : String) : List String :=
  [name, name ++ ".schema", name ++ "_index", name ++ "_index.schema"]

theorem touches_setMultivector {F : List String} {path n : String} {it : StructType} {ts : List StructType}
    {sch : String} {bs : List (List Obj)} (h1 : n ∈ F) (h2 : n ++ "_index" ∈ F)
    (h3 : n ++ "_index.schema" ∈ F) : Touches F (setMultivector path n it ts sch bs) := by
  refine touches_bind (touches_forEach fun _ => touches_forEach fun _ => touches_lift _) fun _ => ?_
  refine touches_bind (touches_writeBuckets h1) fun _ => ?_
  refine touches_bind ?_ fun _ => ?_
  · unfold indexWriterInit; split
    · exact touches_raise _
    · exact touches_storageGet h2
  refine touches_bind (touches_forEach fun _ => touches_bind (touches_lift _) fun _ => touches_resWrite h2) fun _ => ?_
  refine touches_bind (touches_bind (touches_resAddSize h2) fun _ => touches_bind (touches_resAddPadding h2) fun _ =>
    touches_resClose h2) fun _ => ?_
  exact touches_bind (touches_writeRawData h3) fun _ => touches_bind (touches_mark h1) fun _ => touches_mark h2

theorem touches_setPayload {F : List String} {path n : String} {sig : Sig} {v : Value} (h1 : n ∈ F)
    (hmv : ∀ it ts sch o, sig = .multivector it ts sch o → n ++ "_index" ∈ F ∧ n ++ "_index.schema" ∈ F) :
    Touches F (setPayload path n sig v) := by
  unfold setPayload
  split
  · exact touches_bind (touches_lift _) fun _ => touches_bind (touches_lift _) fun _ => touches_resWrite h1
  · exact touches_bind (touches_forEach fun _ => touches_lift _) fun _ =>
      touches_forEach fun _ => touches_bind (touches_lift _) fun _ => touches_resWrite h1
  · obtain ⟨h2, h3⟩ := hmv _ _ _ _ rfl
    exact touches_setMultivector h1 h2 h3
  · exact touches_resWrite h1
  · exact touches_pure _
  · exact touches_pure _
  · exact touches_raise _

theorem touches_setBody {F : List String} {path n : String} {sig : Sig} {v : Value} (h1 : n ∈ F)
    (h2 : n ++ ".schema" ∈ F)
    (hmv : ∀ it ts sch o, sig = .multivector it ts sch o → n ++ "_index" ∈ F ∧ n ++ "_index.schema" ∈ F) :
    Touches F (setBody path n sig v) :=
  touches_bind (touches_writeRawData h2) fun _ => touches_bind (touches_storageGet h1) fun _ =>
  touches_bind (touches_setPayload h1 hmv) fun _ =>
  touches_bind (touches_resAddSize h1) fun _ => touches_bind (touches_resAddPadding h1) fun _ =>
  touches_bind (touches_resClose h1) fun _ => touches_mark h1


theorem touches_set_filesOf {path n : String} {sig : Sig} {v : Value} :
    Touches (Spec.ownedFiles n sig) (setBody path n sig v) := by
  apply touches_setBody
  · cases sig <;> simp [Spec.ownedFiles]
  · cases sig <;> simp [Spec.ownedFiles]
  · rintro it ts sch o rfl; simp [Spec.ownedFiles]

/-! ## Independence: an operation does not depend on the history -/

/-- Two states that differ only in their past: common suffix of the histories, same store entries on
`N`. -/
structure Related (o1 o2 : List FsOp) (w1 w2 : List String) (N : List String) (s1 s2 : BState) : Prop where
  ops : ∃ x, s1.ops = o1 ++ x ∧ s2.ops = o2 ++ x
  written : ∃ y, s1.written = w1 ++ y ∧ s2.written = w2 ++ y
  store : ∀ n ∈ N, s1.store.lookup n = s2.store.lookup n

/-- `m` behaves the same on related states and afterwards also has related entries on `N'`. -/
def Sim (N N' : List String) {α : Type} (m : BM α) : Prop :=
  ∀ o1 o2 w1 w2 s1 s2, Related o1 o2 w1 w2 N s1 s2 → (m s1).1 = (m s2).1 ∧
    Related o1 o2 w1 w2 N (m s1).2 (m s2).2 ∧
    ((m s1).1.isOk → Related o1 o2 w1 w2 N' (m s1).2 (m s2).2)

theorem sim_stateless {N : List String} {α} {m : BM α} (r : M α) (h : ∀ s, m s = (r, s)) : Sim N N m := by
  intro o1 o2 w1 w2 s1 s2 hr
  rw [h, h]; exact ⟨rfl, hr, fun _ => hr⟩

theorem sim_pure {N : List String} {α} (a : α) : Sim N N (pure a : BM α) := sim_stateless (.ok a) fun _ => rfl
theorem sim_lift {N : List String} {α} (a : M α) : Sim N N (BM.lift a) := sim_stateless a fun _ => rfl
theorem sim_raise {N N' : List String} {α} (e : Err) : Sim N N' (BM.raise e : BM α) := by
  intro o1 o2 w1 w2 s1 s2 hr
  exact ⟨rfl, hr, fun h => by simp [Except.isOk, Except.toBool] at h⟩

theorem sim_bind {N N' N'' : List String} {α β} {m : BM α} {f : α → BM β} (hm : Sim N N' m)
    (hf : ∀ a, Sim N' N'' (f a)) (hsub : ∀ n ∈ N, n ∈ N') : Sim N N'' (m >>= f) := by
  intro o1 o2 w1 w2 s1 s2 hr
  obtain ⟨h1, h2, h3⟩ := hm o1 o2 w1 w2 s1 s2 hr
  simp only [BM.bind_run]
  cases e1 : m s1 with
  | mk r1 t1 =>
    cases e2 : m s2 with
    | mk r2 t2 =>
      rw [e1, e2] at h1 h2 h3
      simp only at h1 h2 h3
      subst h1
      cases r1 with
      | error e => exact ⟨rfl, h2, fun h => by simp [Except.isOk, Except.toBool] at h⟩
      | ok a =>
        obtain ⟨g1, g2, g3⟩ := hf a o1 o2 w1 w2 t1 t2 (h3 (by simp [Except.isOk, Except.toBool]))
        exact ⟨g1, ⟨g2.ops, g2.written, fun n hn => g2.store n (hsub n hn)⟩, g3⟩

theorem sim_theRes {N : List String} {n : String} (h : n ∈ N) : Sim N N (theRes n) := by
  intro o1 o2 w1 w2 s1 s2 hr
  refine ⟨?_, hr, fun _ => hr⟩
  simp only [theRes, hr.store n h]

theorem sim_emit {N : List String} (op : FsOp) : Sim N N (emit op) := by
  intro o1 o2 w1 w2 s1 s2 hr
  obtain ⟨x, hx1, hx2⟩ := hr.ops
  have : Related o1 o2 w1 w2 N (emit op s1).2 (emit op s2).2 :=
    ⟨⟨x ++ [op], by simp [emit, hx1], by simp [emit, hx2]⟩, hr.written, hr.store⟩
  exact ⟨rfl, this, fun _ => this⟩

theorem sim_putRes {N : List String} (n : String) (r : Res) : Sim N (n :: N) (putRes n r) := by
  intro o1 o2 w1 w2 s1 s2 hr
  have h : Related o1 o2 w1 w2 (n :: N) (putRes n r s1).2 (putRes n r s2).2 := by
    refine ⟨hr.ops, hr.written, fun m hm => ?_⟩
    simp only [putRes, lookup_dictSet]
    by_cases he : m = n
    · simp [he]
    · simp only [he, if_false]
      exact hr.store m ((List.mem_cons.mp hm).resolve_left he)
  exact ⟨rfl, ⟨h.ops, h.written, fun m hm => h.store m (by simp [hm])⟩, fun _ => h⟩

theorem sim_weaken {N N' N'' : List String} {α} {m : BM α} (h : Sim N N' m) (hs : ∀ n ∈ N'', n ∈ N') :
    Sim N N'' m := by
  intro o1 o2 w1 w2 s1 s2 hr
  obtain ⟨h1, h2, h3⟩ := h o1 o2 w1 w2 s1 s2 hr
  exact ⟨h1, h2, fun hk => ⟨(h3 hk).ops, (h3 hk).written, fun n hn => (h3 hk).store n (hs n hn)⟩⟩

theorem sim_putRes' {N : List String} (n : String) (r : Res) : Sim N N (putRes n r) :=
  sim_weaken (sim_putRes n r) fun _ h => by simp [h]

theorem sim_mark {N : List String} (n : String) : Sim N N (markWritten n) := by
  intro o1 o2 w1 w2 s1 s2 hr
  obtain ⟨x, hx1, hx2⟩ := hr.written
  have : Related o1 o2 w1 w2 N (markWritten n s1).2 (markWritten n s2).2 :=
    ⟨hr.ops, ⟨x ++ [n], by simp [markWritten, hx1], by simp [markWritten, hx2]⟩, hr.store⟩
  exact ⟨rfl, this, fun _ => this⟩

theorem sim_then {N : List String} {α β} {m : BM α} {f : α → BM β} (hm : Sim N N m)
    (hf : ∀ a, Sim N N (f a)) : Sim N N (m >>= f) := sim_bind hm hf fun _ h => h

theorem sim_forEach {N : List String} {α} {l : List α} {f : α → BM Unit} (h : ∀ a, Sim N N (f a)) :
    Sim N N (forEach l f) := by
  induction l with
  | nil => exact sim_pure ()
  | cons a l ih => exact sim_then (h a) fun _ => ih

theorem sim_storageGet {N : List String} {path n : String} : Sim N (n :: N) (storageGet path n) := by
  unfold storageGet
  split
  · exact sim_raise _
  · split
    · exact sim_raise _
    · exact sim_bind (sim_emit _) (fun _ => sim_putRes _ _) fun _ h => h

theorem sim_resWrite {N : List String} {n : String} {d : Bytes} (h : n ∈ N) : Sim N N (resWrite n d) :=
  sim_then (sim_theRes h) fun _ => sim_putRes' _ _

theorem sim_resAddSize {N : List String} {n : String} (h : n ∈ N) : Sim N N (resAddSize n) :=
  sim_then (sim_theRes h) fun _ => sim_then (sim_lift _) fun _ => sim_putRes' _ _

theorem sim_resAddPadding {N : List String} {n : String} (h : n ∈ N) : Sim N N (resAddPadding n) :=
  sim_then (sim_theRes h) fun _ => sim_putRes' _ _

theorem sim_resClose {N : List String} {n : String} (h : n ∈ N) : Sim N N (resClose n) := by
  refine sim_then (sim_theRes h) fun r => ?_
  split
  · exact sim_putRes' _ _
  · exact sim_then (sim_emit _) fun _ => sim_putRes' _ _

theorem sim_writeRawData {N : List String} {path n : String} {d : Bytes} : Sim N N (writeRawData path n d) :=
  sim_weaken (sim_bind sim_storageGet (fun _ => sim_then (sim_resWrite (by simp)) fun _ => sim_resClose (by simp))
    fun _ h => by simp [h]) (N' := n :: N) fun _ h => by simp [h]

theorem sim_writeBucket {N : List String} {n : String} {ts : List StructType} {objs : List Obj} {dp : Nat}
    (h : n ∈ N) : Sim N N (writeBucket n ts objs dp) := by
  induction objs generalizing dp with
  | nil => exact sim_pure _
  | cons o os ih =>
    exact sim_then (sim_then (sim_lift _) fun _ => sim_then (sim_resWrite h) fun _ => sim_pure _) fun _ => ih

theorem sim_writeBuckets {N : List String} {n : String} {ts : List StructType} {bs : List (List Obj)} {dp : Nat}
    (h : n ∈ N) : Sim N N (writeBuckets n ts bs dp) := by
  induction bs generalizing dp with
  | nil => exact sim_pure _
  | cons o os ih => exact sim_then (sim_writeBucket h) fun _ => sim_then ih fun _ => sim_pure _

theorem sim_setMultivector {N : List String} {path n : String} {it : StructType} {ts : List StructType}
    {sch : String} {bs : List (List Obj)} (h : n ∈ N) : Sim N N (setMultivector path n it ts sch bs) := by
  refine sim_then (sim_forEach fun _ => sim_forEach fun _ => sim_lift _) fun _ => ?_
  refine sim_then (sim_writeBuckets h) fun _ => ?_
  have hi : Sim N ((n ++ "_index") :: N) (indexWriterInit path n it.sizeInBytes) := by
    unfold indexWriterInit; split
    · exact sim_raise _
    · exact sim_storageGet
  refine sim_weaken (N' := (n ++ "_index") :: N) (sim_bind hi (fun _ => ?_) fun _ h => by simp [h])
    fun _ h => by simp [h]
  refine sim_then (sim_forEach fun _ => sim_then (sim_lift _) fun _ => sim_resWrite (by simp)) fun _ => ?_
  refine sim_then (sim_then (sim_resAddSize (by simp)) fun _ => sim_then (sim_resAddPadding (by simp)) fun _ =>
    sim_resClose (by simp)) fun _ => ?_
  exact sim_then sim_writeRawData fun _ => sim_then (sim_mark _) fun _ => sim_mark _

theorem sim_setPayload {N : List String} {path n : String} {sig : Sig} {v : Value} (h : n ∈ N) :
    Sim N N (setPayload path n sig v) := by
  unfold setPayload
  split
  · exact sim_then (sim_lift _) fun _ => sim_then (sim_lift _) fun _ => sim_resWrite h
  · exact sim_then (sim_forEach fun _ => sim_lift _) fun _ =>
      sim_forEach fun _ => sim_then (sim_lift _) fun _ => sim_resWrite h
  · exact sim_setMultivector h
  · exact sim_resWrite h
  · exact sim_pure _
  · exact sim_pure _
  · exact sim_raise _

theorem sim_setBody {N : List String} {path n : String} {sig : Sig} {v : Value} : Sim N N (setBody path n sig v) := by
  refine sim_then sim_writeRawData fun _ => ?_
  refine sim_weaken (N' := n :: N) (sim_bind sim_storageGet (fun _ => ?_) fun _ h => by simp [h]) fun _ h => by simp [h]
  refine sim_then (sim_setPayload (by simp)) fun _ => ?_
  exact sim_then (sim_resAddSize (by simp)) fun _ => sim_then (sim_resAddPadding (by simp)) fun _ =>
    sim_then (sim_resClose (by simp)) fun _ => sim_mark _

/-- On states with the same entry for `m`, `set` leaves the same entry for `m`. -/
theorem setBody_store {path n : String} {sig : Sig} {v : Value} {s s' : BState} {m : String}
    (h : s.store.lookup m = s'.store.lookup m) :
    (setBody path n sig v s).2.store.lookup m = (setBody path n sig v s').2.store.lookup m := by
  obtain ⟨-, h2, -⟩ := sim_setBody (N := [m]) (path := path) (n := n) (sig := sig) (v := v) s.ops s'.ops s.written s'.written s s'
    ⟨⟨[], by simp⟩, ⟨[], by simp⟩, by simpa using h⟩
  exact h2.store m (by simp)

/-- `set` (past its two checks) always does the same, whatever happened before. -/
theorem setBody_indep (path n : String) (sig : Sig) (v : Value) :
    ∃ (r : M Unit) (ops : List FsOp) (w : List String), ∀ s,
      (setBody path n sig v s).1 = r ∧ (setBody path n sig v s).2.ops = s.ops ++ ops ∧
      (setBody path n sig v s).2.written = s.written ++ w := by
  refine ⟨(setBody path n sig v BState.initial).1, (setBody path n sig v BState.initial).2.ops,
    (setBody path n sig v BState.initial).2.written, fun s => ?_⟩
  obtain ⟨h1, h2, -⟩ := sim_setBody (N := []) (path := path) (n := n) (sig := sig) (v := v) s.ops [] s.written [] s
    BState.initial ⟨⟨[], by simp [BState.initial]⟩, ⟨[], by simp [BState.initial]⟩, by simp⟩
  obtain ⟨x, hx1, hx2⟩ := h2.ops
  obtain ⟨y, hy1, hy2⟩ := h2.written
  exact ⟨h1, by rw [hx1, hx2]; simp, by rw [hy1, hy2]; simp⟩

end Model
