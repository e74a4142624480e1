import Verif.Props.Frame

/-! Builder histories: files, closed resources, marks. -/

namespace Model
open Py Spec Props

/-! ## Files after a history, pointwise -/

theorem replay_cons (f : Files) (op : FsOp) (ops : List FsOp) : replay f (op :: ops) = replay (applyOp f op) ops := rfl

theorem applyOp_at {f g : Files} {n : String} (h : f n = g n) (op : FsOp) : applyOp f op n = applyOp g op n := by
  cases op with
  | openWb m => simp only [applyOp]; split
                · rfl
                · exact h
  | write m d =>
    simp only [applyOp]; split
    · rename_i e; subst e; rw [h]
    · exact h

theorem applyOp_other {f : Files} {op : FsOp} {n : String} (h : op.file ≠ n) : applyOp f op n = f n := by
  cases op with
  | openWb m => exact if_neg (fun e => h e.symm)
  | write m d => exact if_neg (fun e => h e.symm)

theorem replay_at {f g : Files} {n : String} (h : f n = g n) (ops : List FsOp) : replay f ops n = replay g ops n := by
  induction ops generalizing f g with
  | nil => exact h
  | cons op ops ih => rw [replay_cons, replay_cons]; exact ih (applyOp_at h op)

/-- Only the operations on a file matter for its contents. -/
theorem replay_filter (f : Files) (ops : List FsOp) (n : String) :
    replay f ops n = replay f (ops.filter fun op => op.file = n) n := by
  induction ops generalizing f with
  | nil => rfl
  | cons op ops ih =>
    rw [replay_cons, ih]
    by_cases h : op.file = n
    · rw [List.filter_cons_of_pos (by simpa using h)]; rfl
    · rw [List.filter_cons_of_neg (by simpa using h)]
      exact replay_at (applyOp_other h) _

/-- Two histories with the same operations on a file leave it with the same contents. -/
theorem replay_filter_eq (f : Files) {a b : List FsOp} {n : String}
    (h : a.filter (fun op => op.file = n) = b.filter fun op => op.file = n) : replay f a n = replay f b n := by
  rw [replay_filter, h, ← replay_filter]

/-- The first operation on `n` truncates it. -/
def Resets (n : String) (ops : List FsOp) : Prop :=
  ∃ a b, ops = a ++ .openWb n :: b ∧ ∀ op ∈ a, op.file ≠ n

theorem Resets.replay {n : String} {ops : List FsOp} (h : Resets n ops) (f g : Files) :
    replay f ops n = replay g ops n := by
  obtain ⟨a, b, rfl, -⟩ := h
  rw [replay_append, replay_append, replay_cons, replay_cons]
  apply replay_at
  simp [applyOp]

/-! ## Files of one successful `set` -/

/-- The contents a successful `set` leaves in its files: payload, schema, and for multivectors index and
index schema. -/
def SetFiles (name : String) (sig : Sig) (p ip : Bytes) (g : Files) : Prop :=
  g name = some (frame p) ∧ g (name ++ ".schema") = some (encodeUtf8 sig.schema) ∧
  ∀ it ts sch o, sig = .multivector it ts sch o → g (name ++ "_index") = some (frame ip) ∧
    g (name ++ "_index.schema") = some (encodeUtf8 ("index(" ++ sch ++ ")"))

theorem writeOps_replay (f : Files) (n : String) (d : Bytes) :
    replay f (.openWb n :: writeOps n d) n = some d := by
  unfold writeOps
  split
  · rename_i h; subst h; simp [replay, applyOp]
  · simp [replay, applyOp]

/-- The operations of a successful `set`, as a list. -/
def setOps (name : String) (sig : Sig) (mid : List FsOp) (p : Bytes) : List FsOp :=
  (.openWb (name ++ ".schema") :: writeOps (name ++ ".schema") (encodeUtf8 sig.schema)) ++ [.openWb name] ++ mid ++
    [.write name (frame p)]

theorem setOps_files {name : String} {sig : Sig} {mid : List FsOp} {p : Bytes} (hm : MidOps name sig mid) :
    ∃ ip, ∀ f, SetFiles name sig p ip (replay f (setOps name sig mid p)) := by
  have hmid := midOps_files hm
  have hne : ∀ c, c ≠ "" → name ++ c ≠ name := fun c hc => (str_ne_append name c hc).symm
  have hname : ∀ f, replay f (setOps name sig mid p) name = some (frame p) := fun f => by
    have := replay_open_write f (.openWb (name ++ ".schema") :: writeOps (name ++ ".schema") (encodeUtf8 sig.schema))
      mid [] name (frame p) (fun op hop => by
          rcases hmid op hop with e | e <;> rw [e] <;> exact hne _ (by decide)) (by simp)
    simpa [setOps] using this
  have hschema : ∀ f, replay f (setOps name sig mid p) (name ++ ".schema") = some (encodeUtf8 sig.schema) := fun f => by
    unfold setOps
    rw [List.append_assoc, List.append_assoc, replay_append, replay_untouched]
    · exact writeOps_replay _ _ _
    · intro op hop
      simp only [List.cons_append, List.nil_append, List.mem_cons, List.mem_append, List.not_mem_nil, or_false] at hop
      rcases hop with rfl | hop | rfl
      · exact (hne _ (by decide)).symm
      · rcases hmid op hop with e | e <;> rw [e] <;> exact append_ne_append (by decide)
      · exact (hne _ (by decide)).symm
  cases sig with
  | multivector it ts sch o =>
    obtain ⟨ip, -, rfl⟩ := hm
    refine ⟨ip, fun f => ⟨hname f, hschema f, ?_⟩⟩
    rintro it' ts' sch' o' he
    cases he
    constructor
    · have := replay_open_write f ((.openWb (name ++ ".schema") :: writeOps (name ++ ".schema") (encodeUtf8 sch))
        ++ [.openWb name]) [] ((.openWb (name ++ "_index.schema") ::
          writeOps (name ++ "_index.schema") (encodeUtf8 ("index(" ++ sch ++ ")"))) ++ [.write name (frame p)])
        (name ++ "_index") (frame ip) (by simp) (fun op hop => by
        simp only [List.cons_append, List.mem_cons, List.mem_append, List.not_mem_nil, or_false] at hop
        rcases hop with rfl | hop | rfl
        · exact append_ne_append (by decide)
        · rw [writeOps_mem hop]; exact append_ne_append (by decide)
        · exact str_ne_append name _ (by decide))
      simpa [setOps, Sig.schema] using this
    · unfold setOps
      rw [replay_append, replay_untouched]
      · rw [← List.append_assoc, replay_append]
        exact writeOps_replay _ _ _
      · intro op hop
        simp only [List.mem_cons, List.not_mem_nil, or_false] at hop
        subst hop; exact str_ne_append name _ (by decide)
  | _ => exact ⟨[], fun f => ⟨hname f, hschema f, fun _ _ _ _ h => by simp at h⟩⟩

theorem setOps_resets {name : String} {sig : Sig} {mid : List FsOp} {p : Bytes} (hm : MidOps name sig mid) :
    ∀ n ∈ Spec.ownedFiles name sig, ∀ f g, replay f (setOps name sig mid p) n = replay g (setOps name sig mid p) n := by
  obtain ⟨ip, h⟩ := setOps_files (p := p) hm
  intro n hn f g
  obtain ⟨f1, f2, f3⟩ := h f
  obtain ⟨g1, g2, g3⟩ := h g
  cases sig with
  | multivector it ts sch o =>
    obtain ⟨f3, f4⟩ := f3 _ _ _ _ rfl
    obtain ⟨g3, g4⟩ := g3 _ _ _ _ rfl
    simp only [Spec.ownedFiles, List.mem_cons, List.not_mem_nil, or_false] at hn
    rcases hn with rfl | rfl | rfl | rfl
    · rw [f1, g1]
    · rw [f2, g2]
    · rw [f3, g3]
    · rw [f4, g4]
  | _ =>
    simp only [Spec.ownedFiles, List.mem_cons, List.not_mem_nil, or_false] at hn
    rcases hn with rfl | rfl
    · rw [f1, g1]
    · rw [f2, g2]

/-! ## Closed resources -/

/-- No resource object of that name is open. -/
def Closed (s : BState) (n : String) : Prop := ∀ r, s.store.lookup n = some r → r.valid = false

theorem Touches.closed {F : List String} {α} {m : BM α} (h : Touches F m) {s : BState} {n : String} (hn : n ∉ F)
    (hc : Closed s n) : Closed (m s).2 n := by
  obtain ⟨_, _, -, -, -, -, hs⟩ := h s
  intro r hr
  rw [hs n hn] at hr
  exact hc r hr

theorem writeRawData_closed {path name : String} {d : Bytes} {s s' : BState}
    (h : writeRawData path name d s = (.ok (), s')) : Closed s' name := by
  obtain ⟨hp, hn⟩ := writeRawData_inv h
  obtain ⟨_, e, -, -, l, -⟩ := writeRawData_ok hp hn d s
  rw [h] at e; cases e
  intro r hr; rw [l] at hr; cases hr; rfl

theorem setMultivector_closed {path name : String} {it : StructType} {ts : List StructType} {sch : String}
    {value : List (List Obj)} {s s' : BState} (h : setMultivector path name it ts sch value s = (.ok (), s')) :
    Closed s' (name ++ "_index") ∧ Closed s' (name ++ "_index.schema") := by
  unfold setMultivector at h
  obtain ⟨_, s1, e1, h⟩ := BM.bind_inv h
  obtain ⟨pts, s2, e2, h⟩ := BM.bind_inv h
  obtain ⟨_, s3, e3, h⟩ := BM.bind_inv h
  obtain ⟨_, s4, e4, h⟩ := BM.bind_inv h
  obtain ⟨_, s5, e5, h⟩ := BM.bind_inv h
  unfold indexWriterFinish at e5
  obtain ⟨_, t1, f1, e5⟩ := BM.bind_inv e5
  obtain ⟨_, t2, f2, f3⟩ := BM.bind_inv e5
  obtain ⟨ip, hip, -, o5, -, ⟨v, hv, hv'⟩, -⟩ := closeFramed_inv f1 f2 f3
  have c5 : Closed s5 (name ++ "_index") := by intro r hr; rw [hv] at hr; cases hr; exact hv'
  obtain ⟨_, s6, e6, h⟩ := BM.bind_inv h
  have c6 := writeRawData_closed e6
  have c6' : Closed s6 (name ++ "_index") := by
    have := (touches_writeRawData (F := [name ++ "_index.schema"]) (path := path) (n := name ++ "_index.schema")
      (d := encodeUtf8 ("index(" ++ sch ++ ")")) (by simp)).closed (s := s5) (n := name ++ "_index")
      (by simp only [List.mem_singleton]; exact append_ne_append (by decide)) c5
    rw [e6] at this; exact this
  obtain ⟨_, s7, e7, h⟩ := BM.bind_inv h
  simp only [markWritten, Prod.mk.injEq, true_and] at e7 h
  subst e7; subst h
  exact ⟨c6', c6⟩

theorem setBody_closed {path name : String} {sig : Sig} {value : Value} {s s' : BState}
    (h : setBody path name sig value s = (.ok (), s')) : Closed s' name ∧ Closed s' (name ++ ".schema") ∧
    (∀ it ts sch o, sig = .multivector it ts sch o → Closed s' (name ++ "_index") ∧ Closed s' (name ++ "_index.schema")) := by
  unfold setBody at h
  obtain ⟨_, s1, e1, h⟩ := BM.bind_inv h
  have c1 := writeRawData_closed e1
  obtain ⟨_, s2, e2, h⟩ := BM.bind_inv h
  have hne : ∀ c, c ≠ "" → name ++ c ≠ name := fun c hc => (str_ne_append name c hc).symm
  have c2 : Closed s2 (name ++ ".schema") := by
    have := (touches_storageGet (F := [name]) (path := path) (n := name) (by simp)).closed (s := s1)
      (n := name ++ ".schema") (by simp only [List.mem_singleton]; exact hne _ (by decide)) c1
    rw [e2] at this; exact this
  obtain ⟨_, s3, e3, h⟩ := BM.bind_inv h
  have c3 : Closed s3 (name ++ ".schema") := by
    have := (touches_setPayload (F := [name, name ++ "_index", name ++ "_index.schema"]) (path := path) (n := name)
      (sig := sig) (v := value) (by simp) (by intros; simp)).closed (s := s2) (n := name ++ ".schema") (by
        simp only [List.mem_cons, List.not_mem_nil, or_false, not_or]
        exact ⟨hne _ (by decide), append_ne_append (by decide), append_ne_append (by decide)⟩) c2
    rw [e3] at this; exact this
  have c3' : ∀ it ts sch o, sig = .multivector it ts sch o →
      Closed s3 (name ++ "_index") ∧ Closed s3 (name ++ "_index.schema") := by
    rintro it ts sch o rfl
    cases value with
    | buckets l => exact setMultivector_closed (show setMultivector path name it ts sch l s2 = _ from e3)
    | _ => exact absurd e3 (by simp [setPayload])
  obtain ⟨_, t1, f1, h⟩ := BM.bind_inv h
  obtain ⟨_, t2, f2, h⟩ := BM.bind_inv h
  obtain ⟨_, t3, f3, h⟩ := BM.bind_inv h
  obtain ⟨p, hpl, -, o4, -, ⟨v, hv, hv'⟩, ho⟩ := closeFramed_inv f1 f2 f3
  simp only [markWritten, Prod.mk.injEq, true_and] at h
  subst h
  have keep : ∀ n, n ≠ name → Closed s3 n → Closed t3 n := fun n hn hc r hr => hc r (by rw [← ho n hn]; exact hr)
  refine ⟨fun r hr => ?_, keep _ (hne _ (by decide)) c3, fun it ts sch o he => ?_⟩
  · have : t3.store.lookup name = some r := hr
    rw [hv] at this; cases this; exact hv'
  · exact ⟨keep _ (hne _ (by decide)) (c3' it ts sch o he).1, keep _ (hne _ (by decide)) (c3' it ts sch o he).2⟩

theorem setBody_closed_all {path name : String} {sig : Sig} {value : Value} {s s' : BState}
    (h : setBody path name sig value s = (.ok (), s')) : ∀ n ∈ Spec.ownedFiles name sig, Closed s' n := by
  obtain ⟨h1, h2, h3⟩ := setBody_closed h
  intro n hn
  cases sig with
  | multivector it ts sch o =>
    obtain ⟨h3, h4⟩ := h3 _ _ _ _ rfl
    simp only [Spec.ownedFiles, List.mem_cons, List.not_mem_nil, or_false] at hn
    rcases hn with rfl | rfl | rfl | rfl <;> assumption
  | _ =>
    simp only [Spec.ownedFiles, List.mem_cons, List.not_mem_nil, or_false] at hn
    rcases hn with rfl | rfl <;> assumption

end Model
