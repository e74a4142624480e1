import Verif.Lemmas.Builder
import Verif.Lemmas.Vector
import Verif.Spec.Frame

namespace Model
open Py Spec

/-! ## Files after a history -/

theorem replay_append (f : Files) (a b : List FsOp) : replay f (a ++ b) = replay (replay f a) b := by
  simp [replay]

theorem replay_untouched (f : Files) (ops : List FsOp) (n : String) (h : ∀ op ∈ ops, op.file ≠ n) :
    replay f ops n = f n := by
  induction ops generalizing f with
  | nil => rfl
  | cons op ops ih =>
    have h1 := h op (by simp)
    have : replay f (op :: ops) = replay (applyOp f op) ops := rfl
    rw [this, ih _ fun o ho => h o (by simp [ho])]
    cases op with
    | openWb m => simp only [applyOp, FsOp.file] at *; rw [if_neg (fun e => h1 e.symm)]
    | write m d => simp only [applyOp, FsOp.file] at *; rw [if_neg (fun e => h1 e.symm)]

/-! ## Exact effect of the single operations -/

/-- `s'` is `s` after appending `p` to the in-memory buffer of the open resource `name`. -/
structure Wrote (name : String) (p : Bytes) (s s' : BState) : Prop where
  ops : s'.ops = s.ops
  written : s'.written = s.written
  own : ∀ d, s.store.lookup name = some ⟨d, true⟩ → s'.store.lookup name = some ⟨d ++ p, true⟩
  others : ∀ n, n ≠ name → s'.store.lookup n = s.store.lookup n

theorem Wrote.refl (name : String) (s : BState) : Wrote name [] s s :=
  ⟨rfl, rfl, by simp, fun _ _ => rfl⟩

theorem Wrote.trans {name : String} {p q : Bytes} {s s' s'' : BState} (h : Wrote name p s s')
    (g : Wrote name q s' s'') : Wrote name (p ++ q) s s'' :=
  ⟨by rw [g.ops, h.ops], by rw [g.written, h.written],
    fun d hd => by rw [g.own _ (h.own d hd), List.append_assoc],
    fun n hn => by rw [g.others n hn, h.others n hn]⟩

theorem resWrite_ok {name : String} {d b : Bytes} {s : BState} (h : s.store.lookup name = some ⟨d, true⟩) :
    ∃ s', resWrite name b s = (.ok (), s') ∧ Wrote name b s s' := by
  refine ⟨(resWrite name b s).2, ?_, ?_⟩
  · simp [resWrite, theRes_run h, putRes]
  · have e : (resWrite name b s).2 = { s with store := dictSet s.store name ⟨d ++ b, true⟩ } := by
      simp [resWrite, theRes_run h, putRes]
    rw [e]
    refine ⟨rfl, rfl, fun d' hd' => ?_, fun n hn => ?_⟩
    · rw [h] at hd'; cases hd'; simp [lookup_dictSet]
    · simp [lookup_dictSet, hn]

theorem toBytes_unsigned (n k : Nat) : toBytes (n : Int) k false =
    if n < 2 ^ (8 * k) then .ok (toLE k n) else .error .overflowError := by
  have h0 : (0 : Int) ≤ n := by omega
  simp only [toBytes, Bool.false_eq_true, if_false, h0, true_and, Int.toNat_natCast]
  rfl

theorem toBytes_len {n : Nat} (h : n < 2 ^ 64) : toBytes (n : Int) 8 false = .ok (toLE 8 n) := by
  rw [toBytes_unsigned, if_pos (by simpa using h)]

theorem sizeHeader_ok {d : Bytes} (h : d.length < 2 ^ 64) : sizeHeader d = .ok (toLE 8 d.length) := toBytes_len h

theorem lift_ok {α} {x : M α} {a : α} (h : x = .ok a) (s : BState) : BM.lift x s = (.ok a, s) := by
  rw [BM.lift_run, h]

theorem resAddSize_def (name : String) : resAddSize name =
    (theRes name >>= fun r => BM.lift (sizeHeader r.data) >>= fun h => putRes name { r with data := h ++ r.data }) :=
  rfl

theorem BM.bind_assoc {α β γ} (x : BM α) (f : α → BM β) (g : β → BM γ) (s : BState) :
    ((x >>= f) >>= g) s = (x >>= fun a => f a >>= g) s := by
  simp only [BM.bind_run]
  cases x s with
  | mk r t => cases r <;> rfl

/-- add_size, add_padding and close of an open resource holding `p`. -/
theorem closeFramed_ok {name : String} {p : Bytes} {s : BState} (h : s.store.lookup name = some ⟨p, true⟩)
    (hp : p.length < 2 ^ 64) :
    ∃ s', (do resAddSize name; resAddPadding name; resClose name : BM Unit) s = (.ok (), s') ∧
      s'.ops = s.ops ++ [.write name (frame p)] ∧ s'.written = s.written ∧
      s'.store.lookup name = some ⟨[], false⟩ ∧ ∀ n, n ≠ name → s'.store.lookup n = s.store.lookup n := by
  have h1 : resAddSize name s = (.ok (), { s with store := dictSet s.store name ⟨toLE 8 p.length ++ p, true⟩ }) := by
    rw [resAddSize_def, BM.bind_ok (theRes_run h), BM.bind_ok (lift_ok (sizeHeader_ok hp) s)]
    rfl
  have h2 : ∀ t : BState, t.store.lookup name = some ⟨toLE 8 p.length ++ p, true⟩ →
      resAddPadding name t = (.ok (), { t with store := dictSet t.store name ⟨frame p, true⟩ }) := by
    intro t ht
    simp [resAddPadding, theRes_run ht, putRes, frame]
  have hne : frame p ≠ [] := by simp [frame]
  have h3 : ∀ t : BState, t.store.lookup name = some ⟨frame p, true⟩ →
      resClose name t = (.ok (), { t with ops := t.ops ++ [.write name (frame p)],
                                          store := dictSet t.store name ⟨[], false⟩ }) := by
    intro t ht
    simp [resClose, theRes_run ht, putRes, hne, emit]
  rw [BM.bind_ok h1, BM.bind_ok (h2 _ (by simp [lookup_dictSet])), h3 _ (by simp [lookup_dictSet])]
  refine ⟨_, rfl, rfl, rfl, by simp [lookup_dictSet], fun n hn => by simp [lookup_dictSet, hn]⟩

/-- opening a resource -/
theorem storageGet_ok {path name : String} (hp : path ≠ "") (hn : name ≠ "") (s : BState) :
    ∃ s', storageGet path name s = (.ok (), s') ∧ s'.ops = s.ops ++ [.openWb name] ∧
      s'.written = s.written ∧ s'.store.lookup name = some ⟨[], true⟩ ∧
      ∀ n, n ≠ name → s'.store.lookup n = s.store.lookup n := by
  refine ⟨{ s with ops := s.ops ++ [.openWb name], store := dictSet s.store name ⟨[], true⟩ },
    ?_, rfl, rfl, ?_, ?_⟩
  · simp [storageGet, hp, hn, emit, putRes]
  · simp [lookup_dictSet]
  · intro n hne; simp [lookup_dictSet, hne]

/-- The write operation a close performs: none for empty data. -/
def writeOps (name : String) (d : Bytes) : List FsOp := if d = [] then [] else [.write name d]

theorem writeRawData_ok {path name : String} (hp : path ≠ "") (hn : name ≠ "") (d : Bytes) (s : BState) :
    ∃ s', writeRawData path name d s = (.ok (), s') ∧ s'.ops = s.ops ++ (.openWb name :: writeOps name d) ∧
      s'.written = s.written ∧ s'.store.lookup name = some ⟨[], false⟩ ∧
      ∀ n, n ≠ name → s'.store.lookup n = s.store.lookup n := by
  obtain ⟨s1, e1, o1, w1, l1, r1⟩ := storageGet_ok hp hn s
  obtain ⟨s2, e2, hw⟩ := resWrite_ok (b := d) l1
  have l2 := hw.own _ l1
  simp only [List.nil_append] at l2
  have e3 : resClose name s2 = (.ok (), { s2 with ops := s2.ops ++ writeOps name d,
                                                  store := dictSet s2.store name ⟨[], false⟩ }) := by
    by_cases hd : d = []
    · simp [resClose, theRes_run l2, hd, putRes, writeOps]
    · simp [resClose, theRes_run l2, hd, putRes, writeOps, emit]
  unfold writeRawData
  rw [BM.bind_ok e1, BM.bind_ok e2, e3]
  refine ⟨_, rfl, ?_, ?_, ?_, ?_⟩
  · simp [hw.ops, o1]
  · simp [hw.written, w1]
  · simp [lookup_dictSet]
  · intro n hne; simp [lookup_dictSet, hne, hw.others n hne, r1 n hne]

theorem str_ne_append (n : String) (c : String) (h : c ≠ "") : n ≠ n ++ c := by
  intro e
  have h1 := congrArg String.length e
  rw [String.length_append] at h1
  apply h
  rw [← String.length_eq_zero_iff]; omega

/-- The effect of a successful payload writer on the open resource. -/
theorem setBody_ok {path name : String} {sig : Sig} {value : Value} {p : Bytes} {mid : List FsOp}
    {wmid : List String} (hp : path ≠ "") (hn : name ≠ "") (hlen : p.length < 2 ^ 64)
    (hpay : ∀ s, s.store.lookup name = some ⟨[], true⟩ → ∃ s', setPayload path name sig value s = (.ok (), s') ∧
      s'.ops = s.ops ++ mid ∧ s'.written = s.written ++ wmid ∧ s'.store.lookup name = some ⟨p, true⟩)
    (s : BState) :
    ∃ s', setBody path name sig value s = (.ok (), s') ∧
      s'.ops = s.ops ++ ((.openWb (name ++ ".schema") :: writeOps (name ++ ".schema") (encodeUtf8 sig.schema)) ++
        [.openWb name] ++ mid ++ [.write name (frame p)]) ∧
      s'.written = s.written ++ wmid ++ [name] ∧ s'.store.lookup name = some ⟨[], false⟩ := by
  have hns : name ++ ".schema" ≠ "" := by
    intro e; exact hn (String.append_eq_empty_iff.mp e).1
  obtain ⟨s1, e1, o1, w1, -, -⟩ := writeRawData_ok hp hns (encodeUtf8 sig.schema) s
  obtain ⟨s2, e2, o2, w2, l2, -⟩ := storageGet_ok hp hn s1
  obtain ⟨s3, e3, o3, w3, l3⟩ := hpay s2 l2
  obtain ⟨s4, e4, o4, w4, l4, -⟩ := closeFramed_ok l3 hlen
  unfold setBody
  rw [BM.bind_ok e1, BM.bind_ok e2, BM.bind_ok e3]
  have e5 : (do resAddSize name; resAddPadding name; resClose name; markWritten name : BM Unit) s3 =
      markWritten name s4 := by
    rw [← BM.bind_ok e4 (f := fun _ => markWritten name), BM.bind_assoc]
    simp only [BM.bind_run]
    cases resAddSize name s3 with
    | mk r t => cases r with
      | error e => rfl
      | ok a => simp only; cases resAddPadding name t with
        | mk r t => cases r <;> rfl
  rw [e5]
  refine ⟨_, rfl, ?_, ?_, ?_⟩
  · simp [o4, o3, o2, o1]
  · simp [w4, w3, w2, w1]
  · simpa [markWritten] using l4

end Model
