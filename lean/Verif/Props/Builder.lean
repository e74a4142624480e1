import Mathlib.Data.List.Induction
import Verif.Lemmas.Trace
import Verif.Props.RoundTrip

/-!
# C28-C31, C34: histories of calls on an archive builder

`Spec.runCalls A path cs s` is the builder after the calls `cs`; `replay f s.ops` are the files of the
directory then, if the directory had the files `f` before the builder was created.
-/

namespace Props
open Py Spec Model

/-! ## Steps -/

theorem set_cases (A : ArchiveType) (path name : String) (v : Value) (s : BState) :
    (A.resources.lookup name = none ∧ setResource A path name v s = (.error (.unknownResource name), s)) ∨
    (∃ sig, A.resources.lookup name = some sig ∧ name ∈ s.written ∧
      setResource A path name v s = (.error .resourceAlreadySet, s)) ∨
    (∃ sig, A.resources.lookup name = some sig ∧ name ∉ s.written ∧
      setResource A path name v s = setBody path name sig v s) := by
  unfold setResource
  cases h : A.resources.lookup name with
  | none => exact .inl ⟨rfl, rfl⟩
  | some sig =>
    by_cases hw : name ∈ s.written
    · exact .inr (.inl ⟨sig, rfl, hw, by simp [hw]⟩)
    · exact .inr (.inr ⟨sig, rfl, hw, by simp [hw]⟩)

theorem noMarks_finish : NoMarks finish := fun s =>
  noMarks_forEach (l := s.store.map Prod.fst) (f := closeIfValid) (fun n => by
    refine noMarks_bind (noMarks_theRes n) fun r => ?_
    split
    · exact noMarks_resClose _
    · exact noMarks_pure _) s

theorem written_mono_call {A : ArchiveType} {path : String} {c : Call} {s : BState} {n : String} (h : n ∈ s.written) :
    n ∈ (runCall A path c s).2.written := by
  cases c with
  | set name v =>
    rcases set_cases A path name v s with ⟨-, e⟩ | ⟨sig, -, -, e⟩ | ⟨sig, -, -, e⟩
    · simpa [runCall, e] using h
    · simpa [runCall, e] using h
    · simp only [runCall, e]
      obtain ⟨_, w, -, -, hw, -, -⟩ := touches_set_filesOf (path := path) (n := name) (sig := sig) (v := v) s
      rw [hw]; simp [h]
  | finish => simpa [runCall, noMarks_finish s] using h

theorem written_mono {A : ArchiveType} {path : String} (cs : List Call) {s : BState} {n : String} (h : n ∈ s.written) :
    n ∈ (runCalls A path cs s).written := by
  induction cs generalizing s with
  | nil => exact h
  | cons c cs ih => exact ih (written_mono_call h)

theorem good_call {A : ArchiveType} {path : String} {c : Call} {s : BState} (h : GoodStore s) :
    GoodStore (runCall A path c s).2 := by
  cases c with
  | set name v =>
    rcases set_cases A path name v s with ⟨-, e⟩ | ⟨sig, -, -, e⟩ | ⟨sig, -, -, e⟩
    · simpa [runCall, e] using h
    · simpa [runCall, e] using h
    · simp only [runCall, e]; exact keeps_setBody s h
  | finish => exact keeps_finish s h

theorem good_calls {A : ArchiveType} {path : String} (cs : List Call) {s : BState} (h : GoodStore s) :
    GoodStore (runCalls A path cs s) := by
  induction cs generalizing s with
  | nil => exact h
  | cons c cs ih => exact ih (good_call h)

theorem good_new (A : ArchiveType) (path : String) : GoodStore (newBuilder A path) :=
  keeps_bind (keeps_writeRawData _ _ _) (fun _ => keeps_bind (keeps_writeRawData _ _ _) fun _ => keeps_mark _)
    BState.initial (by simp [GoodStore, BState.initial])

theorem runCalls_append (A : ArchiveType) (path : String) (cs ds : List Call) (s : BState) :
    runCalls A path (cs ++ ds) s = runCalls A path ds (runCalls A path cs s) := by
  induction cs generalizing s with
  | nil => rfl
  | cons c cs ih => exact ih _

/-! ## C28 -/

/-- **C28.** Once `set` of a resource has returned, every later `set` of it raises `ResourceAlreadySetError`
and changes nothing, whatever calls were made in between and whatever the value is. -/
theorem C28_set_once (A : ArchiveType) (path name : String) (v v' : Value) (calls : List Call) (s s1 : BState)
    (h : setResource A path name v s = (.ok (), s1)) :
    setResource A path name v' (runCalls A path calls s1) = (.error .resourceAlreadySet, runCalls A path calls s1) := by
  rcases set_cases A path name v s with ⟨-, e⟩ | ⟨sig, -, -, e⟩ | ⟨sig, hl, -, e⟩
  · rw [e] at h; simp at h
  · rw [e] at h; simp at h
  · rw [e] at h
    have hm := written_mono (A := A) (path := path) calls (setBody_marks h)
    unfold setResource
    rw [hl]; simp [hm]

/-- **C28.** `set` of a resource the archive does not declare raises `UnknownResourceError` and changes
nothing. -/
theorem C28_unknown (A : ArchiveType) (path name : String) (v : Value) (s : BState)
    (h : ∀ p ∈ A.resources, p.1 ≠ name) : setResource A path name v s = (.error (.unknownResource name), s) := by
  rcases set_cases A path name v s with ⟨-, e⟩ | ⟨sig, hl, -, -⟩ | ⟨sig, hl, -, -⟩
  · exact e
  all_goals
    exfalso
    obtain ⟨p, hp, hn⟩ : ∃ p ∈ A.resources, p.1 = name := by
      have : name ∈ A.resources.map (·.1) := by
        by_contra hc; rw [lookup_none_of_not_mem hc] at hl; simp at hl
      simpa using this
    exact h p hp hn

theorem newBuilder_ok {A : ArchiveType} {path : String} (hp : path ≠ "") :
    (builderInit A path BState.initial).1 = .ok () ∧ (newBuilder A path).written = [A.name ++ ".archive"] := by
  unfold newBuilder builderInit
  have h1 : A.name ++ ".archive" ≠ "" := by
    intro e; have := congrArg String.length e; rw [String.length_append] at this; simp at this
  have h2 : A.name ++ ".archive.schema" ≠ "" := by
    intro e; have := congrArg String.length e; rw [String.length_append] at this; simp at this
  obtain ⟨s1, e1, -, w1, -, -⟩ := writeRawData_ok hp h1 (List.replicate 16 0) BState.initial
  obtain ⟨s2, e2, -, w2, -, -⟩ := writeRawData_ok hp h2 (encodeUtf8 A.schema) s1
  rw [BM.bind_ok e1, BM.bind_ok e2]
  refine ⟨rfl, ?_⟩
  simp [markWritten, w2, w1, BState.initial]

/-- **C28.** The archive signature counts as set from the start. -/
theorem C28_signature (name schema path : String) (rs : List (String × Sig)) (v : Value) (calls : List Call)
    (hp : path ≠ "") :
    let s := runCalls (mkArchive name schema rs) path calls (newBuilder (mkArchive name schema rs) path)
    setResource (mkArchive name schema rs) path (name ++ ".archive") v s = (.error .resourceAlreadySet, s) := by
  intro s
  have hm : name ++ ".archive" ∈ s.written :=
    written_mono calls (by rw [(newBuilder_ok hp).2]; simp [mkArchive])
  unfold setResource
  simp [mkArchive, hm]

theorem noClash_names {A : ArchiveType} (h : NoClash A) {n m : String} {sg sg' : Sig} (h1 : A.resources.lookup n = some sg)
    (h2 : A.resources.lookup m = some sg') (hne : n ≠ m) : ∀ x ∈ ownedFiles n sg, x ∉ ownedFiles m sg' := by
  have mem : ∀ {k : String} {s : Sig}, A.resources.lookup k = some s → (k, s) ∈ A.resources := by
    intro k s hk
    rw [List.lookup_eq_some_iff] at hk
    obtain ⟨l1, l2, e, -⟩ := hk
    rw [e]; simp
  exact h.2 _ (mem h1) _ (mem h2) hne

theorem name_owned (n : String) (sg : Sig) : n ∈ ownedFiles n sg := by cases sg <;> simp [ownedFiles]

theorem markNames_owned {n m : String} {sg : Sig} (h : m = n ∨ m ∈ markNames n sg) : m ∈ ownedFiles n sg := by
  rcases h with rfl | h
  · exact name_owned _ _
  · cases sg <;> simp [markNames, ownedFiles] at h ⊢
    rcases h with rfl | rfl <;> simp

theorem setBody_changes {path name : String} {sig : Sig} {v : Value} (hp : path ≠ "") (s : BState) :
    (setBody path name sig v s).2.ops ≠ s.ops := by
  obtain ⟨s1, e1, o1, -, -, -⟩ := writeRawData_ok (name := name ++ ".schema") hp (by
    intro e; have := congrArg String.length e; rw [String.length_append] at this; simp at this) (encodeUtf8 sig.schema) s
  have h2 : ∃ x, (setBody path name sig v s).2.ops = s1.ops ++ x := by
    have ht : Touches (ownedFiles name sig) (storageGet path name >>= fun _ => setPayload path name sig v >>= fun _ =>
        resAddSize name >>= fun _ => resAddPadding name >>= fun _ => resClose name >>= fun _ => markWritten name) := by
      have hn := name_owned name sig
      refine touches_bind (touches_storageGet hn) fun _ => touches_bind (touches_setPayload hn ?_) fun _ =>
        touches_bind (touches_resAddSize hn) fun _ => touches_bind (touches_resAddPadding hn) fun _ =>
        touches_bind (touches_resClose hn) fun _ => touches_mark hn
      rintro it ts sch o rfl; simp [ownedFiles]
    obtain ⟨x, _, hx, -⟩ := ht s1
    refine ⟨x, ?_⟩
    unfold setBody
    rw [BM.bind_ok e1]; exact hx
  obtain ⟨x, hx⟩ := h2
  rw [hx, o1]
  intro e
  have := congrArg List.length e
  simp at this

/-- **C28.** Conversely, `set` is rejected with `ResourceAlreadySetError`, changing nothing, only for the signature
and for resources with an earlier `set` that returned (or raised `OverflowError`: a multivector whose payload has 2⁶⁴
bytes or more is marked as written before its size header is found not to fit). -/
theorem C28_rejected_only_if_set (A : ArchiveType) (path name : String) (v : Value) (calls : List Call)
    (hp : path ≠ "") (hA : NoClash A)
    (h : setResource A path name v (runCalls A path calls (newBuilder A path)) =
      (.error .resourceAlreadySet, runCalls A path calls (newBuilder A path))) :
    name = A.name ++ ".archive" ∨ ∃ pre v' post, calls = pre ++ .set name v' :: post ∧
      ((setResource A path name v' (runCalls A path pre (newBuilder A path))).1 = .ok () ∨
       (setResource A path name v' (runCalls A path pre (newBuilder A path))).1 = .error .overflowError) := by
  obtain ⟨sig, hl, hw⟩ : ∃ sig, A.resources.lookup name = some sig ∧
      name ∈ (runCalls A path calls (newBuilder A path)).written := by
    rcases set_cases A path name v (runCalls A path calls (newBuilder A path)) with ⟨-, e⟩ | ⟨sig, hl, hw, -⟩ | ⟨sig, hl, hw, e⟩
    · rw [e] at h; simp at h
    · exact ⟨sig, hl, hw⟩
    · rw [e] at h
      exact absurd (congrArg (fun x => x.2.ops) h) (setBody_changes hp _)
  clear h
  induction calls using List.reverseRecOn with
  | nil =>
    left
    rw [runCalls, (newBuilder_ok hp).2] at hw
    simpa using hw
  | append_singleton cs c ih =>
    rw [runCalls_append] at hw
    by_cases hprev : name ∈ (runCalls A path cs (newBuilder A path)).written
    · rcases ih hprev with h | ⟨pre, v', post, rfl, h⟩
      · exact .inl h
      · exact .inr ⟨pre, v', post ++ [c], by simp, h⟩
    · right
      generalize hs : runCalls A path cs (newBuilder A path) = s at *
      cases c with
      | finish => exact absurd (by simpa [runCalls, runCall, noMarks_finish s] using hw) hprev
      | set m v' =>
        simp only [runCalls, runCall] at hw
        rcases set_cases A path m v' s with ⟨-, e⟩ | ⟨sig', -, -, e⟩ | ⟨sig', hl', hw', e⟩
        · rw [e] at hw; exact absurd hw hprev
        · rw [e] at hw; exact absurd hw hprev
        · rw [e] at hw
          obtain ⟨w, h1, h2, h3⟩ := setBody_marks_iff path m sig' v' s
          rw [h1, List.mem_append] at hw
          have hn := hw.resolve_left hprev
          have hnm : name = m := by
            by_contra hne
            exact noClash_names hA hl hl' hne name (name_owned _ _) (markNames_owned (h2 name hn))
          subst hnm
          refine ⟨cs, v', [], rfl, ?_⟩
          rw [hs, e]
          by_cases hok : (setBody path name sig' v' s).1 = .ok ()
          · exact .inl hok
          · rcases h3 hok with h | h
            · rw [h] at hn; simp at hn
            · exact .inr h.1

/-! ## C29 -/

theorem lookup_isSome_iff {α} {l : List (String × α)} {k : String} : (l.lookup k).isSome ↔ k ∈ l.map (·.1) := by
  induction l with
  | nil => simp
  | cons p l ih =>
    obtain ⟨a, b⟩ := p
    rw [List.lookup_cons]
    by_cases h : k = a
    · subst h; simp
    · have : (k == a) = false := by simpa using h
      simp only [this, List.map_cons, List.mem_cons, h, false_or]
      exact ih

theorem validate_exact {name : String} {d : Dict} {t : StructType} :
    validateStructureFields name d t = .ok () ↔ ExactKeys t.fieldKeys d := by
  rw [validate_ok]
  constructor
  · intro ⟨h1, h2⟩ k
    constructor
    · intro hk; exact lookup_isSome_iff.mp (h1 k hk)
    · intro hk
      obtain ⟨p, hp, rfl⟩ := List.mem_map.mp hk
      exact h2 p hp
  · intro h
    exact ⟨fun k hk => lookup_isSome_iff.mpr ((h k).mp hk), fun p hp => (h p.1).mpr (List.mem_map_of_mem hp)⟩

/-- The error a dictionary with wrong fields causes: it names a missing or an undeclared field. -/
def FieldError (name : String) (t : StructType) (d : Dict) (e : Err) : Prop :=
  (∃ k, e = .missingField k name ∧ k ∈ t.fieldKeys ∧ k ∉ d.map (·.1)) ∨
  (∃ k, e = .unknownField k name ∧ k ∉ t.fieldKeys ∧ k ∈ d.map (·.1))

theorem checkMissing_error {name : String} {d : Dict} {ks : List String} {e : Err} (h : checkMissing name d ks = .error e) :
    ∃ k ∈ ks, e = .missingField k name ∧ k ∉ d.map (·.1) := by
  induction ks with
  | nil => simp [checkMissing, pure, Except.pure] at h
  | cons k ks ih =>
    unfold checkMissing at h
    split at h
    · obtain ⟨k', hk, h'⟩ := ih h; exact ⟨k', by simp [hk], h'⟩
    · rename_i hn
      refine ⟨k, by simp, ?_, fun hc => hn (lookup_isSome_iff.mpr hc)⟩
      simpa [throw, throwThe, MonadExceptOf.throw] using h.symm

theorem checkUnknown_error {name : String} {keys ks : List String} {e : Err} (h : checkUnknown name keys ks = .error e) :
    ∃ k ∈ ks, e = .unknownField k name ∧ k ∉ keys := by
  induction ks with
  | nil => simp [checkUnknown, pure, Except.pure] at h
  | cons k ks ih =>
    unfold checkUnknown at h
    split at h
    · obtain ⟨k', hk, h'⟩ := ih h; exact ⟨k', by simp [hk], h'⟩
    · rename_i hn
      exact ⟨k, by simp, by simpa [throw, throwThe, MonadExceptOf.throw] using h.symm, hn⟩

theorem validate_error {name : String} {d : Dict} {t : StructType} {e : Err}
    (h : validateStructureFields name d t = .error e) : FieldError name t d e := by
  unfold validateStructureFields at h
  cases hm : checkMissing name d t.fieldKeys with
  | error e' =>
    rw [hm] at h
    simp only [bind, Except.bind, Except.error.injEq] at h
    subst h
    obtain ⟨k, hk, he, hd⟩ := checkMissing_error hm
    exact .inl ⟨k, he, hk, hd⟩
  | ok _ =>
    rw [hm] at h
    simp only [bind, Except.bind] at h
    obtain ⟨k, hk, he, hd⟩ := checkUnknown_error h
    exact .inr ⟨k, he, hd, hk⟩

/-- The error a value with a wrong dictionary (or structure name) causes. -/
def ValueError (name : String) : Sig → Value → Err → Prop
  | .instance t _ _, .dict d, e => FieldError name t d e
  | .vector t _ _, .list l, e => ∃ d ∈ l, FieldError name t d e
  | .multivector _ ts _ _, .buckets l, e => ∃ b ∈ l, ∃ o ∈ b,
      (e = .unknownStructure o.name ∧ ∀ t ∈ ts, t.name ≠ o.name) ∨
      ∃ t ∈ ts, t.name = o.name ∧ FieldError name t o.attributes e
  | _, _, _ => False

/-- The structure names of a multivector are distinct. -/
def DistinctTypes : Sig → Prop
  | .multivector _ ts _ _ => (ts.map (·.name)).Nodup
  | _ => True

theorem filter_name {ts : List StructType} (hnd : (ts.map (·.name)).Nodup) {t : StructType} (ht : t ∈ ts) :
    ts.filter (fun u => u.name = t.name) = [t] := by
  induction ts with
  | nil => simp at ht
  | cons u ts ih =>
    simp only [List.map_cons, List.nodup_cons] at hnd
    rcases List.mem_cons.mp ht with rfl | ht
    · rw [List.filter_cons_of_pos (by simp), List.filter_eq_nil_iff.mpr]
      intro v hv
      simp only [decide_eq_true_eq]
      intro e; exact hnd.1 (e ▸ List.mem_map_of_mem hv)
    · rw [List.filter_cons_of_neg, ih hnd.2 ht]
      simp only [decide_eq_true_eq]
      intro e; exact hnd.1 (e ▸ List.mem_map_of_mem ht)

theorem validateObj_iff {name : String} {ts : List StructType} (hnd : (ts.map (·.name)).Nodup) {o : Obj} :
    validateObj name ts o = .ok () ↔ ∃ t ∈ ts, t.name = o.name ∧ ExactKeys t.fieldKeys o.attributes := by
  unfold validateObj
  split
  · rename_i hm
    obtain ⟨t, ht, hn⟩ := List.mem_map.mp hm
    rw [← hn, filter_name hnd ht]
    simp only
    rw [validate_exact]
    constructor
    · intro h; exact ⟨t, ht, rfl, h⟩
    · rintro ⟨u, hu, hun, h⟩
      have : u = t := List.inj_on_of_nodup_map hnd hu ht hun
      rw [← this]; exact h
  · rename_i hm
    simp only [throw, throwThe, MonadExceptOf.throw, reduceCtorEq, false_iff]
    rintro ⟨t, ht, hn, -⟩
    exact hm (hn ▸ List.mem_map_of_mem ht)

theorem validateObj_error {name : String} {ts : List StructType} (hnd : (ts.map (·.name)).Nodup) {o : Obj} {e : Err}
    (h : validateObj name ts o = .error e) :
    (e = .unknownStructure o.name ∧ ∀ t ∈ ts, t.name ≠ o.name) ∨
      ∃ t ∈ ts, t.name = o.name ∧ FieldError name t o.attributes e := by
  unfold validateObj at h
  split at h
  · rename_i hm
    obtain ⟨t, ht, hn⟩ := List.mem_map.mp hm
    rw [← hn, filter_name hnd ht] at h
    exact .inr ⟨t, ht, hn, validate_error h⟩
  · rename_i hm
    simp only [throw, throwThe, MonadExceptOf.throw, Except.error.injEq] at h
    exact .inl ⟨h.symm, fun t ht e => hm (e ▸ List.mem_map_of_mem ht)⟩

/-- A loop of checks: passes iff all pass; otherwise raises the error of one of them and leaves the state alone. -/
theorem forEach_check {α : Type} (l : List α) (f : α → BM Unit) (P : α → Prop) (E : α → Err → Prop)
    (hf : ∀ a ∈ l, ∀ s, (P a ∧ f a s = (.ok (), s)) ∨ (¬ P a ∧ ∃ e, f a s = (.error e, s) ∧ E a e)) (s : BState) :
    ((∀ a ∈ l, P a) ∧ forEach l f s = (.ok (), s)) ∨
    ((¬ ∀ a ∈ l, P a) ∧ ∃ e, forEach l f s = (.error e, s) ∧ ∃ a ∈ l, E a e) := by
  induction l with
  | nil => exact .inl ⟨by simp, rfl⟩
  | cons a l ih =>
    have hd : forEach (a :: l) f = (f a >>= fun _ => forEach l f) := rfl
    rcases hf a (by simp) s with ⟨hp, he⟩ | ⟨hp, e, he, hE⟩
    · rcases ih fun b hb => hf b (by simp [hb]) with ⟨h1, h2⟩ | ⟨h1, e, h2, b, hb, h3⟩
      · exact .inl ⟨by simpa [hp] using h1, by rw [hd, BM.bind_ok he, h2]⟩
      · exact .inr ⟨fun h => h1 fun b hb => h b (by simp [hb]), e, by rw [hd, BM.bind_ok he, h2], b, by simp [hb], h3⟩
    · exact .inr ⟨fun h => hp (h a (by simp)), e, by rw [hd, BM.bind_err he], a, by simp, hE⟩

theorem lift_check {x : M Unit} {P : Prop} {E : Err → Prop} (h1 : x = .ok () ↔ P) (h2 : ∀ e, x = .error e → E e) (s : BState) :
    (P ∧ BM.lift x s = (.ok (), s)) ∨ (¬ P ∧ ∃ e, BM.lift x s = (.error e, s) ∧ E e) := by
  cases h : x with
  | ok u => exact .inl ⟨h1.mp h, rfl⟩
  | error e => exact .inr ⟨fun hp => by rw [h1.mpr hp] at h; simp at h, e, rfl, h2 e h⟩

/-- The payload writer checks everything before it does anything else. -/
theorem setPayload_checks {path name : String} {sig : Sig} {v : Value} (hd : DistinctTypes sig) (s : BState) :
    ((setPayload path name sig v s).1 = .ok () → ValueExact sig v) ∧
    (¬ ValueExact sig v → ∃ e, setPayload path name sig v s = (.error e, s) ∧ ValueError name sig v e) := by
  have conv : ∀ {P : Prop} {E : Err → Prop} {m : BM Unit} {k : Unit → BM Unit},
      ((P ∧ m s = (.ok (), s)) ∨ (¬ P ∧ ∃ e, m s = (.error e, s) ∧ E e)) →
      (((m >>= k) s).1 = .ok () → P) ∧ (¬ P → ∃ e, (m >>= k) s = (.error e, s) ∧ E e) := by
    intro P E m k h
    rcases h with ⟨hp, he⟩ | ⟨hp, e, he, hE⟩
    · exact ⟨fun _ => hp, fun h => absurd hp h⟩
    · rw [BM.bind_err he]; exact ⟨fun h => by simp at h, fun _ => ⟨e, rfl, hE⟩⟩
  unfold setPayload
  split
  · exact conv (lift_check validate_exact (fun e he => validate_error he) s)
  · exact conv (forEach_check _ _ _ (fun d e => FieldError name _ d e) (fun d _ s => lift_check validate_exact (fun e he => validate_error he) s) s)
  · exact conv (forEach_check _ _ (fun b => ∀ o ∈ b, _) (fun b e => ∃ o ∈ b, _) (fun b _ s =>
      forEach_check _ _ _ _ (fun o _ s => lift_check (validateObj_iff hd) (fun e he => validateObj_error hd he) s) s) s)
  · exact ⟨fun _ => trivial, fun h => absurd trivial h⟩
  · exact ⟨fun _ => by simp [ValueExact], fun h => absurd (by simp [ValueExact]) h⟩
  · exact ⟨fun _ => by simp [ValueExact], fun h => absurd (by simp [ValueExact]) h⟩
  · constructor
    · intro h; simp [BM.raise] at h
    · rename_i _ _ _ _ h3 h2 h1 _
      intro h; exfalso; apply h; clear h conv
      cases sig <;> cases v <;> first
        | exact trivial
        | exact absurd rfl (h3 _ _ _ _ rfl)
        | exact absurd rfl (h2 _ _ _ _ rfl)
        | exact absurd rfl (h1 _ _ _ _ _ rfl)

/-- **C29.** A `set` that returns was given dictionaries with exactly the declared fields (for a multivector:
elements naming a declared structure, with exactly that structure's fields). -/
theorem C29_accepts_only_exact (A : ArchiveType) (path name : String) (sig : Sig) (v : Value) (s s' : BState)
    (hl : A.resources.lookup name = some sig) (hd : DistinctTypes sig)
    (h : setResource A path name v s = (.ok (), s')) : ValueExact sig v := by
  rcases set_cases A path name v s with ⟨-, e⟩ | ⟨sig', -, -, e⟩ | ⟨sig', hl', -, e⟩
  · rw [e] at h; simp at h
  · rw [e] at h; simp at h
  · rw [hl] at hl'; cases hl'
    rw [e] at h
    unfold setBody at h
    obtain ⟨_, s1, -, h⟩ := BM.bind_inv h
    obtain ⟨_, s2, -, h⟩ := BM.bind_inv h
    obtain ⟨_, s3, e3, h⟩ := BM.bind_inv h
    exact (setPayload_checks hd s2).1 (by rw [e3])

/-- **C29.** Any other dictionary makes `set` raise an error naming a missing field, an undeclared field or an
undeclared structure of the value. At that point the schema has been written and the data file created empty; no
payload byte has been written or buffered, and the resource is not marked as set. -/
theorem C29_rejects_inexact (A : ArchiveType) (path name : String) (sig : Sig) (v : Value) (s : BState)
    (hl : A.resources.lookup name = some sig) (hd : DistinctTypes sig) (hp : path ≠ "") (hn : name ≠ "")
    (hnew : name ∉ s.written) (hv : ¬ ValueExact sig v) :
    ∃ e s', setResource A path name v s = (.error e, s') ∧ ValueError name sig v e ∧
      (∀ f, replay f s'.ops name = some [] ∧ replay f s'.ops (name ++ ".schema") = some (encodeUtf8 sig.schema) ∧
        ∀ n, n ≠ name → n ≠ name ++ ".schema" → replay f s'.ops n = replay f s.ops n) ∧
      s'.store.lookup name = some ⟨[], true⟩ ∧ s'.written = s.written := by
  have hns : name ++ ".schema" ≠ "" := by
    intro e; have := congrArg String.length e; rw [String.length_append] at this; simp at this
  obtain ⟨s1, e1, o1, w1, -, -⟩ := writeRawData_ok hp hns (encodeUtf8 sig.schema) s
  obtain ⟨s2, e2, o2, w2, l2, -⟩ := storageGet_ok hp hn s1
  obtain ⟨e, e3, hE⟩ := (setPayload_checks (path := path) (name := name) hd s2).2 hv
  refine ⟨e, s2, ?_, hE, ?_, l2, by rw [w2, w1]⟩
  · rw [set_run hl hnew]
    unfold setBody
    rw [BM.bind_ok e1, BM.bind_ok e2, BM.bind_err e3]
  · intro f
    rw [o2, o1]
    have hne : name ≠ name ++ ".schema" := str_ne_append name ".schema" (by decide)
    refine ⟨?_, ?_, ?_⟩
    · rw [replay_append]; simp [replay, applyOp]
    · rw [replay_append, replay_untouched _ _ (name ++ ".schema") (by intro op hop; simp at hop; subst hop; exact hne),
        replay_append, writeOps_replay]
    · intro n h1 h2
      rw [replay_append, replay_append, replay_untouched, replay_untouched]
      · intro op hop
        rcases List.mem_cons.mp hop with rfl | hop
        · exact fun e => h2 e.symm
        · rw [writeOps_file hop]; exact fun e => h2 e.symm
      · intro op hop; simp at hop; subst hop; exact fun e => h1 e.symm

end Props
