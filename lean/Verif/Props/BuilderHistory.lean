import Verif.Props.Builder

/-!
# C30, C31, C34, C35: independence of `set` calls, `finish`
-/

namespace Props
open Py Spec Model

/-! ## C30 -/

/-- **C30.** A `set`, whatever its outcome, leaves the files of all other resources as they were. -/
theorem C30_other_resources_untouched (A : ArchiveType) (path name : String) (v : Value) (s : BState) (f : Files)
    (hA : NoClash A) (p : String × Sig) (hp : p ∈ A.resources) (hne : p.1 ≠ name) (n : String)
    (hn : n ∈ ownedFiles p.1 p.2) :
    replay f (setResource A path name v s).2.ops n = replay f s.ops n := by
  rcases set_cases A path name v s with ⟨-, e⟩ | ⟨sig, -, -, e⟩ | ⟨sig, hl, -, e⟩
  · rw [e]
  · rw [e]
  · rw [e]
    obtain ⟨ops, _, ho, hin, -⟩ := touches_set_filesOf (path := path) (n := name) (sig := sig) (v := v) s
    rw [ho, replay_append, replay_untouched]
    intro op hop hc
    have hmem : (name, sig) ∈ A.resources := by
      rw [List.lookup_eq_some_iff] at hl
      obtain ⟨l1, l2, e, -⟩ := hl
      rw [e]; simp
    exact hA.2 p hp _ hmem hne n hn (hc ▸ hin op hop)

/-- States that agree except for the files in `F`. -/
structure Apart (F : List String) (s s' : BState) : Prop where
  written : s.written = s'.written
  files : ∀ f n, n ∉ F → replay f s.ops n = replay f s'.ops n
  store : ∀ n, n ∉ F → s.store.lookup n = s'.store.lookup n
  good : GoodStore s
  good' : GoodStore s'

theorem apart_call {A : ArchiveType} {path : String} {F : List String} {s s' : BState} (h : Apart F s s') (c : Call)
    (hc : ∀ name v, c = .set name v → ∀ sig, A.resources.lookup name = some sig → ∀ n ∈ ownedFiles name sig, n ∉ F) :
    Apart F (runCall A path c s).2 (runCall A path c s').2 ∧ (runCall A path c s).1 = (runCall A path c s').1 := by
  cases c with
  | set name v =>
    rcases set_cases A path name v s with ⟨hl, e⟩ | ⟨sig, hl, hw, e⟩ | ⟨sig, hl, hw, e⟩ <;>
    rcases set_cases A path name v s' with ⟨hl', e'⟩ | ⟨sig', hl', hw', e'⟩ | ⟨sig', hl', hw', e'⟩
    · simp only [runCall, e, e']; exact ⟨h, trivial⟩
    · rw [hl] at hl'; simp at hl'
    · rw [hl] at hl'; simp at hl'
    · rw [hl] at hl'; simp at hl'
    · simp only [runCall, e, e']; exact ⟨h, trivial⟩
    · exact absurd (h.written ▸ hw) hw'
    · rw [hl] at hl'; simp at hl'
    · exact absurd (h.written ▸ hw') hw
    · rw [hl] at hl'; cases hl'
      simp only [runCall, e, e']
      obtain ⟨r, ops, w, hind⟩ := setBody_indep path name sig v
      obtain ⟨r1, o1, w1⟩ := hind s
      obtain ⟨r2, o2, w2⟩ := hind s'
      refine ⟨⟨by rw [w1, w2, h.written], fun f n hn => ?_, fun n hn => setBody_store (h.store n hn),
        keeps_setBody s h.good, keeps_setBody s' h.good'⟩, by rw [r1, r2]⟩
      rw [o1, o2, replay_append, replay_append]
      exact replay_at (h.files f n hn) _
  | finish =>
    obtain ⟨t, e, -, w, k⟩ := finish_run h.good
    obtain ⟨t', e', -, w', k'⟩ := finish_run h.good'
    have r := fun f n => finish_replay h.good f n
    have r' := fun f n => finish_replay h.good' f n
    rw [e] at r
    rw [e'] at r'
    simp only [runCall, e, e']
    refine ⟨⟨by rw [w, w', h.written], fun f n hn => ?_, fun n hn => by rw [k, k', h.store n hn], ?_, ?_⟩, trivial⟩
    · rw [r, r']
      have : closeOps s.store n = closeOps s'.store n := by unfold closeOps; rw [h.store n hn]
      rw [this]
      exact replay_at (h.files f n hn) _
    · have := keeps_finish s h.good; rwa [e] at this
    · have := keeps_finish s' h.good'; rwa [e'] at this

theorem apart_calls {A : ArchiveType} {path : String} {F : List String} {s s' : BState} (h : Apart F s s') (cs : List Call)
    (hc : ∀ name v, .set name v ∈ cs → ∀ sig, A.resources.lookup name = some sig → ∀ n ∈ ownedFiles name sig, n ∉ F) :
    Apart F (runCalls A path cs s) (runCalls A path cs s') := by
  induction cs generalizing s s' with
  | nil => exact h
  | cons c cs ih =>
    exact ih (apart_call h c fun name v e => hc name v (by simp [e])).1 fun name v hm => hc name v (by simp [hm])

theorem apart_outcomes {A : ArchiveType} {path : String} {F : List String} {s s' : BState} (h : Apart F s s') (cs : List Call)
    (hc : ∀ name v, .set name v ∈ cs → ∀ sig, A.resources.lookup name = some sig → ∀ n ∈ ownedFiles name sig, n ∉ F) :
    outcomes A path cs s = outcomes A path cs s' := by
  induction cs generalizing s s' with
  | nil => rfl
  | cons c cs ih =>
    obtain ⟨h1, h2⟩ := apart_call (path := path) h c fun name v e => hc name v (by simp [e])
    simp only [outcomes, h2]
    rw [ih h1 fun name v hm => hc name v (by simp [hm])]

/-- **C30.** A failed `set` can be repeated: let `set(name, v)` fail in a builder with history `cs₀`, let any calls
`cs₁` on other resources follow (including `finish`), and then set `name` to `v'`. All the later calls have the outcome
they would have without the failed call, and if the last one succeeds, every file is as it would be without the
failed call. (An `OverflowError` is excluded: it can mean that a multivector of 2⁶⁴ bytes was marked as set.) -/
theorem C30_retry (A : ArchiveType) (path name : String) (v v' : Value) (cs₀ cs₁ : List Call) (e : Err) (f : Files)
    (hA : NoClash A)
    (hfail : (runCall A path (.set name v) (runCalls A path cs₀ (newBuilder A path))).1 = .error e)
    (he : e ≠ .overflowError) (hother : ∀ v'', Call.set name v'' ∉ cs₁) :
    let before := runCalls A path cs₀ (newBuilder A path)
    let failed := (runCall A path (.set name v) before).2
    outcomes A path (cs₁ ++ [.set name v']) failed = outcomes A path (cs₁ ++ [.set name v']) before ∧
    ((setResource A path name v' (runCalls A path cs₁ before)).1 = .ok () → ∀ n,
      replay f (runCalls A path (cs₁ ++ [.set name v']) failed).ops n =
      replay f (runCalls A path (cs₁ ++ [.set name v']) before).ops n) := by
  intro before failed
  have hg : GoodStore before := good_calls _ (good_new A path)
  rcases set_cases A path name v before with ⟨hl, e'⟩ | ⟨sig, hl, hw, e'⟩ | ⟨sig, hl, hw, e'⟩
  · have : failed = before := by simp only [failed, runCall, e']
    rw [this]; exact ⟨rfl, fun _ _ => rfl⟩
  · have : failed = before := by simp only [failed, runCall, e']
    rw [this]; exact ⟨rfl, fun _ _ => rfl⟩
  · have hfd : failed = (setBody path name sig v before).2 := by simp only [failed, runCall, e']
    have hres : (setBody path name sig v before).1 = .error e := by
      rw [← e']; exact hfail
    obtain ⟨ops, w, ho, hin, hwr, -, hst⟩ := touches_set_filesOf (path := path) (n := name) (sig := sig) (v := v) before
    have hwe : failed.written = before.written := by
      obtain ⟨w', h1, -, h3⟩ := setBody_marks_iff path name sig v before
      rcases h3 (by rw [hres]; simp) with h | h
      · rw [hfd, h1, h]; simp
      · rw [hres] at h; simp only [Except.error.injEq] at h; exact absurd h.1 he
    have hap : Apart (ownedFiles name sig) failed before := by
      refine ⟨hwe, fun f n hn => ?_, fun n hn => by rw [hfd]; exact hst n hn, ?_, hg⟩
      · rw [hfd, ho, replay_append, replay_untouched]
        intro op hop hc; exact hn (hc ▸ hin op hop)
      · rw [hfd]; exact keeps_setBody _ hg
    have hdis : ∀ m v'', Call.set m v'' ∈ cs₁ → ∀ sg, A.resources.lookup m = some sg → ∀ n ∈ ownedFiles m sg,
        n ∉ ownedFiles name sig := by
      intro m v'' hm sg hsg
      exact noClash_names hA hsg hl (by rintro rfl; exact hother v'' hm)
    have hap2 := apart_calls (path := path) hap cs₁ hdis
    have happ : ∀ (cs : List Call) (c : Call) (s : BState), outcomes A path (cs ++ [c]) s =
        outcomes A path cs s ++ [(c, (runCall A path c (runCalls A path cs s)).1)] := by
      intro cs c s
      induction cs generalizing s with
      | nil => rfl
      | cons d cs ih => simp only [List.cons_append, outcomes, runCalls, ih]
    generalize hs2 : runCalls A path cs₁ failed = s2 at *
    generalize hs2' : runCalls A path cs₁ before = s2' at *
    rw [happ, happ, apart_outcomes hap cs₁ hdis, hs2, hs2']
    simp only [runCalls_append, hs2, hs2', runCalls, runCall]
    rcases set_cases A path name v' s2 with ⟨hl2, e2⟩ | ⟨sg, hl2, hw2, e2⟩ | ⟨sg, hl2, hw2, e2⟩
    · rw [hl] at hl2; simp at hl2
    · have hw2' : name ∈ s2'.written := hap2.written ▸ hw2
      have e2' : setResource A path name v' s2' = (.error .resourceAlreadySet, s2') := by
        unfold setResource; rw [hl]; simp [hw2']
      rw [e2, e2']; exact ⟨rfl, fun h => by simp at h⟩
    · rw [hl] at hl2; cases hl2
      have hw2' : name ∉ s2'.written := hap2.written ▸ hw2
      rw [e2, set_run hl hw2']
      obtain ⟨r, o, _, hind⟩ := setBody_indep path name sig v'
      obtain ⟨r1, o1, -⟩ := hind s2
      obtain ⟨r2, o2, -⟩ := hind s2'
      refine ⟨by rw [r1, r2], fun hok n => ?_⟩
      rw [o1, o2, replay_append, replay_append]
      by_cases hn : n ∈ ownedFiles name sig
      · obtain ⟨-, -, p, mid, -, hm, hops⟩ := setBody_inv (s := s2') (s' := (setBody path name sig v' s2').2)
          (by rw [← hok])
        have : o = setOps name sig mid p := by
          rw [o2] at hops; exact List.append_cancel_left hops
        rw [this]; exact setOps_resets hm n hn _ _
      · exact replay_at (hap2.files f n hn) _

/-! ## C31 -/

/-- The calls setting the given resources to the given values. -/
def setCalls (l : List (String × Value)) : List Call := l.map fun p => .set p.1 p.2

/-- Effect of one `set` in a builder in which the resources `w` are marked as written. -/
def setEffect (A : ArchiveType) (path : String) (w : List String) (p : String × Value) : M Unit × List FsOp :=
  let r := setResource A path p.1 p.2 { ops := [], store := [], written := w }
  (r.1, r.2.ops)

theorem setEffect_eq {A : ArchiveType} {path : String} {w : List String} {p : String × Value} {s : BState}
    (h : ∀ sig, A.resources.lookup p.1 = some sig → (p.1 ∈ s.written ↔ p.1 ∈ w)) :
    (setResource A path p.1 p.2 s).1 = (setEffect A path w p).1 ∧
    (setResource A path p.1 p.2 s).2.ops = s.ops ++ (setEffect A path w p).2 := by
  unfold setEffect
  rcases set_cases A path p.1 p.2 s with ⟨hl, e⟩ | ⟨sig, hl, hw, e⟩ | ⟨sig, hl, hw, e⟩
  · unfold setResource; simp [hl]
  · unfold setResource; simp [hl, hw, (h _ hl).mp hw]
  · have hw' : p.1 ∉ w := fun hc => hw ((h _ hl).mpr hc)
    rw [e]
    unfold setResource
    simp only [hl, hw', if_false]
    obtain ⟨r, o, _, hind⟩ := setBody_indep path p.1 sig p.2
    obtain ⟨r1, o1, -⟩ := hind s
    obtain ⟨r2, o2, -⟩ := hind { ops := [], store := [], written := w }
    rw [r1, o1, r2, o2]; simp

theorem sets_effect {A : ArchiveType} {path : String} (hA : NoClash A) (l : List (String × Value))
    (hnd : (l.map (·.1)).Nodup) (w : List String) (s : BState) (h : ∀ p ∈ l, ∀ sig, A.resources.lookup p.1 = some sig → (p.1 ∈ s.written ↔ p.1 ∈ w)) :
    outcomes A path (setCalls l) s = l.map (fun p => (.set p.1 p.2, (setEffect A path w p).1)) ∧
    (runCalls A path (setCalls l) s).ops = s.ops ++ l.flatMap fun p => (setEffect A path w p).2 := by
  induction l generalizing s with
  | nil => exact ⟨rfl, by simp [setCalls, runCalls]⟩
  | cons p l ih =>
    simp only [List.map_cons, List.nodup_cons] at hnd
    obtain ⟨h1, h2⟩ := setEffect_eq (A := A) (path := path) (h p (by simp))
    have hstep : ∀ q ∈ l, ∀ sig, A.resources.lookup q.1 = some sig →
        (q.1 ∈ (setResource A path p.1 p.2 s).2.written ↔ q.1 ∈ w) := by
      intro q hq sg hsg
      rw [← h q (by simp [hq]) sg hsg]
      rcases set_cases A path p.1 p.2 s with ⟨-, e⟩ | ⟨sig, -, -, e⟩ | ⟨sig, hl, hw, e⟩
      · rw [e]
      · rw [e]
      · rw [e]
        obtain ⟨w', hw1, hw2, -⟩ := setBody_marks_iff path p.1 sig p.2 s
        rw [hw1, List.mem_append]
        refine ⟨fun hc => hc.resolve_right fun hq' => ?_, .inl⟩
        have hne : q.1 ≠ p.1 := fun e => hnd.1 (e ▸ List.mem_map_of_mem hq)
        exact noClash_names hA hsg hl hne q.1 (name_owned _ _) (markNames_owned (hw2 _ hq'))
    obtain ⟨i1, i2⟩ := ih hnd.2 _ hstep
    refine ⟨?_, ?_⟩
    · simp only [setCalls, List.map_cons, outcomes, runCall, h1] at i1 ⊢
      rw [i1]
    · simp only [setCalls, List.map_cons, runCalls, runCall] at i2 ⊢
      rw [i2, h2]; simp

theorem setEffect_files {A : ArchiveType} {path : String} {w : List String} {p : String × Value} {op : FsOp}
    (h : op ∈ (setEffect A path w p).2) : ∃ sig, A.resources.lookup p.1 = some sig ∧ op.file ∈ ownedFiles p.1 sig := by
  unfold setEffect at h
  rcases set_cases A path p.1 p.2 { ops := [], store := [], written := w } with ⟨-, e⟩ | ⟨sig, -, -, e⟩ | ⟨sig, hl, -, e⟩
  · rw [e] at h; simp at h
  · rw [e] at h; simp at h
  · rw [e] at h
    obtain ⟨ops, _, ho, hin, -⟩ := touches_set_filesOf (path := path) (n := p.1) (sig := sig) (v := p.2)
      { ops := [], store := [], written := w }
    simp only [ho, List.nil_append] at h
    exact ⟨sig, hl, hin op h⟩

theorem perm_files {A : ArchiveType} {path : String} {w : List String} (hA : NoClash A) (n : String)
    {l l' : List (String × Value)} (hp : l.Perm l') (hnd : (l.map (·.1)).Nodup) :
    (l.flatMap fun p => (setEffect A path w p).2).filter (fun op => op.file = n) =
    (l'.flatMap fun p => (setEffect A path w p).2).filter (fun op => op.file = n) := by
  induction hp with
  | nil => rfl
  | cons p _ ih =>
    simp only [List.map_cons, List.nodup_cons] at hnd
    simp only [List.flatMap_cons, List.filter_append, ih hnd.2]
  | swap p q l =>
    simp only [List.flatMap_cons, List.filter_append, ← List.append_assoc]
    congr 1
    simp only [List.map_cons, List.nodup_cons, List.mem_cons, not_or] at hnd
    have hne : p.1 ≠ q.1 := fun e => hnd.1.1 e.symm
    have : ((setEffect A path w p).2.filter (fun op => op.file = n) = []) ∨
        ((setEffect A path w q).2.filter (fun op => op.file = n) = []) := by
      by_contra hc
      rw [not_or] at hc
      obtain ⟨op, hop⟩ := List.exists_mem_of_ne_nil _ hc.1
      obtain ⟨op', hop'⟩ := List.exists_mem_of_ne_nil _ hc.2
      simp only [List.mem_filter, decide_eq_true_eq] at hop hop'
      obtain ⟨sg, h1, h2⟩ := setEffect_files hop.1
      obtain ⟨sg', h1', h2'⟩ := setEffect_files hop'.1
      exact noClash_names hA h1 h1' hne _ h2 (by rw [hop.2, ← hop'.2]; exact h2')
    rcases this with h | h <;> rw [h] <;> simp
  | trans h1 _ ih1 ih2 => rw [ih1 hnd, ih2 ((h1.map _).nodup_iff.mp hnd)]

/-- **C31.** Setting the same resources to the same values in another order gives every call the same outcome and
leaves every file with the same contents; the calls may fail, and the builder may have any history. -/
theorem C31_order_irrelevant (A : ArchiveType) (path : String) (l l' : List (String × Value)) (s : BState) (f : Files)
    (hA : NoClash A) (hnd : (l.map (·.1)).Nodup) (hp : l.Perm l') :
    (outcomes A path (setCalls l) s).Perm (outcomes A path (setCalls l') s) ∧
    ∀ n, replay f (runCalls A path (setCalls l) s).ops n = replay f (runCalls A path (setCalls l') s).ops n := by
  have hnd' : (l'.map (·.1)).Nodup := (hp.map _).nodup_iff.mp hnd
  obtain ⟨h1, h2⟩ := sets_effect (path := path) hA l hnd s.written s fun _ _ _ _ => Iff.rfl
  obtain ⟨h1', h2'⟩ := sets_effect (path := path) hA l' hnd' s.written s fun _ _ _ _ => Iff.rfl
  rw [h1, h1', h2, h2']
  refine ⟨hp.map _, fun n => ?_⟩
  rw [replay_append, replay_append]
  exact replay_filter_eq _ (perm_files hA n hp hnd)

/-! ## C34 -/

/-- **C34.** `finish` never raises, and for each file: if its resource is still open, the data buffered for it is
appended to the file; otherwise the file is unchanged. Afterwards no resource is open. -/
theorem C34_finish_effect (A : ArchiveType) (path : String) (calls : List Call) (f : Files) :
    let s := runCalls A path calls (newBuilder A path)
    ∃ s', finish s = (.ok (), s') ∧ (∀ n r, s'.store.lookup n = some r → r.valid = false) ∧
      ∀ n, replay f s'.ops n =
        match s.store.lookup n with
        | some ⟨b :: bs, true⟩ => some ((replay f s.ops n).getD [] ++ (b :: bs))
        | _ => replay f s.ops n := by
  intro s
  have hg : GoodStore s := good_calls calls (good_new A path)
  obtain ⟨s', e, -, -, k⟩ := finish_run hg
  refine ⟨s', e, fun n r hr => ?_, fun n => ?_⟩
  · rw [k] at hr
    cases hl : s.store.lookup n with
    | none => rw [hl] at hr; simp at hr
    | some r' => rw [hl] at hr; simp at hr; rw [← hr]; exact shut_invalid r'
  · have := finish_replay hg f n
    rw [e] at this
    rw [this]
    unfold closeOps
    cases hl : s.store.lookup n with
    | none => rfl
    | some r =>
      obtain ⟨d, v⟩ := r
      cases v with
      | false => simp [replay]
      | true =>
        cases d with
        | nil => simp [writeOps, replay]
        | cons b bs => simp [writeOps, replay, applyOp]

theorem closed_call {A : ArchiveType} {path : String} (hA : NoClash A) {c : Call} {s : BState} {name : String} {sig : Sig}
    (hl : A.resources.lookup name = some sig) (hw : name ∈ s.written) (hg : GoodStore s) {n : String}
    (hn : n ∈ ownedFiles name sig) (hc : Closed s n) :
    Closed (runCall A path c s).2 n ∧ ∀ f, replay f (runCall A path c s).2.ops n = replay f s.ops n := by
  cases c with
  | set m v =>
    rcases set_cases A path m v s with ⟨-, e⟩ | ⟨sg, -, -, e⟩ | ⟨sg, hl', hw', e⟩
    · simp only [runCall, e]; exact ⟨hc, fun _ => trivial⟩
    · simp only [runCall, e]; exact ⟨hc, fun _ => trivial⟩
    · have hne : name ≠ m := by rintro rfl; exact hw' hw
      have hnm := noClash_names hA hl hl' hne n hn
      simp only [runCall, e]
      refine ⟨touches_set_filesOf.closed hnm hc, fun f => ?_⟩
      obtain ⟨ops, _, ho, hin, -⟩ := touches_set_filesOf (path := path) (n := m) (sig := sg) (v := v) s
      rw [ho, replay_append, replay_untouched]
      intro op hop he; exact hnm (he ▸ hin op hop)
  | finish =>
    obtain ⟨s', e, -, -, k⟩ := finish_run hg
    have hr := fun f => finish_replay hg f n
    rw [e] at hr
    simp only [runCall, e]
    have hco : closeOps s.store n = [] := by
      unfold closeOps
      cases hl : s.store.lookup n with
      | none => rfl
      | some r => simp [hc r hl]
    refine ⟨fun r hr => ?_, fun f => by rw [hr, hco]; rfl⟩
    rw [k] at hr
    cases hl : s.store.lookup n with
    | none => rw [hl] at hr; simp at hr
    | some r' => rw [hl] at hr; simp at hr; rw [← hr]; exact shut_invalid r'

theorem closed_calls {A : ArchiveType} {path : String} (hA : NoClash A) (cs : List Call) {s : BState} {name : String}
    {sig : Sig} (hl : A.resources.lookup name = some sig) (hw : name ∈ s.written) (hg : GoodStore s) {n : String}
    (hn : n ∈ ownedFiles name sig) (hc : Closed s n) :
    Closed (runCalls A path cs s) n ∧ ∀ f, replay f (runCalls A path cs s).ops n = replay f s.ops n := by
  induction cs generalizing s with
  | nil => exact ⟨hc, fun _ => rfl⟩
  | cons c cs ih =>
    obtain ⟨h1, h2⟩ := closed_call (path := path) (c := c) hA hl hw hg hn hc
    obtain ⟨h3, h4⟩ := ih (written_mono_call hw) (good_call hg) h1
    exact ⟨h3, fun f => by rw [show runCalls A path (c :: cs) s = runCalls A path cs (runCall A path c s).2 from rfl, h4, h2]⟩

/-- **C34.** Once `set` of a resource has returned, no later call, in particular no `finish`, changes any of its
files. -/
theorem C34_completed_resources_stay (A : ArchiveType) (path name : String) (sig : Sig) (v : Value) (before after : List Call)
    (f : Files) (hA : NoClash A) (hl : A.resources.lookup name = some sig)
    (hok : (runCall A path (.set name v) (runCalls A path before (newBuilder A path))).1 = .ok ()) :
    ∀ n ∈ ownedFiles name sig,
      replay f (runCalls A path (before ++ .set name v :: after) (newBuilder A path)).ops n =
      replay f (runCalls A path (before ++ [.set name v]) (newBuilder A path)).ops n := by
  intro n hn
  rw [runCalls_append, runCalls_append]
  generalize hs : runCalls A path before (newBuilder A path) = s at *
  have hg : GoodStore s := hs ▸ good_calls before (good_new A path)
  show replay f (runCalls A path after (runCall A path (.set name v) s).2).ops n =
    replay f (runCall A path (.set name v) s).2.ops n
  simp only [runCall] at hok ⊢
  rcases set_cases A path name v s with ⟨-, e⟩ | ⟨sg, -, -, e⟩ | ⟨sg, hl', hw', e⟩
  · rw [e] at hok; simp at hok
  · rw [e] at hok; simp at hok
  · rw [hl] at hl'; cases hl'
    rw [e] at hok ⊢
    have heq : setBody path name sig v s = (.ok (), (setBody path name sig v s).2) := by rw [← hok]
    exact (closed_calls hA after hl (setBody_marks heq) (keeps_setBody s hg) hn (setBody_closed_all heq n hn)).2 f

/-- **C34.** `finish` is idempotent: a second one performs no file operation. -/
theorem C34_finish_idempotent (A : ArchiveType) (path : String) (calls : List Call) :
    let s := runCalls A path (calls ++ [.finish]) (newBuilder A path)
    ∃ s', finish s = (.ok (), s') ∧ s'.ops = s.ops := by
  intro s
  have hg : GoodStore s := good_calls _ (good_new A path)
  obtain ⟨s', e, o, -, -⟩ := finish_run hg
  refine ⟨s', e, ?_⟩
  have hclosed : ∀ n r, s.store.lookup n = some r → r.valid = false := by
    obtain ⟨t, e, h, -⟩ := C34_finish_effect A path calls (fun _ => none)
    have : s = t := by
      simp only [s, runCalls_append, runCalls, runCall, e]
    rw [this]; exact h
  rw [o]
  have : (s.store.map (·.1)).flatMap (closeOps s.store) = [] := by
    rw [List.flatMap_eq_nil_iff]
    intro n _
    unfold closeOps
    cases hl : s.store.lookup n with
    | none => rfl
    | some r => simp [hclosed n r hl]
  rw [this]; simp

theorem closed_new {A : ArchiveType} {path : String} (hp : path ≠ "") : ∀ n, Closed (newBuilder A path) n := by
  intro n r hr
  unfold newBuilder builderInit at hr
  have h1 : A.name ++ ".archive" ≠ "" := by
    intro e; have := congrArg String.length e; rw [String.length_append] at this; simp at this
  have h2 : A.name ++ ".archive.schema" ≠ "" := by
    intro e; have := congrArg String.length e; rw [String.length_append] at this; simp at this
  obtain ⟨s1, e1, -, -, l1, k1⟩ := writeRawData_ok hp h1 (List.replicate 16 0) BState.initial
  obtain ⟨s2, e2, -, -, l2, k2⟩ := writeRawData_ok hp h2 (encodeUtf8 A.schema) s1
  rw [BM.bind_ok e1, BM.bind_ok e2] at hr
  simp only [markWritten] at hr
  by_cases hn2 : n = A.name ++ ".archive.schema"
  · subst hn2; rw [l2] at hr; cases hr; rfl
  · rw [k2 n hn2] at hr
    by_cases hn1 : n = A.name ++ ".archive"
    · subst hn1; rw [l1] at hr; cases hr; rfl
    · rw [k1 n hn1] at hr; simp [BState.initial] at hr

/-- **C34.** If every `set` returned, `finish` performs no file operation. -/
theorem C34_nothing_to_flush (A : ArchiveType) (path : String) (calls : List Call) (hp : path ≠ "")
    (hok : ∀ o ∈ outcomes A path calls (newBuilder A path), o.2 = .ok ()) :
    let s := runCalls A path calls (newBuilder A path)
    ∃ s', finish s = (.ok (), s') ∧ s'.ops = s.ops := by
  have key : ∀ (cs : List Call) (s : BState), GoodStore s → (∀ n, Closed s n) → (∀ o ∈ outcomes A path cs s, o.2 = .ok ()) →
      GoodStore (runCalls A path cs s) ∧ ∀ n, Closed (runCalls A path cs s) n := by
    intro cs
    induction cs with
    | nil => intro s hg hc _; exact ⟨hg, hc⟩
    | cons c cs ih =>
      intro s hg hc ho
      refine ih _ (good_call hg) ?_ fun o hm => ho o (by simp [outcomes, hm])
      have h0 : (runCall A path c s).1 = .ok () := ho (c, _) (by simp [outcomes])
      intro n
      cases c with
      | finish =>
        obtain ⟨s', e, -, -, k⟩ := finish_run hg
        simp only [runCall, e]
        intro r hr
        rw [k] at hr
        cases hl : s.store.lookup n with
        | none => rw [hl] at hr; simp at hr
        | some r' => rw [hl] at hr; simp at hr; rw [← hr]; exact shut_invalid r'
      | set m v =>
        simp only [runCall] at h0 ⊢
        rcases set_cases A path m v s with ⟨-, e⟩ | ⟨sg, -, -, e⟩ | ⟨sg, hl', hw', e⟩
        · rw [e] at h0; simp at h0
        · rw [e] at h0; simp at h0
        · rw [e] at h0 ⊢
          by_cases hn : n ∈ ownedFiles m sg
          · exact setBody_closed_all (s' := (setBody path m sg v s).2) (by rw [← h0]) n hn
          · exact touches_set_filesOf.closed hn (hc n)
  intro s
  obtain ⟨hg, hc⟩ := key calls _ (good_new A path) (closed_new hp) hok
  obtain ⟨s', e, o, -, -⟩ := finish_run hg
  refine ⟨s', e, ?_⟩
  rw [o]
  have : (s.store.map (·.1)).flatMap (closeOps s.store) = [] := by
    rw [List.flatMap_eq_nil_iff]
    intro n _
    unfold closeOps
    cases hl : s.store.lookup n with
    | none => rfl
    | some r => simp [hc n r hl]
  rw [this, List.append_nil]

/-! ## C35 -/

theorem setBody_payload {path name : String} {sig : Sig} {value : Value} {s s' : BState}
    (h : setBody path name sig value s = (.ok (), s')) :
    ∃ s2 s3, s2.store.lookup name = some ⟨[], true⟩ ∧ setPayload path name sig value s2 = (.ok (), s3) ∧
      ∀ f, replay f s'.ops name = some (frame ((s3.store.lookup name).getD ⟨[], false⟩).data) := by
  unfold setBody at h
  obtain ⟨_, s1, e1, h⟩ := BM.bind_inv h
  obtain ⟨hp, hns⟩ := writeRawData_inv e1
  obtain ⟨_, s2, e2, h⟩ := BM.bind_inv h
  obtain ⟨-, hn⟩ := storageGet_inv e2
  obtain ⟨_, e2', o2, -, l2, -⟩ := storageGet_ok hp hn s1
  rw [e2] at e2'; cases e2'
  obtain ⟨_, s3, e3, h⟩ := BM.bind_inv h
  obtain ⟨mid, o3, hm⟩ := setPayload_mid e3
  obtain ⟨_, t1, f1, h⟩ := BM.bind_inv h
  obtain ⟨_, t2, f2, h⟩ := BM.bind_inv h
  obtain ⟨_, t3, f3, h⟩ := BM.bind_inv h
  obtain ⟨p, hpl, hpe, o4, -, -, -⟩ := closeFramed_inv f1 f2 f3
  have o5 : s'.ops = t3.ops := by rw [← show (markWritten name t3).2.ops = t3.ops from rfl, h]
  refine ⟨s2, s3, l2, e3, fun f => ?_⟩
  rw [o5, o4, o3, o2, ← hpe]
  have hmid := midOps_files hm
  have hne : ∀ c, c ≠ "" → name ++ c ≠ name := fun c hc => (str_ne_append name c hc).symm
  have := replay_open_write f s1.ops mid [] name (frame p) (fun op hop => by
    rcases hmid op hop with e | e <;> rw [e] <;> exact hne _ (by decide)) (by simp)
  simpa using this

/-- Contents of the data file if the value was stored as it is documented (for multivectors see C14). -/
def StoredAs (sig : Sig) (v : Value) (file : Bytes) : Prop :=
  match sig, v with
  | .instance t _ _, .dict d => ∃ b, serialize t d = .ok b ∧ file = frame b
  | .vector t _ _, .list l => ∃ bs, l.mapM (serialize t) = .ok bs ∧ file = frame bs.flatten
  | .multivector _ ts _ _, .buckets l => ∃ bs : List Bytes, List.Forall₂ (fun os b => ∃ parts : List Bytes,
      List.Forall₂ (fun o p => ∃ n, serializeObj ts o = .ok (n, p)) os parts ∧ b = parts.flatten) l bs ∧ file = frame bs.flatten
  | .rawData _ _, .bytes b => file = frame b
  | _, _ => False

/-- The two combinations in which `set` returns although it stored nothing. -/
def SilentlyDropped (sig : Sig) (v : Value) : Prop :=
  (∃ sch o, sig = .rawData sch o ∧ ∀ b, v ≠ .bytes b) ∨ (∃ n a rs sch o, sig = .sub n a rs sch o)

theorem resWrite_inv {name : String} {b : Bytes} {s s' : BState} {d : Bytes} {w : Bool} (h : resWrite name b s = (.ok (), s'))
    (hs : s.store.lookup name = some ⟨d, w⟩) : s'.store.lookup name = some ⟨d ++ b, w⟩ := by
  simp only [resWrite, BM.bind_run, theRes_run hs, putRes, Prod.mk.injEq] at h
  rw [← h.2]; simp [lookup_dictSet]

theorem lift_inv {α} {x : M α} {a : α} {s s' : BState} (h : BM.lift x s = (.ok a, s')) : x = .ok a ∧ s' = s := by
  simp only [BM.lift_run, Prod.mk.injEq] at h; exact ⟨h.1, h.2.symm⟩

theorem forEach_lift_inv {α} {l : List α} {f : α → M Unit} {s s' : BState}
    (h : forEach l (fun a => BM.lift (f a)) s = (.ok (), s')) : s' = s := by
  induction l generalizing s with
  | nil => cases h; rfl
  | cons a l ih =>
    obtain ⟨_, s1, e1, h2⟩ := BM.bind_inv (f := fun _ => forEach l fun a => BM.lift (f a)) h
    rw [(lift_inv e1).2] at h2
    exact ih h2

theorem writeElements_inv {name : String} {t : StructType} {l : List Dict} {s s' : BState} {d : Bytes}
    (h : forEach l (fun v => writeElement name t v) s = (.ok (), s')) (hs : s.store.lookup name = some ⟨d, true⟩) :
    ∃ bs, l.mapM (serialize t) = .ok bs ∧ s'.store.lookup name = some ⟨d ++ bs.flatten, true⟩ := by
  induction l generalizing s d with
  | nil => cases h; exact ⟨[], rfl, by simpa using hs⟩
  | cons a l ih =>
    obtain ⟨_, s1, e1, h'⟩ := BM.bind_inv (f := fun _ => forEach l fun v => writeElement name t v) h
    unfold writeElement at e1
    obtain ⟨b, s2, e2, e3⟩ := BM.bind_inv e1
    obtain ⟨e4, e5⟩ := lift_inv e2
    rw [e5] at e3
    obtain ⟨bs, h1, h2⟩ := ih h' (resWrite_inv e3 hs)
    exact ⟨b :: bs, by rw [List.mapM_cons, e4, h1]; rfl, by simpa using h2⟩

theorem writeBucket_inv {name : String} {ts : List StructType} {os : List Obj} {dp dp' : Nat} {s s' : BState} {d : Bytes}
    (h : writeBucket name ts os dp s = (.ok dp', s')) (hs : s.store.lookup name = some ⟨d, true⟩) :
    ∃ ps : List Bytes, List.Forall₂ (fun o p => ∃ n, serializeObj ts o = .ok (n, p)) os ps ∧
      s'.store.lookup name = some ⟨d ++ ps.flatten, true⟩ := by
  induction os generalizing s d dp with
  | nil =>
    simp only [writeBucket] at h
    cases h; exact ⟨[], .nil, by simpa using hs⟩
  | cons o os ih =>
    unfold writeBucket at h
    obtain ⟨dp1, s1, e1, h⟩ := BM.bind_inv h
    unfold writeObj at e1
    obtain ⟨⟨n, b⟩, s2, e2, e3⟩ := BM.bind_inv e1
    obtain ⟨e4, e5⟩ := lift_inv e2
    rw [e5] at e3
    obtain ⟨_, s3, e6, e7⟩ := BM.bind_inv e3
    simp only [BM.pure_run, Prod.mk.injEq] at e7
    rw [← e7.2] at h
    obtain ⟨ps, h1, h2⟩ := ih h (resWrite_inv e6 hs)
    exact ⟨b :: ps, .cons ⟨n, e4⟩ h1, by simpa using h2⟩

theorem writeBuckets_inv {name : String} {ts : List StructType} {bs : List (List Obj)} {dp : Nat} {pts : List Nat}
    {s s' : BState} {d : Bytes} (h : writeBuckets name ts bs dp s = (.ok pts, s'))
    (hs : s.store.lookup name = some ⟨d, true⟩) :
    ∃ l : List Bytes, List.Forall₂ (fun os b => ∃ parts : List Bytes,
      List.Forall₂ (fun o p => ∃ n, serializeObj ts o = .ok (n, p)) os parts ∧ b = parts.flatten) bs l ∧
      s'.store.lookup name = some ⟨d ++ l.flatten, true⟩ := by
  induction bs generalizing s d dp pts with
  | nil =>
    simp only [writeBuckets] at h
    cases h; exact ⟨[], .nil, by simpa using hs⟩
  | cons b bs ih =>
    unfold writeBuckets at h
    obtain ⟨dp1, s1, e1, h⟩ := BM.bind_inv h
    obtain ⟨pts', s2, e2, h⟩ := BM.bind_inv h
    simp only [BM.pure_run, Prod.mk.injEq] at h
    obtain ⟨-, rfl⟩ := h
    obtain ⟨ps, h1, h2⟩ := writeBucket_inv e1 hs
    obtain ⟨l, h3, h4⟩ := ih e2 h2
    exact ⟨ps.flatten :: l, .cons ⟨ps, h1, rfl⟩ h3, by simpa using h4⟩

theorem stored_or_dropped (A : ArchiveType) (path name : String) (sig : Sig) (v : Value) (s s' : BState)
    (f : Files) (hl : A.resources.lookup name = some sig) (h : setResource A path name v s = (.ok (), s')) :
    (∃ b, replay f s'.ops name = some b ∧ StoredAs sig v b) ∨
    (SilentlyDropped sig v ∧ replay f s'.ops name = some (frame [])) := by
  rcases set_cases A path name v s with ⟨-, e⟩ | ⟨sg, -, -, e⟩ | ⟨sg, hl', hw', e⟩
  · rw [e] at h; simp at h
  · rw [e] at h; simp at h
  rw [hl] at hl'; cases hl'
  rw [e] at h
  obtain ⟨s2, s3, l2, e3, hf⟩ := setBody_payload h
  rw [hf]
  unfold setPayload at e3
  split at e3
  · rename_i t sch o d
    unfold setInstance at e3
    obtain ⟨_, s4, e4, e3a⟩ := BM.bind_inv e3
    rw [(lift_inv e4).2] at e3a
    obtain ⟨b, s5, e5, e3b⟩ := BM.bind_inv e3a
    rw [(lift_inv e5).2] at e3b
    have := resWrite_inv e3b l2
    exact .inl ⟨_, rfl, b, (lift_inv e5).1, by rw [this]; simp⟩
  · rename_i t sch o l
    unfold setVector at e3
    obtain ⟨_, s4, e4, e3a⟩ := BM.bind_inv e3
    rw [forEach_lift_inv e4] at e3a
    obtain ⟨bs, h1, h2⟩ := writeElements_inv e3a l2
    exact .inl ⟨_, rfl, bs, h1, by rw [h2]; simp⟩
  · rename_i it ts sch o l
    unfold setMultivector at e3
    obtain ⟨_, s4, e4, e3a⟩ := BM.bind_inv e3
    have : s4 = s2 := by
      have : ∀ (l : List (List Obj)) (s s' : BState), forEach l (fun sub => forEach sub fun obj =>
          BM.lift (validateObj name ts obj)) s = (.ok (), s') → s' = s := by
        intro l
        induction l with
        | nil => intro s s' h; cases h; rfl
        | cons a l ih =>
          intro s s' h
          obtain ⟨_, s1, e1, h2⟩ := BM.bind_inv
            (f := fun _ => forEach l fun sub => forEach sub fun obj => BM.lift (validateObj name ts obj)) h
          rw [forEach_lift_inv e1] at h2
          exact ih _ _ h2
      exact this _ _ _ e4
    rw [this] at e3a
    obtain ⟨pts, s5, e5, e3⟩ := BM.bind_inv e3a
    obtain ⟨bs, h1, h2⟩ := writeBuckets_inv e5 l2
    have hkeep : s3.store.lookup name = s5.store.lookup name := by
      have ht : Touches [name ++ "_index", name ++ "_index.schema"] (do
          indexWriterInit path name it.sizeInBytes
          forEach pts fun index => indexWriterAdd name it.sizeInBytes index
          indexWriterFinish name
          writeRawData path (name ++ "_index.schema") (encodeUtf8 ("index(" ++ sch ++ ")"))) := by
        have m1 : name ++ "_index" ∈ [name ++ "_index", name ++ "_index.schema"] := by simp
        refine touches_bind ?_ fun _ => ?_
        · unfold indexWriterInit; split
          · exact touches_raise _
          · exact touches_storageGet m1
        refine touches_bind (touches_forEach fun _ => touches_bind (touches_lift _) fun _ => touches_resWrite m1) fun _ => ?_
        refine touches_bind (touches_bind (touches_resAddSize m1) fun _ => touches_bind (touches_resAddPadding m1) fun _ =>
          touches_resClose m1) fun _ => ?_
        exact touches_writeRawData (by simp)
      obtain ⟨_, s6, e6, e3⟩ := BM.bind_inv e3
      obtain ⟨_, s7, e7, e3⟩ := BM.bind_inv e3
      obtain ⟨_, s8, e8, e3⟩ := BM.bind_inv e3
      obtain ⟨_, s9, e9, e3⟩ := BM.bind_inv e3
      have hall := ht s5
      rw [BM.bind_ok e6, BM.bind_ok e7, BM.bind_ok e8, e9] at hall
      obtain ⟨_, _, -, -, -, -, hst⟩ := hall
      have hst := hst name (by
        simp only [List.mem_cons, List.not_mem_nil, or_false, not_or]
        exact ⟨str_ne_append _ _ (by decide), str_ne_append _ _ (by decide)⟩)
      rw [← hst]
      obtain ⟨_, s10, e10, e3⟩ := BM.bind_inv e3
      simp only [markWritten, Prod.mk.injEq] at e10 e3
      rw [← e3.2, ← e10.2]
    exact .inl ⟨_, rfl, bs, h1, by rw [hkeep, h2]; simp⟩
  · rename_i sch o b
    have := resWrite_inv e3 l2
    exact .inl ⟨_, rfl, by rw [this]; simp [StoredAs]⟩
  · rename_i sch o hx
    cases e3
    refine .inr ⟨.inl ⟨_, _, rfl, fun b hb => ?_⟩, by rw [l2]; rfl⟩
    exact hx b hb
  · cases e3
    exact .inr ⟨.inr ⟨_, _, _, _, _, rfl⟩, by rw [l2]; rfl⟩
  · simp [BM.raise] at e3

theorem not_stored_of_dropped {sig : Sig} {v : Value} {b : Bytes} (h : SilentlyDropped sig v) : ¬ StoredAs sig v b := by
  rcases h with ⟨sch, o, rfl, hv⟩ | ⟨n, a, rs, sch, o, rfl⟩
  · cases v <;> simp [StoredAs]
    exact absurd rfl (hv _)
  · cases v <;> simp [StoredAs]

/-- **C35.** Whatever the kind of resource and the value: if `set` returns, the data file contains the serialised value, except in
exactly two cases, in which it contains an empty payload instead: raw data given as anything but bytes (for instance a `str`), and
a sub-archive resource (whatever the value). -/
theorem C35_stored_or_dropped (A : ArchiveType) (path name : String) (sig : Sig) (v : Value) (s s' : BState)
    (f : Files) (hl : A.resources.lookup name = some sig) (h : setResource A path name v s = (.ok (), s')) :
    ((∃ b, replay f s'.ops name = some b ∧ StoredAs sig v b) ↔ ¬ SilentlyDropped sig v) ∧
    (SilentlyDropped sig v → replay f s'.ops name = some (frame [])) := by
  rcases stored_or_dropped A path name sig v s s' f hl h with ⟨b, h1, h2⟩ | ⟨h1, h2⟩
  · have hn : ¬ SilentlyDropped sig v := fun hd => not_stored_of_dropped hd h2
    exact ⟨⟨fun _ => hn, fun _ => ⟨b, h1, h2⟩⟩, fun hd => absurd hd hn⟩
  · exact ⟨⟨fun ⟨b, _, hs⟩ => absurd hs (not_stored_of_dropped h1), fun hn => absurd h1 hn⟩, fun _ => h2⟩

/-- **C35**, counterexample: raw data given as something else than bytes (for instance a `str`) is accepted and an
empty resource is stored. -/
theorem C35_counterexample_raw (A : ArchiveType) (path name sch : String) (o : Bool) (s : BState) (f : Files)
    (hl : A.resources.lookup name = some (.rawData sch o)) (hp : path ≠ "") (hn : name ≠ "") (hw : name ∉ s.written) :
    ∃ s', setResource A path name .other s = (.ok (), s') ∧ replay f s'.ops name = some (frame []) := by
  obtain ⟨s', e, -⟩ := setBody_ok (sig := .rawData sch o) (value := .other) (p := []) (mid := []) (wmid := []) hp hn (by simp)
    (fun s hs => ⟨s, rfl, by simp, by simp, hs⟩) s
  refine ⟨s', by rw [set_run hl hw, e], ?_⟩
  rcases stored_or_dropped A path name _ .other s s' f hl (by rw [set_run hl hw, e]) with ⟨b, -, h⟩ | ⟨-, h⟩
  · exact absurd h (by simp [StoredAs])
  · exact h

/-- **C35**, counterexample: `set` of a sub-archive resource is accepted with any value, and a regular file is written
where the reader expects a directory. -/
theorem C35_counterexample_sub (A : ArchiveType) (path name n a sch : String) (rs : List (String × Sig)) (o : Bool)
    (v : Value) (s : BState) (f : Files)
    (hl : A.resources.lookup name = some (.sub n a rs sch o)) (hp : path ≠ "") (hn : name ≠ "") (hw : name ∉ s.written) :
    ∃ s', setResource A path name v s = (.ok (), s') ∧ replay f s'.ops name = some (frame []) := by
  obtain ⟨s', e, -⟩ := setBody_ok (sig := .sub n a rs sch o) (value := v) (p := []) (mid := []) (wmid := []) hp hn (by simp)
    (fun s hs => ⟨s, by cases v <;> rfl, by simp, by simp, hs⟩) s
  refine ⟨s', by rw [set_run hl hw, e], ?_⟩
  rcases stored_or_dropped A path name _ v s s' f hl (by rw [set_run hl hw, e]) with ⟨b, -, h⟩ | ⟨-, h⟩
  · exact absurd h (by simp [StoredAs])
  · exact h

/-! ## A simple condition for `NoClash` -/

/-- The names the schema language allows: resource and archive names are identifiers, so they contain no dot, and
they are distinct; in addition no resource is called like the index of a multivector. -/
structure PlainNames (name : String) (rs : List (String × Sig)) : Prop where
  dot : '.' ∉ name.toList
  dots : ∀ p ∈ rs, '.' ∉ p.1.toList
  nodup : (rs.map (·.1)).Nodup
  index : ∀ p ∈ rs, ∀ q ∈ rs, p.1 ≠ q.1 ++ "_index"

theorem append_schema_inj {a b c : String} (h : a ++ c = b ++ c) : a = b := by
  have := congrArg String.toList h
  simp only [String.toList_append, List.append_cancel_right_eq] at this
  exact String.toList_injective this

theorem owned_shape {n x : String} {sg : Sig} (h : x ∈ ownedFiles n sg) :
    x = n ∨ x = n ++ ".schema" ∨ x = n ++ "_index" ∨ x = n ++ "_index" ++ ".schema" := by
  have e : n ++ "_index" ++ ".schema" = n ++ "_index.schema" := by
    rw [String.append_assoc]; rfl
  rw [e]
  cases sg <;> simp [ownedFiles] at h <;> tauto

theorem dot_append {n c : String} (h : '.' ∈ c.toList) : '.' ∈ (n ++ c).toList := by
  rw [String.toList_append]; exact List.mem_append_right _ h

theorem no_dot_index {n : String} (h : '.' ∉ n.toList) : '.' ∉ (n ++ "_index").toList := by
  rw [String.toList_append, List.mem_append, not_or]; exact ⟨h, by decide⟩

/-- Every archive with plain names has no clashes. -/
theorem noClash_of_plain {name schema : String} {rs : List (String × Sig)} (h : PlainNames name rs) :
    NoClash (mkArchive name schema rs) := by
  have hd := h.dot
  have shape : ∀ p ∈ rs, ∀ x ∈ ownedFiles p.1 p.2, x ∉ ownedFiles (name ++ ".archive") (.rawData schema false) := by
    intro p hp x hx hc
    have hpd := h.dots p hp
    have hda : '.' ∈ (name ++ ".archive").toList := dot_append (by decide)
    have last : ∀ a b : String, a ++ ".schema" ≠ b ++ ".archive" := by
      intro a b e
      have := congrArg (fun s => s.toList.getLast?) e
      simp only [String.toList_append, List.getLast?_append] at this
      rw [show ".schema".toList.getLast? = some 'a' by decide, show ".archive".toList.getLast? = some 'e' by decide] at this
      simp at this
    simp only [ownedFiles, List.mem_cons, List.not_mem_nil, or_false] at hc
    rcases owned_shape hx with e | e | e | e <;> rcases hc with e' | e' <;> rw [e] at e'
    · exact hpd (e' ▸ hda)
    · exact hpd (e' ▸ dot_append (by decide))
    · exact last _ _ e'
    · exact hpd (append_schema_inj e' ▸ hda)
    · exact no_dot_index hpd (e' ▸ hda)
    · exact no_dot_index hpd (e' ▸ dot_append (by decide))
    · exact last _ _ e'
    · exact no_dot_index hpd (append_schema_inj e' ▸ hda)
  have inner : ∀ p ∈ rs, ∀ q ∈ rs, p.1 ≠ q.1 → ∀ x ∈ ownedFiles p.1 p.2, x ∉ ownedFiles q.1 q.2 := by
    intro p hp q hq hne x hx hc
    have hpd := h.dots p hp
    have hqd := h.dots q hq
    have hs : '.' ∈ ".schema".toList := by decide
    rcases owned_shape hx with e | e | e | e <;> rcases owned_shape hc with e' | e' | e' | e' <;> rw [e] at e'
    · exact hne e'
    · exact hpd (e' ▸ dot_append hs)
    · exact h.index p hp q hq e'
    · exact hpd (e' ▸ dot_append hs)
    · exact hqd (e' ▸ dot_append hs)
    · exact hne (append_schema_inj e')
    · exact no_dot_index hqd (e' ▸ dot_append hs)
    · exact h.index p hp q hq (append_schema_inj e')
    · exact h.index q hq p hp e'.symm
    · exact no_dot_index hpd (e' ▸ dot_append hs)
    · exact hne (append_schema_inj e')
    · exact no_dot_index hpd (e' ▸ dot_append hs)
    · exact hqd (e' ▸ dot_append hs)
    · exact h.index q hq p hp (append_schema_inj e').symm
    · exact no_dot_index hqd (e' ▸ dot_append hs)
    · exact hne (append_schema_inj (append_schema_inj e'))
  constructor
  · simp only [mkArchive, List.map_cons, List.nodup_cons]
    refine ⟨fun hc => ?_, h.nodup⟩
    obtain ⟨p, hp, e⟩ := List.mem_map.mp hc
    exact h.dots p hp (e ▸ dot_append (by decide))
  · intro p hp q hq hne x hx
    simp only [mkArchive, List.mem_cons] at hp hq
    rcases hp with rfl | hp <;> rcases hq with rfl | hq
    · exact absurd rfl hne
    · exact fun hc => shape q hq x hc hx
    · exact shape p hp x hx
    · exact inner p hp q hq hne x hx

/-! ## Non-vacuity -/

/-- The resources of `shop`. -/
def shopResources : List (String × Sig) :=
  [("items", .vector (mkStruct "Item" [⟨"id", 20, false⟩, ⟨"price", 12, false⟩]) "items" false),
    ("tags", .multivector (indexType "" 32) [mkStruct "Tag" [⟨"t", 7, false⟩]] "tags" false),
    ("info", .instance (mkStruct "Info" [⟨"v", 33, true⟩]) "info" true),
    ("text", .rawData "text" false)]

/-- An archive with a vector, a multivector, an optional instance and raw data. -/
def shop : ArchiveType := mkArchive "Shop" "archive Shop" shopResources

theorem shop_noClash : NoClash shop := noClash_of_plain ⟨by decide, by decide, by decide, by decide⟩

/-- A history with a failed `set` (missing field), its repetition, a repeated `set` and a `finish`. -/
def shopCalls : List Call :=
  [.set "items" (.list [[("id", 7)]]), .set "tags" (.buckets [[⟨"Tag", [("t", 5)]⟩], []]),
   .set "items" (.list [[("id", 7), ("price", 100)]]), .set "items" (.list []), .set "text" (.bytes [1, 2, 3]), .finish]

example : (outcomes shop "dir" shopCalls (newBuilder shop "dir")).map (·.2) =
    [.error (.missingField "price" "items"), .ok (), .ok (), .error .resourceAlreadySet, .ok (), .ok ()] := by
  decide +kernel

example : replay (fun _ => none) (runCalls shop "dir" shopCalls (newBuilder shop "dir")).ops "items" =
    some (frame [7, 0, 64, 6]) := by decide +kernel

/-- C29: the failing value of the history is not exact, and the accepted one is. -/
example : ¬ ValueExact (.vector (mkStruct "Item" [⟨"id", 20, false⟩, ⟨"price", 12, false⟩]) "items" false) (.list [[("id", 7)]]) ∧
    ValueExact (.vector (mkStruct "Item" [⟨"id", 20, false⟩, ⟨"price", 12, false⟩]) "items" false)
      (.list [[("price", 1), ("id", 7)]]) := by
  constructor
  · intro h
    have := (h [("id", 7)] (by simp) "price").mp (by decide)
    revert this; decide
  · intro d hd k
    simp only [List.mem_cons, List.not_mem_nil, or_false] at hd
    subst hd
    simp [mkStruct]
    tauto

end Props
