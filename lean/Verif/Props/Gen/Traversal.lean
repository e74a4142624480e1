import Verif.Model.Gen.Traversal
import Verif.Spec.Graph
import Mathlib.Data.List.Nodup
import Mathlib.Data.List.Infix
import Mathlib.Data.Prod.Lex

/-!
# C49-C51: traversals
-/

namespace Props
open Gen Spec

set_option linter.unusedSectionVars false
variable {V : Type} [DecidableEq V]

/-- A finite graph: `univ` contains the root and is closed under taking children. -/
structure FiniteFrom (children : V → List V) (root : V) (univ : List V) : Prop where
  root_mem : root ∈ univ
  closed : ∀ v ∈ univ, ∀ c ∈ children v, c ∈ univ

/-! ## Breadth first -/

/-- The invariant of the loop. -/
structure BInv (children : V → List V) (root : V) (s : Bfs V) : Prop where
  procYield : s.yielded.map (·.1) = s.processed
  nodup : s.processed.Nodup
  walks : ∀ p ∈ s.queue, Walk children p.2 root p.1
  dists : ∀ p ∈ s.yielded, Distance children root p.1 p.2
  sortedQ : s.queue.Pairwise (·.2 ≤ ·.2)
  spread : ∀ p ∈ s.queue, ∀ q ∈ s.queue, q.2 ≤ p.2 + 1
  sortedY : s.yielded.Pairwise (·.2 ≤ ·.2)
  yq : ∀ p ∈ s.yielded, ∀ q ∈ s.queue, p.2 ≤ q.2
  qy : ∀ p ∈ s.yielded, ∀ q ∈ s.queue, q.2 ≤ p.2 + 1 ∨ ∃ p' ∈ s.yielded, q.2 ≤ p'.2 + 1
  covered : ∀ p ∈ s.yielded, ∀ c ∈ children p.1, c ∈ s.processed ∨ ∃ d, (c, d) ∈ s.queue ∧ d ≤ p.2 + 1
  rootIn : root ∈ s.processed ∨ (root, 0) ∈ s.queue

theorem binv_init (children : V → List V) (root : V) : BInv children root (Bfs.init root) := by
  constructor <;> simp [Bfs.init]
  exact Walk.refl root

/-- Everything closer than the head of the queue has been processed. -/
theorem binv_closer {children : V → List V} {root : V} {s : Bfs V} (h : BInv children root s) {x : V} {d : Nat}
    (hd : ∀ q ∈ s.queue, d ≤ q.2) {n : Nat} (hn : n < d) (hw : Walk children n root x) : x ∈ s.processed := by
  induction hw with
  | refl =>
    rcases h.rootIn with h1 | h1
    · exact h1
    · have := hd _ h1; simp at this; omega
  | @step n a b c hw hc ih =>
    have hb := ih h (by omega)
    rw [← h.procYield, List.mem_map] at hb
    obtain ⟨p, hp, rfl⟩ := hb
    have hdist := (h.dists p hp).2 n hw
    rcases h.covered p hp c hc with h1 | ⟨e, he, hle⟩
    · exact h1
    · have := hd _ he; simp only at this; omega

theorem binv_step {children : V → List V} {root : V} {s : Bfs V} (h : BInv children root s) {x : V} {d : Nat}
    {rest : List (V × Nat)} (hq : s.queue = (x, d) :: rest) : BInv children root (s.step children x d rest) := by
  have hsort := h.sortedQ
  rw [hq, List.pairwise_cons] at hsort
  have hmin : ∀ q ∈ s.queue, d ≤ q.2 := by
    rw [hq]; intro q hmem
    rcases List.mem_cons.mp hmem with rfl | hmem
    · exact le_refl _
    · exact hsort.1 q hmem
  have hsub : ∀ q ∈ rest, q ∈ s.queue := fun q hm => by rw [hq]; exact List.mem_cons_of_mem _ hm
  have hx : (x, d) ∈ s.queue := by rw [hq]; simp
  unfold Bfs.step
  split
  · rename_i hp
    refine ⟨h.procYield, h.nodup, fun p hm => h.walks p (hsub p hm), h.dists, hsort.2,
      fun p hp q hq => h.spread p (hsub p hp) q (hsub q hq), h.sortedY, fun p hp q hq => h.yq p hp q (hsub q hq),
      fun p hp q hq => h.qy p hp q (hsub q hq), ?_, ?_⟩
    · intro p hpy c hc
      rcases h.covered p hpy c hc with h1 | ⟨e, he, hle⟩
      · exact .inl h1
      · simp only [hq, List.mem_cons, Prod.mk.injEq] at he
        rcases he with ⟨rfl, rfl⟩ | he
        · exact .inl hp
        · exact .inr ⟨e, he, hle⟩
    · rcases h.rootIn with h1 | h1
      · exact .inl h1
      · simp only [hq, List.mem_cons, Prod.mk.injEq] at h1
        rcases h1 with ⟨rfl, _⟩ | h1
        · exact .inl hp
        · exact .inr h1
  · rename_i hp
    have hdist : Distance children root x d := by
      refine ⟨h.walks _ hx, fun n hn => ?_⟩
      by_contra hc
      exact hp (binv_closer h hmin (by omega) hn)
    refine ⟨?_, ?_, ?_, ?_, ?_, ?_, ?_, ?_, ?_, ?_, ?_⟩
    · simp [h.procYield]
    · simp only
      rw [List.nodup_append]
      exact ⟨h.nodup, by simp, by rintro a ha b hb rfl; simp at hb; subst hb; exact hp ha⟩
    · intro p hm
      simp only [List.mem_append, List.mem_map, List.mem_filter] at hm
      rcases hm with hm | ⟨c, ⟨hc, _⟩, rfl⟩
      · exact h.walks p (hsub p hm)
      · exact Walk.step (h.walks _ hx) hc
    · intro p hm
      simp only [List.mem_append, List.mem_singleton] at hm
      rcases hm with hm | rfl
      · exact h.dists p hm
      · exact hdist
    · simp only
      rw [List.pairwise_append]
      refine ⟨hsort.2, ?_, ?_⟩
      · rw [List.pairwise_map]
        exact List.pairwise_of_forall (fun _ _ => le_refl _)
      · intro p hp q hm
        simp only [List.mem_map] at hm
        obtain ⟨c, _, rfl⟩ := hm
        exact h.spread _ hx p (hsub p hp)
    · intro p hp q hm
      simp only [List.mem_append, List.mem_map] at hp hm
      rcases hp with hp | ⟨c, _, rfl⟩ <;> rcases hm with hm | ⟨c', _, rfl⟩
      · exact h.spread p (hsub p hp) q (hsub q hm)
      · have := hmin p (hsub p hp); simp only; omega
      · have := h.spread _ hx q (hsub q hm); simp only at this ⊢; omega
      · simp
    · simp only
      rw [List.pairwise_append]
      refine ⟨h.sortedY, by simp, ?_⟩
      intro p hp q hm
      simp at hm; subst hm
      exact h.yq p hp _ hx
    · intro p hp q hm
      simp only [List.mem_append, List.mem_map, List.mem_singleton] at hp hm
      rcases hp with hp | rfl <;> rcases hm with hm | ⟨c', _, rfl⟩
      · exact h.yq p hp q (hsub q hm)
      · have := h.yq p hp _ hx; simp only at this ⊢; omega
      · exact hmin q (hsub q hm)
      · simp
    · intro p hp q hm
      right
      refine ⟨(x, d), by simp, ?_⟩
      simp only [List.mem_append, List.mem_map] at hm
      rcases hm with hm | ⟨c', _, rfl⟩
      · exact h.spread _ hx q (hsub q hm)
      · simp
    · intro p hp c hc
      simp only [List.mem_append, List.mem_map, List.mem_singleton] at hp ⊢
      rcases hp with hp | rfl
      · rcases h.covered p hp c hc with h1 | ⟨e, he, hle⟩
        · exact .inl (.inl h1)
        · simp only [hq, List.mem_cons, Prod.mk.injEq] at he
          rcases he with ⟨rfl, rfl⟩ | he
          · exact .inl (.inr rfl)
          · exact .inr ⟨e, .inl he, hle⟩
      · by_cases hcp : c ∈ s.processed
        · exact .inl (.inl hcp)
        · refine .inr ⟨d + 1, .inr ⟨c, ?_, rfl⟩, le_refl _⟩
          simp [List.mem_filter, hcp]; exact hc
    · simp only [List.mem_append, List.mem_singleton]
      rcases h.rootIn with h1 | h1
      · exact .inl (.inl h1)
      · simp only [hq, List.mem_cons, Prod.mk.injEq] at h1
        rcases h1 with ⟨rfl, _⟩ | h1
        · exact .inl (.inr rfl)
        · exact .inr (.inl h1)

/-- The loop ends: every iteration processes a new node or shortens the queue. -/
theorem bfs_terminates (children : V → List V) (root : V) (univ : List V) (hf : FiniteFrom children root univ)
    (u q : Nat) (s : Bfs V) (hs : BInv children root s) (hin : ∀ p ∈ s.queue, p.1 ∈ univ)
    (hu : (univ.filter (· ∉ s.processed)).length ≤ u) (hq : s.queue.length ≤ q) :
    ∃ n out, Bfs.run children n s = some out ∧ ∃ s', BInv children root s' ∧ s'.queue = [] ∧ s'.yielded = out := by
  induction u generalizing q s with
  | zero =>
    induction q generalizing s with
    | zero =>
      have : s.queue = [] := List.length_eq_zero_iff.mp (by omega)
      exact ⟨1, s.yielded, by simp [Bfs.run, this], s, hs, this, rfl⟩
    | succ q ihq =>
      match hsq : s.queue with
      | [] => exact ⟨1, s.yielded, by simp [Bfs.run, hsq], s, hs, hsq, rfl⟩
      | (x, d) :: rest =>
        have hxp : x ∈ s.processed := by
          by_contra hc
          have : x ∈ univ.filter (· ∉ s.processed) := by
            simp [List.mem_filter, hc]; exact hin (x, d) (by rw [hsq]; simp)
          rw [List.length_eq_zero_iff.mp (Nat.le_zero.mp hu)] at this
          simp at this
        have hst : s.step children x d rest = { s with queue := rest } := by simp [Bfs.step, hxp]
        obtain ⟨n, out, h1, h2⟩ := ihq (s.step children x d rest) (binv_step hs hsq)
          (by rw [hst]; intro p hp; exact hin p (by rw [hsq]; exact List.mem_cons_of_mem _ hp))
          (by rw [hst]; exact hu) (by rw [hst]; rw [hsq] at hq; simpa using hq)
        exact ⟨n + 1, out, by simp only [Bfs.run, hsq]; exact h1, h2⟩
  | succ u ihu =>
    induction q generalizing s with
    | zero =>
      have : s.queue = [] := List.length_eq_zero_iff.mp (by omega)
      exact ⟨1, s.yielded, by simp [Bfs.run, this], s, hs, this, rfl⟩
    | succ q ihq =>
      match hsq : s.queue with
      | [] => exact ⟨1, s.yielded, by simp [Bfs.run, hsq], s, hs, hsq, rfl⟩
      | (x, d) :: rest =>
        have hxu : x ∈ univ := hin (x, d) (by rw [hsq]; simp)
        have hrest : ∀ p ∈ rest, p.1 ∈ univ := fun p hp => hin p (by rw [hsq]; exact List.mem_cons_of_mem _ hp)
        by_cases hxp : x ∈ s.processed
        · have hst : s.step children x d rest = { s with queue := rest } := by simp [Bfs.step, hxp]
          obtain ⟨n, out, h1, h2⟩ := ihq (s.step children x d rest) (binv_step hs hsq) (by rw [hst]; exact hrest)
            (by rw [hst]; exact hu) (by rw [hst]; rw [hsq] at hq; simpa using hq)
          exact ⟨n + 1, out, by simp only [Bfs.run, hsq]; exact h1, h2⟩
        · obtain ⟨n, out, h1, h2⟩ := ihu (s.step children x d rest).queue.length (s.step children x d rest)
            (binv_step hs hsq) (by
              simp only [Bfs.step, hxp, if_false]
              intro p hp
              simp only [List.mem_append, List.mem_map, List.mem_filter] at hp
              rcases hp with hp | ⟨c, ⟨hc, _⟩, rfl⟩
              · exact hrest p hp
              · exact hf.closed x hxu c hc)
            (by
              simp only [Bfs.step, hxp, if_false]
              have hlt : (univ.filter (· ∉ s.processed ++ [x])).length < (univ.filter (· ∉ s.processed)).length := by
                have hsl : (univ.filter (· ∉ s.processed ++ [x])).Sublist (univ.filter (· ∉ s.processed)) := by
                  apply List.monotone_filter_right
                  intro v hv
                  simp only [List.mem_append, List.mem_singleton, not_or, decide_eq_true_eq] at hv ⊢
                  exact hv.1
                rcases Nat.lt_or_ge (univ.filter (· ∉ s.processed ++ [x])).length
                  (univ.filter (· ∉ s.processed)).length with h | h
                · exact h
                · have he := hsl.eq_of_length_le h
                  have hm : x ∈ univ.filter (· ∉ s.processed) := by simp [List.mem_filter, hxp, hxu]
                  rw [← he] at hm
                  simp [List.mem_filter] at hm
              omega) (le_refl _)
          exact ⟨n + 1, out, by simp only [Bfs.run, hsq]; exact h1, h2⟩

/-- More steps do not change the result. -/
theorem bfs_run_mono (children : V → List V) {n m : Nat} {s : Bfs V} {out} (h : Bfs.run children n s = some out)
    (hnm : n ≤ m) : Bfs.run children m s = some out := by
  induction n generalizing m s with
  | zero => simp [Bfs.run] at h
  | succ n ih =>
    obtain ⟨m, rfl⟩ : ∃ k, m = k + 1 := ⟨m - 1, by omega⟩
    simp only [Bfs.run] at h ⊢
    split
    · rename_i hq; rw [hq] at h; exact h
    · rename_i hq; rw [hq] at h; exact ih h (by omega)

theorem bfs_deterministic {children : V → List V} {root : V} {a b : List (V × Nat)} (ha : BfsYields children root a)
    (hb : BfsYields children root b) : a = b := by
  obtain ⟨n, hn⟩ := ha
  obtain ⟨m, hm⟩ := hb
  have h1 := bfs_run_mono children hn (Nat.le_max_left n m)
  have h2 := bfs_run_mono children hm (Nat.le_max_right n m)
  rw [h1] at h2
  exact Option.some.inj h2

/-- C51. Breadth-first iteration over a finite graph ends, and what it yields is: every node that can be reached from the
root, exactly once, with its distance from the root, in order of the distance. -/
theorem C51_breadth_first (children : V → List V) (root : V) (univ : List V) (hf : FiniteFrom children root univ) :
    ∃ out, BfsYields children root out ∧ (out.map (·.1)).Nodup ∧
      (∀ v, v ∈ out.map (·.1) ↔ Reachable children root v) ∧
      (∀ p ∈ out, Distance children root p.1 p.2) ∧ (out.map (·.2)).Pairwise (· ≤ ·) := by
  obtain ⟨n, out, hrun, s, hs, hq, rfl⟩ := bfs_terminates children root univ hf _ _ (Bfs.init root)
    (binv_init children root) (by simp [Bfs.init]; exact hf.root_mem) (le_refl _) (le_refl _)
  refine ⟨s.yielded, ⟨n, hrun⟩, by rw [hs.procYield]; exact hs.nodup, fun v => ?_, hs.dists, ?_⟩
  · constructor
    · intro hv
      obtain ⟨p, hp, rfl⟩ := List.mem_map.mp hv
      exact ⟨_, (hs.dists p hp).1⟩
    · rintro ⟨k, hk⟩
      rw [hs.procYield]
      exact binv_closer (d := k + 1) hs (by rw [hq]; simp) (Nat.lt_succ_self k) hk
  · rw [List.pairwise_map]; exact hs.sortedY

/-- C51 (the result is unique). -/
theorem C51_unique {children : V → List V} {root : V} {a b : List (V × Nat)} (ha : BfsYields children root a)
    (hb : BfsYields children root b) : a = b := bfs_deterministic ha hb

/-! ## Depth first -/

/-- The nodes on the stack that are being processed. -/
def marks (stack : List (V × Bool)) : List V := (stack.filter (·.2)).map (·.1)

/-- The entry was pushed by the innermost node being processed; the root by nobody. -/
def ParentIs (children : V → List V) (root : V) (below : List (V × Bool)) (n : V) : Prop :=
  match (marks below).head? with
  | some g => n ∈ children g
  | none => n = root

/-- Shape of the stack. -/
def SInv (children : V → List V) (root : V) (proc : List V) : List (V × Bool) → Prop
  | [] => True
  | (n, b) :: s => ParentIs children root s n ∧ n ∉ marks s ∧ (b = true → n ∉ proc) ∧ SInv children root proc s

/-- Every child of a node being processed has been processed or is on the stack above it. -/
def EInv (children : V → List V) (proc : List V) : List V → List (V × Bool) → Prop
  | _, [] => True
  | seen, (n, b) :: s =>
    (b = true → ∀ c ∈ children n, c ∈ proc ∨ c ∈ seen) ∧ EInv children proc (n :: seen) s

/-- The invariant of the loop. -/
structure DInv (children : V → List V) (root : V) (s : Dfs V) : Prop where
  shape : SInv children root s.processed s.stack
  cover : EInv children s.processed [] s.stack
  disc : ∀ v, v ∈ s.discovered ↔ v ∈ s.processed ∨ v ∈ marks s.stack
  discNodup : s.discovered.Nodup
  procNodup : s.processed.Nodup
  closed : ∀ a b v, s.processed = a ++ v :: b → ∀ c ∈ children v, c ∈ a
  reach : ∀ p ∈ s.stack, Reachable children root p.1
  reachP : ∀ v ∈ s.processed, Reachable children root v
  rootIn : root ∈ s.processed ∨ ∃ b, (root, b) ∈ s.stack
  late : dependencyOrder s.yielded = s.processed
  early : discoveryOrder s.yielded = s.discovered

omit [DecidableEq V] in
theorem reach_step {children : V → List V} {a b c : V} (h : Reachable children a b) (hc : c ∈ children b) :
    Reachable children a c := by
  obtain ⟨n, hn⟩ := h
  exact ⟨n + 1, .step hn hc⟩

omit [DecidableEq V] in
theorem reach_walk {children : V → List V} {root a u : V} {m : Nat} (h : Reachable children root a)
    (hu : Walk children m a u) : Reachable children root u := by
  induction hu with
  | refl => exact h
  | step _ hc ih => exact reach_step (ih h) hc

omit [DecidableEq V] in
theorem EInv.mono {children : V → List V} {proc proc' seen seen' : List V} {s : List (V × Bool)}
    (h : EInv children proc seen s) (hp : ∀ v, v ∈ proc ∨ v ∈ seen → v ∈ proc' ∨ v ∈ seen') :
    EInv children proc' seen' s := by
  induction s generalizing seen seen' with
  | nil => trivial
  | cons e s ih =>
    obtain ⟨n, b⟩ := e
    refine ⟨fun hb c hc => hp c (h.1 hb c hc), ih h.2 ?_⟩
    intro v hv
    simp only [List.mem_cons] at hv ⊢
    rcases hv with hv | rfl | hv
    · rcases hp v (.inl hv) with h1 | h1 <;> simp [h1]
    · simp
    · rcases hp v (.inr hv) with h1 | h1 <;> simp [h1]

omit [DecidableEq V] in
theorem SInv.mono {children : V → List V} {root : V} {proc : List V} {n : V} {s : List (V × Bool)}
    (h : SInv children root proc s) (hn : n ∉ marks s) : SInv children root (proc ++ [n]) s := by
  induction s with
  | nil => trivial
  | cons e s ih =>
    obtain ⟨m, b⟩ := e
    obtain ⟨h1, h2, h3, h4⟩ := h
    have hns : n ∉ marks s := fun hc => hn (by cases b <;> simp [marks] at hc ⊢ <;> simp [hc])
    refine ⟨h1, h2, fun hb => ?_, ih h4 hns⟩
    subst hb
    simp only [List.mem_append, List.mem_singleton, not_or]
    refine ⟨h3 rfl, fun he => hn ?_⟩
    subst he; simp [marks]

omit [DecidableEq V] in
/-- The nodes being processed form a path that ends in the parent of the top. -/
theorem walk_from_mark {children : V → List V} {root : V} {proc : List V} {s : List (V × Bool)}
    (h : SInv children root proc s) {n g : V} (hp : ParentIs children root s n) (hg : g ∈ marks s) :
    ∃ k, Walk children (k + 1) g n := by
  induction s generalizing n with
  | nil => simp [marks] at hg
  | cons e s ih =>
    obtain ⟨m, b⟩ := e
    obtain ⟨h1, h2, h3, h4⟩ := h
    cases b with
    | false => exact ih h4 (by simpa [ParentIs, marks] using hp) (by simpa [marks] using hg)
    | true =>
      simp only [ParentIs, marks, List.filter_cons_of_pos, List.map_cons, List.head?_cons] at hp
      simp only [marks, List.filter_cons_of_pos, List.map_cons, List.mem_cons] at hg
      rcases hg with rfl | hg
      · exact ⟨0, .step (.refl _) hp⟩
      · obtain ⟨k, hk⟩ := ih h4 h1 hg
        exact ⟨k + 1, .step hk hp⟩

theorem pushChildren_cases (disc proc : List V) (cs : List V) (stack : List (V × Bool)) :
    (pushChildren disc proc cs stack = .error .circularReferencing ∧ ∃ c ∈ cs, c ∈ disc ∧ c ∉ proc) ∨
    ((∀ c ∈ cs, c ∉ disc ∨ c ∈ proc) ∧ pushChildren disc proc cs stack =
      .ok (((cs.filter fun c => c ∉ disc ∧ c ∉ proc).map (·, false)).reverse ++ stack)) := by
  induction cs generalizing stack with
  | nil => right; simp [pushChildren, pure, Except.pure]
  | cons c cs ih =>
    simp only [pushChildren]
    by_cases h1 : c ∉ disc ∧ c ∉ proc
    · rw [if_pos h1]
      rcases ih ((c, false) :: stack) with ⟨h, x, hx, hx2⟩ | ⟨h, h2⟩
      · exact .inl ⟨h, x, by simp [hx], hx2⟩
      · right
        refine ⟨?_, ?_⟩
        · intro x hx
          rcases List.mem_cons.mp hx with rfl | hx
          · exact .inl h1.1
          · exact h x hx
        · rw [h2, List.filter_cons_of_pos (by simpa using h1)]
          simp
    · rw [if_neg h1]
      by_cases h2 : c ∈ proc
      · rw [if_neg (by simpa using h2)]
        rcases ih stack with ⟨h, x, hx, hx2⟩ | ⟨h, h3⟩
        · exact .inl ⟨h, x, by simp [hx], hx2⟩
        · right
          refine ⟨?_, ?_⟩
          · intro x hx
            rcases List.mem_cons.mp hx with rfl | hx
            · exact .inr h2
            · exact h x hx
          · rw [h3, List.filter_cons_of_neg (by simpa using h1)]
      · rw [if_pos h2]
        left
        refine ⟨rfl, c, by simp, ?_, h2⟩
        by_contra hc
        exact h1 ⟨hc, h2⟩

omit [DecidableEq V] in
theorem marks_append (a b : List (V × Bool)) : marks (a ++ b) = marks a ++ marks b := by simp [marks]

omit [DecidableEq V] in
theorem marks_pending (l : List V) : marks (l.map (·, false)) = [] := by
  simp [marks]

theorem dinv_init (children : V → List V) (root : V) : DInv children root (Dfs.init root) := by
  constructor <;> simp [Dfs.init, SInv, EInv, ParentIs, marks, dependencyOrder, discoveryOrder]
  exact ⟨0, .refl _⟩

/-- The new entries on top of a node that starts being processed. -/
theorem sinv_push {children : V → List V} {root : V} {proc : List V} {n : V} {below : List (V × Bool)} {l : List V}
    (h : SInv children root proc ((n, true) :: below)) (hl : ∀ c ∈ l, c ∈ children n ∧ c ≠ n ∧ c ∉ marks below) :
    SInv children root proc (l.map (·, false) ++ (n, true) :: below) := by
  induction l with
  | nil => exact h
  | cons c l ih =>
    obtain ⟨h1, h2, h3⟩ := hl c (by simp)
    refine ⟨?_, ?_, by simp, ih fun x hx => hl x (by simp [hx])⟩
    · simp [ParentIs, marks_append, marks_pending]
      simpa [marks] using h1
    · simp [marks_append, marks_pending]
      simp only [marks, List.filter_cons_of_pos, List.map_cons, List.mem_cons, not_or]
      exact ⟨h2, h3⟩

theorem einv_push {children : V → List V} {proc : List V} {n : V} {below : List (V × Bool)} (l seen : List V)
    (h : ∀ c ∈ children n, c ∈ proc ∨ c ∈ l) (hb : EInv children proc [n] below) :
    EInv children proc seen (l.map (·, false) ++ (n, true) :: below) := by
  have key : ∀ (l' seen : List V), (∀ c ∈ children n, c ∈ proc ∨ c ∈ l' ∨ c ∈ seen) →
      EInv children proc seen (l'.map (·, false) ++ (n, true) :: below) := by
    intro l'
    induction l' with
    | nil =>
      intro seen hs
      refine ⟨fun _ c hc => by simpa using hs c hc, hb.mono ?_⟩
      rintro v (hv | hv)
      · exact .inl hv
      · simp at hv; subst hv; simp
    | cons c l' ih =>
      intro seen hs
      refine ⟨by simp, ih (c :: seen) fun x hx => ?_⟩
      rcases hs x hx with h1 | h1 | h1
      · exact .inl h1
      · rcases List.mem_cons.mp h1 with rfl | h1
        · simp
        · exact .inr (.inl h1)
      · simp [h1]
  exact key l seen fun c hc => by rcases h c hc with h1 | h1 <;> simp [h1]

theorem dependencyOrder_append (a b : List (DfsEvent × V)) :
    dependencyOrder (a ++ b) = dependencyOrder a ++ dependencyOrder b := by simp [dependencyOrder]
theorem discoveryOrder_append (a b : List (DfsEvent × V)) :
    discoveryOrder (a ++ b) = discoveryOrder a ++ discoveryOrder b := by simp [discoveryOrder]

/-- One iteration keeps the invariant, or raises because of a cycle. -/
theorem dinv_step {children : V → List V} {root : V} {s : Dfs V} (h : DInv children root s) {n : V} {b : Bool}
    {rest : List (V × Bool)} (hst : s.stack = (n, b) :: rest) :
    (s.step children n b rest = .error .circularReferencing ∧
      ∃ v, Reachable children root v ∧ OnCycle children v) ∨
    ∃ s', s.step children n b rest = .ok s' ∧ DInv children root s' ∧
      (s'.stack = rest ∧ s'.discovered = s.discovered ∨
       n ∉ s.discovered ∧ s'.discovered = s.discovered ++ [n] ∧
         ∀ p ∈ s'.stack, p ∈ rest ∨ p.1 = n ∨ p.1 ∈ children n) := by
  have hshape := h.shape
  have hcover := h.cover
  rw [hst] at hshape hcover
  obtain ⟨h1, h2, h3, h4⟩ := hshape
  have hreach : Reachable children root n := h.reach (n, b) (by rw [hst]; simp)
  have hrest : ∀ p ∈ rest, Reachable children root p.1 := fun p hp => h.reach p (by rw [hst]; exact List.mem_cons_of_mem _ hp)
  cases b with
  | true =>
    right
    refine ⟨⟨rest, s.discovered, s.processed ++ [n], s.yielded ++ [(.late, n)]⟩,
      by simp [Dfs.step, pure, Except.pure], ?_, .inl ⟨rfl, rfl⟩⟩
    have hn := h3 rfl
    have hall : ∀ c ∈ children n, c ∈ s.processed := fun c hc => by
      have := hcover.1 rfl c hc; simpa using this
    refine ⟨h4.mono h2, ?_, ?_, h.discNodup, ?_, ?_, hrest, ?_, ?_, ?_, ?_⟩
    · refine hcover.2.mono ?_
      rintro v (hv | hv)
      · exact .inl (by simp [hv])
      · simp at hv; subst hv; simp
    · intro v
      rw [h.disc v, hst]
      simp only [marks, List.filter_cons_of_pos, List.map_cons, List.mem_cons, List.mem_append, List.mem_singleton]
      tauto
    · simp only
      rw [List.nodup_append]
      exact ⟨h.procNodup, by simp, by rintro a ha b hb rfl; simp at hb; subst hb; exact hn ha⟩
    · intro a b v he c hc
      rcases List.eq_nil_or_concat b with rfl | ⟨b', x, rfl⟩
      · rw [← List.concat_eq_append] at he
        have he' := List.append_inj' (t₁ := [n]) (t₂ := [v]) (by simpa using he) rfl
        obtain ⟨rfl, hv⟩ := he'
        simp at hv; subst hv
        exact hall c hc
      · have he' := List.append_inj' (s₁ := s.processed) (s₂ := a ++ v :: b') (t₁ := [n]) (t₂ := [x])
          (by simpa using he) rfl
        exact h.closed a b' v he'.1 c hc
    · intro v hv
      simp only [List.mem_append, List.mem_singleton] at hv
      rcases hv with hv | rfl
      · exact h.reachP v hv
      · exact hreach
    · rcases h.rootIn with hr | ⟨b, hr⟩
      · exact .inl (by simp [hr])
      · rw [hst, List.mem_cons, Prod.mk.injEq] at hr
        rcases hr with ⟨rfl, _⟩ | hr
        · exact .inl (by simp)
        · exact .inr ⟨b, hr⟩
    · simp only [dependencyOrder_append, h.late]; simp [dependencyOrder]
    · simp only [discoveryOrder_append, h.early]; simp [discoveryOrder]
  | false =>
    by_cases hp : n ∈ s.processed
    · right
      refine ⟨⟨rest, s.discovered, s.processed, s.yielded⟩, by simp [Dfs.step, hp, pure, Except.pure], ?_,
        .inl ⟨rfl, rfl⟩⟩
      refine ⟨h4, ?_, ?_, h.discNodup, h.procNodup, h.closed, hrest, h.reachP, ?_, h.late, h.early⟩
      · refine hcover.2.mono ?_
        rintro v (hv | hv)
        · exact .inl hv
        · simp at hv; subst hv; exact .inl hp
      · intro v
        rw [h.disc v, hst]
        simp [marks]
      · rcases h.rootIn with hr | ⟨b, hr⟩
        · exact .inl hr
        · rw [hst, List.mem_cons, Prod.mk.injEq] at hr
          rcases hr with ⟨rfl, _⟩ | hr
          · exact .inl hp
          · exact .inr ⟨b, hr⟩
    · have hnd : n ∉ s.discovered := by
        rw [h.disc n, hst]
        rintro (hc | hc)
        · exact hp hc
        · exact h2 (by simpa [marks] using hc)
      have hstep : s.step children n false rest = (do
          let stack ← pushChildren (s.discovered ++ [n]) s.processed (children n).reverse ((n, true) :: rest)
          pure { stack := stack, discovered := s.discovered ++ [n], processed := s.processed,
                 yielded := s.yielded ++ [(.early, n)] }) := by
        simp only [Dfs.step, hp, if_true, if_false]
      rcases pushChildren_cases (s.discovered ++ [n]) s.processed (children n).reverse ((n, true) :: rest) with
        ⟨he, c, hc, hcd, hcp⟩ | ⟨hall, hok⟩
      · left
        refine ⟨by rw [hstep, he]; rfl, ?_⟩
        rw [List.mem_reverse] at hc
        simp only [List.mem_append, List.mem_singleton] at hcd
        refine ⟨c, reach_step hreach hc, ?_⟩
        rcases hcd with hcd | rfl
        · rw [h.disc c, hst] at hcd
          rcases hcd with hcd | hcd
          · exact absurd hcd hcp
          · obtain ⟨k, hk⟩ := walk_from_mark h4 h1 (g := c) (by simpa [marks] using hcd)
            exact ⟨k + 1, .step hk hc⟩
        · exact ⟨0, .step (.refl _) hc⟩
      · right
        set l := ((children n).filter fun c => c ∉ s.discovered ++ [n] ∧ c ∉ s.processed) with hl
        have hpend : (((children n).reverse.filter fun c => c ∉ s.discovered ++ [n] ∧ c ∉ s.processed).map
            (·, false)).reverse = l.map (·, false) := by
          rw [List.filter_reverse, List.map_reverse, List.reverse_reverse]
        rw [hpend] at hok
        have hlmem : ∀ c, c ∈ l ↔ c ∈ children n ∧ c ∉ s.discovered ++ [n] ∧ c ∉ s.processed := by
          intro c; rw [hl, List.mem_filter]; simp only [decide_eq_true_eq]
        refine ⟨_, by rw [hstep, hok]; rfl, ?_, .inr ⟨hnd, rfl, ?_⟩⟩
        · have hmarks : marks (l.map (·, false) ++ (n, true) :: rest) = n :: marks rest := by
            simp [marks_append, marks_pending]; simp [marks]
          refine ⟨?_, ?_, ?_, ?_, h.procNodup, h.closed, ?_, h.reachP, ?_, ?_, ?_⟩
          · apply sinv_push
            · exact ⟨h1, h2, fun _ => hp, h4⟩
            · intro c hc
              obtain ⟨hc1, hc2, hc3⟩ := (hlmem c).mp hc
              simp only [List.mem_append, List.mem_singleton, not_or] at hc2
              refine ⟨hc1, hc2.2, fun hm => hc2.1 ?_⟩
              rw [h.disc c, hst]
              exact .inr (by simpa [marks] using hm)
          · apply einv_push
            · intro c hc
              rcases hall c (by simpa using hc) with h5 | h5
              · by_cases hcp : c ∈ s.processed
                · exact .inl hcp
                · exact .inr ((hlmem c).mpr ⟨hc, h5, hcp⟩)
              · exact .inl h5
            · exact hcover.2
          · intro v
            simp only [hmarks, List.mem_append, List.mem_singleton, List.mem_cons]
            rw [h.disc v, hst]
            have : marks ((n, false) :: rest) = marks rest := by simp [marks]
            rw [this]
            tauto
          · simp only
            rw [List.nodup_append]
            exact ⟨h.discNodup, by simp, by rintro a ha b hb rfl; simp at hb; subst hb; exact hnd ha⟩
          · intro p hpm
            simp only [List.mem_append, List.mem_map, List.mem_cons] at hpm
            rcases hpm with ⟨c, hc, rfl⟩ | rfl | hpm
            · exact reach_step hreach ((hlmem c).mp hc).1
            · exact hreach
            · exact hrest p hpm
          · rcases h.rootIn with hr | ⟨b, hr⟩
            · exact .inl hr
            · rw [hst, List.mem_cons, Prod.mk.injEq] at hr
              right
              rcases hr with ⟨rfl, _⟩ | hr
              · exact ⟨true, by simp⟩
              · exact ⟨b, by simp [hr]⟩
          · simp only [dependencyOrder_append, h.late]; simp [dependencyOrder]
          · simp only [discoveryOrder_append, h.early]; simp [discoveryOrder]
        · intro p hpm
          simp only [List.mem_append, List.mem_map, List.mem_cons] at hpm
          rcases hpm with ⟨c, hc, rfl⟩ | rfl | hpm
          · exact .inr (.inr ((hlmem c).mp hc).1)
          · exact .inr (.inl rfl)
          · exact .inl hpm

/-- How the loop ends. -/
def DfsEnds (children : V → List V) (root : V) (out : M (List (DfsEvent × V))) : Prop :=
  (out = .error .circularReferencing ∧ ∃ v, Reachable children root v ∧ OnCycle children v) ∨
  ∃ s, DInv children root s ∧ s.stack = [] ∧ out = .ok s.yielded

theorem filter_shrinks {univ disc : List V} {x : V} (hu : x ∈ univ) (hx : x ∉ disc) :
    (univ.filter (· ∉ disc ++ [x])).length < (univ.filter (· ∉ disc)).length := by
  have hsl : (univ.filter (· ∉ disc ++ [x])).Sublist (univ.filter (· ∉ disc)) := by
    apply List.monotone_filter_right
    intro v hv
    simp only [List.mem_append, List.mem_singleton, not_or, decide_eq_true_eq] at hv ⊢
    exact hv.1
  rcases Nat.lt_or_ge (univ.filter (· ∉ disc ++ [x])).length (univ.filter (· ∉ disc)).length with h | h
  · exact h
  · have he := hsl.eq_of_length_le h
    have hm : x ∈ univ.filter (· ∉ disc) := by simp [List.mem_filter, hx, hu]
    rw [← he] at hm
    simp [List.mem_filter] at hm

/-- The loop ends: every iteration discovers a new node or shortens the stack. -/
theorem dfs_terminates (children : V → List V) (root : V) (univ : List V) (hf : FiniteFrom children root univ)
    (m : Nat ×ₗ Nat) (s : Dfs V) (hs : DInv children root s) (hin : ∀ p ∈ s.stack, p.1 ∈ univ)
    (hm : m = toLex ((univ.filter (· ∉ s.discovered)).length, s.stack.length)) :
    ∃ n out, Dfs.run children n s = some out ∧ DfsEnds children root out := by
  induction m using WellFoundedLT.induction generalizing s with
  | ind m ih =>
    match hst : s.stack with
    | [] => exact ⟨1, .ok s.yielded, by simp [Dfs.run, hst, pure, Except.pure], .inr ⟨s, hs, hst, rfl⟩⟩
    | (x, b) :: rest =>
      have hxu : x ∈ univ := hin (x, b) (by rw [hst]; simp)
      have hrest : ∀ p ∈ rest, p.1 ∈ univ := fun p hp => hin p (by rw [hst]; exact List.mem_cons_of_mem _ hp)
      rcases dinv_step hs hst with ⟨he, hcyc⟩ | ⟨s', he, hs', hcase⟩
      · exact ⟨1, _, by simp [Dfs.run, hst, he], .inl ⟨rfl, hcyc⟩⟩
      · have hlt : toLex ((univ.filter (· ∉ s'.discovered)).length, s'.stack.length) < m := by
          rw [hm, Prod.Lex.toLex_lt_toLex]
          rcases hcase with ⟨h1, h2⟩ | ⟨h1, h2, _⟩
          · right; rw [h1, h2, hst]; simp
          · left; simp only; rw [h2]; exact filter_shrinks hxu h1
        have hin' : ∀ p ∈ s'.stack, p.1 ∈ univ := by
          rcases hcase with ⟨h1, h2⟩ | ⟨h1, h2, h3⟩
          · rw [h1]; exact hrest
          · intro p hp
            rcases h3 p hp with h | h | h
            · exact hrest p h
            · rw [h]; exact hxu
            · exact hf.closed x hxu _ h
        obtain ⟨n, out, hr, hend⟩ := ih _ hlt s' hs' hin' rfl
        exact ⟨n + 1, out, by simp only [Dfs.run, hst, he]; exact hr, hend⟩

theorem dfs_run_mono (children : V → List V) {n m : Nat} {s : Dfs V} {out} (h : Dfs.run children n s = some out)
    (hnm : n ≤ m) : Dfs.run children m s = some out := by
  induction n generalizing m s with
  | zero => simp [Dfs.run] at h
  | succ n ih =>
    obtain ⟨m, rfl⟩ : ∃ k, m = k + 1 := ⟨m - 1, by omega⟩
    simp only [Dfs.run] at h ⊢
    split
    · rename_i hq; rw [hq] at h; exact h
    · rename_i x b rest hq
      rw [hq] at h
      simp only at h
      cases hstep : s.step children x b rest with
      | error e => rw [hstep] at h; exact h
      | ok s' => rw [hstep] at h; exact ih h (by omega)

theorem dfs_deterministic {children : V → List V} {root : V} {a b : M (List (DfsEvent × V))}
    (ha : DfsYields children root a) (hb : DfsYields children root b) : a = b := by
  obtain ⟨n, hn⟩ := ha
  obtain ⟨m, hm⟩ := hb
  have h1 := dfs_run_mono children hn (Nat.le_max_left n m)
  have h2 := dfs_run_mono children hm (Nat.le_max_right n m)
  rw [h1] at h2
  exact Option.some.inj h2

theorem dfs_ends (children : V → List V) (root : V) (univ : List V) (hf : FiniteFrom children root univ)
    (out : M (List (DfsEvent × V))) (h : DfsYields children root out) : DfsEnds children root out := by
  obtain ⟨n, out', hr, hend⟩ := dfs_terminates children root univ hf _ (Dfs.init root) (dinv_init children root)
    (by simp [Dfs.init]; exact hf.root_mem) rfl
  rw [dfs_deterministic h ⟨n, hr⟩]
  exact hend

theorem dinv_done_reach {children : V → List V} {root : V} {s : Dfs V} (h : DInv children root s) (hst : s.stack = [])
    (v : V) : v ∈ s.processed ↔ Reachable children root v := by
  refine ⟨h.reachP v, ?_⟩
  rintro ⟨n, hn⟩
  induction hn with
  | refl =>
    rcases h.rootIn with hr | ⟨b, hr⟩
    · exact hr
    · rw [hst] at hr; simp at hr
  | step hw hc ih =>
    obtain ⟨a, b, hab⟩ := List.append_of_mem (ih h)
    have := h.closed a b _ hab _ hc
    rw [hab]; simp [this]

/-- Positions in the list of processed nodes decrease along edges: there is no cycle. -/
theorem dinv_done_acyclic {children : V → List V} {root : V} {s : Dfs V} (h : DInv children root s) (hst : s.stack = [])
    {v : V} (hv : Reachable children root v) : ¬ OnCycle children v := by
  have key : ∀ n x y, Walk children n x y → x ∈ s.processed → n ≠ 0 →
      s.processed.idxOf y < s.processed.idxOf x := by
    intro n x y hw hx
    induction hw with
    | refl => intro h0; exact absurd rfl h0
    | @step n a b c hw hc ih =>
      intro _
      have hb : b ∈ s.processed := by
        rw [dinv_done_reach h hst] at hx ⊢
        obtain ⟨k, hk⟩ := hx
        exact reach_walk ⟨k, hk⟩ hw
      obtain ⟨p, q, hpq⟩ := List.append_of_mem hb
      have hcp := h.closed p q b hpq c hc
      have hbp : b ∉ p := by
        have := h.procNodup
        rw [hpq, List.nodup_append] at this
        intro hc; exact this.2.2 b hc b (by simp) rfl
      have h1 : s.processed.idxOf c < s.processed.idxOf b := by
        rw [hpq, List.idxOf_append_of_mem hcp, List.idxOf_append_of_notMem hbp]
        have := List.idxOf_lt_length_of_mem hcp
        omega
      rcases Nat.eq_zero_or_pos n with rfl | hn
      · cases hw; exact h1
      · have := ih hx (by omega); omega
  rintro ⟨n, hn⟩
  have := key (n + 1) v v hn ((dinv_done_reach h hst v).mpr hv) (by omega)
  omega

/-- C50 (termination). Over a finite graph the depth-first traversal always ends, with exactly one outcome. -/
theorem C50_terminates (children : V → List V) (root : V) (univ : List V) (hf : FiniteFrom children root univ) :
    ∃! out, DfsYields children root out := by
  obtain ⟨n, out, hr, _⟩ := dfs_terminates children root univ hf _ (Dfs.init root) (dinv_init children root)
    (by simp [Dfs.init]; exact hf.root_mem) rfl
  exact ⟨out, ⟨n, hr⟩, fun o ho => dfs_deterministic ho ⟨n, hr⟩⟩

/-- C50. It raises `CircularReferencing` exactly if some node that can be reached from the root depends on itself; it
raises nothing else. -/
theorem C50_circular_iff (children : V → List V) (root : V) (univ : List V) (hf : FiniteFrom children root univ)
    (out : M (List (DfsEvent × V))) (h : DfsYields children root out) :
    ((∃ e, out = .error e) ↔ ∃ v, Reachable children root v ∧ OnCycle children v) ∧
    (∀ e, out = .error e → e = .circularReferencing) := by
  rcases dfs_ends children root univ hf out h with ⟨rfl, hc⟩ | ⟨s, hs, hst, rfl⟩
  · exact ⟨⟨fun _ => hc, fun _ => ⟨_, rfl⟩⟩, fun e he => by simpa [eq_comm] using he⟩
  · refine ⟨⟨fun ⟨e, he⟩ => by simp at he, ?_⟩, fun e he => by simp at he⟩
    rintro ⟨v, hv, hc⟩
    exact absurd hc (dinv_done_acyclic hs hst hv)

/-- C49. If the traversal completes, `dependency_order` lists every reachable node exactly once, and after everything it
depends on. -/
theorem C49_dependency_order (children : V → List V) (root : V) (univ : List V) (hf : FiniteFrom children root univ)
    (events : List (DfsEvent × V)) (h : DfsYields children root (.ok events)) :
    (dependencyOrder events).Nodup ∧
    (∀ v, v ∈ dependencyOrder events ↔ Reachable children root v) ∧
    (∀ v ∈ dependencyOrder events, ∀ c ∈ children v, Before (dependencyOrder events) c v) := by
  rcases dfs_ends children root univ hf _ h with ⟨he, _⟩ | ⟨s, hs, hst, he⟩
  · simp at he
  · simp only [Except.ok.injEq] at he
    subst he
    rw [hs.late]
    refine ⟨hs.procNodup, dinv_done_reach hs hst, fun v hv c hc => ?_⟩
    obtain ⟨a, b, hab⟩ := List.append_of_mem hv
    obtain ⟨a1, a2, rfl⟩ := List.append_of_mem (hs.closed a b v hab c hc)
    exact ⟨a1, a2, b, hab⟩

/-- C49 (indirect dependencies). Everything a node depends on, directly or not, comes before it. -/
theorem C49_all_dependencies_before (children : V → List V) (root : V) (univ : List V)
    (hf : FiniteFrom children root univ) (events : List (DfsEvent × V)) (h : DfsYields children root (.ok events))
    (v d : V) (hv : v ∈ dependencyOrder events) (n : Nat) (hd : Walk children (n + 1) v d) :
    Before (dependencyOrder events) d v := by
  obtain ⟨h1, h2, h3⟩ := C49_dependency_order children root univ hf events h
  have key : ∀ k y, Walk children k v y → y ∈ dependencyOrder events ∧ (k ≠ 0 → Before (dependencyOrder events) y v) := by
    intro k y hw
    induction hw with
    | refl => exact ⟨hv, fun h => absurd rfl h⟩
    | @step k _ y z hw hc ih =>
      obtain ⟨hy, hb⟩ := ih hv hd
      have hz := h3 y hy z hc
      have hzm : z ∈ dependencyOrder events := by
        obtain ⟨a, b, c, he⟩ := hz; rw [he]; simp
      refine ⟨hzm, fun _ => ?_⟩
      rcases Nat.eq_zero_or_pos k with rfl | hk
      · cases hw; exact hz
      · obtain ⟨a, b, c, he⟩ := hz
        obtain ⟨a', b', c', he'⟩ := hb (by omega)
        -- both decompositions split at the same `y`
        have hya : a ++ z :: b = a' := by
          have e := he.symm.trans he'
          rw [List.append_assoc a'] at e
          have hn1 : y ∉ a ++ z :: b := by
            intro hc
            have := h1
            rw [he, List.nodup_append] at this
            exact this.2.2 y hc y (by simp) rfl
          have hn2 : y ∉ a' := by
            intro hc
            have := h1
            rw [he', List.append_assoc, List.nodup_append] at this
            exact this.2.2 y hc y (by simp) rfl
          have i1 : (dependencyOrder events).idxOf y = (a ++ z :: b).length := by
            rw [he, List.idxOf_append_of_notMem hn1]; simp
          have i2 : (dependencyOrder events).idxOf y = a'.length := by
            rw [he', List.append_assoc, List.idxOf_append_of_notMem hn2]; simp
          exact (List.append_inj e (by omega)).1
        exact ⟨a, b ++ y :: b', c', by rw [he', ← hya]; simp⟩
  exact (key (n + 1) d hd).2 (by omega)

/-- C49 (the other order). `iterate` of the depth-first traversal also lists every reachable node exactly once. -/
theorem C49_discovery_order (children : V → List V) (root : V) (univ : List V) (hf : FiniteFrom children root univ)
    (events : List (DfsEvent × V)) (h : DfsYields children root (.ok events)) :
    (discoveryOrder events).Nodup ∧ ∀ v, v ∈ discoveryOrder events ↔ Reachable children root v := by
  rcases dfs_ends children root univ hf _ h with ⟨he, _⟩ | ⟨s, hs, hst, he⟩
  · simp at he
  · simp only [Except.ok.injEq] at he
    subst he
    rw [hs.early]
    refine ⟨hs.discNodup, fun v => ?_⟩
    rw [← dinv_done_reach hs hst, hs.disc v, hst]
    simp [marks]

/-! Concrete graphs -/

/-- A diamond with a shared dependency. -/
def diamond : Fin 4 → List (Fin 4)
  | 0 => [1, 2]
  | 1 => [3]
  | 2 => [3, 3]
  | 3 => []

example : FiniteFrom diamond 0 [0, 1, 2, 3] := ⟨by decide, by decide⟩
example : (Dfs.run diamond 20 (Dfs.init 0)).map (·.map dependencyOrder) = some (.ok [3, 1, 2, 0]) := by decide +kernel
example : Bfs.run diamond 20 (Bfs.init 0) = some [(0, 0), (1, 1), (2, 1), (3, 2)] := by decide +kernel

/-- A cycle behind the root. -/
def loop : Fin 3 → List (Fin 3)
  | 0 => [1]
  | 1 => [2]
  | 2 => [1]

example : Dfs.run loop 20 (Dfs.init 0) = some (.error .circularReferencing) := by decide +kernel
example : Bfs.run loop 20 (Bfs.init 0) = some [(0, 0), (1, 1), (2, 2)] := by decide +kernel

end Props
