import Verif.Props.Gen.Traversal

/-!
# The dependency order as a recursive function

`PostS children s st r`: from the state in which `s` is processed and `st` is on the stack, `r` is processed in the end.
-/

namespace Gen
open Spec Props

variable {V : Type} [DecidableEq V]

inductive PostS (children : V → List V) : List V → List (V × Bool) → List V → Prop
  | nil {s} : PostS children s [] s
  | skip {s v st r} : v ∈ s → PostS children s st r → PostS children s ((v, false) :: st) r
  | visit {s v st r} : v ∉ s → PostS children s ((children v).map (·, false) ++ (v, true) :: st) r → PostS children s ((v, false) :: st) r
  | late {s v st r} : PostS children (s ++ [v]) st r → PostS children s ((v, true) :: st) r

omit [DecidableEq V] in
theorem PostS.insert {children : V → List V} {s : List V} {st : List (V × Bool)} {r : List V} (h : PostS children s st r) :
    ∀ {a b : List (V × Bool)} {c : V}, st = a ++ b → c ∈ s → PostS children s (a ++ (c, false) :: b) r := by
  induction h with
  | nil =>
    intro a b c he hc
    obtain ⟨rfl, rfl⟩ := List.append_eq_nil_iff.mp he.symm
    exact .skip hc .nil
  | @skip s v st r hv h ih =>
    intro a b c he hc
    cases a with
    | nil => subst he; exact .skip hc (.skip hv h)
    | cons x a =>
      injection he with e1 e2
      subst e1
      exact .skip hv (ih e2 hc)
  | @visit s v st r hv h ih =>
    intro a b c he hc
    cases a with
    | nil => subst he; exact .skip hc (.visit hv h)
    | cons x a =>
      injection he with e1 e2
      subst e1 e2
      refine .visit hv ?_
      have := ih (a := (children v).map (·, false) ++ (v, true) :: a) (b := b) (c := c) (by simp) hc
      simpa using this
  | @late s v st r h ih =>
    intro a b c he hc
    cases a with
    | nil => subst he; exact .skip hc (.late h)
    | cons x a =>
      injection he with e1 e2
      subst e1
      exact .late (ih e2 (by simp [hc]))

omit [DecidableEq V] in
theorem PostS.fill {children : V → List V} {s : List V} {r : List V} {P : V → Bool} {b : List (V × Bool)} : ∀ {l : List V} {a : List (V × Bool)},
    PostS children s (a ++ ((l.filter P).map (·, false) ++ b)) r → (∀ c ∈ l, P c = false → c ∈ s) → PostS children s (a ++ (l.map (·, false) ++ b)) r := by
  intro l
  induction l with
  | nil => intro a h _; simpa using h
  | cons c l ih =>
    intro a h hs
    cases hp : P c with
    | true =>
      rw [List.filter_cons_of_pos hp] at h
      have := ih (a := a ++ [(c, false)]) (by simpa using h) (fun x hx => hs x (by simp [hx]))
      simpa using this
    | false =>
      rw [List.filter_cons_of_neg (by simp [hp])] at h
      have := ih (a := a) h (fun x hx => hs x (by simp [hx]))
      have := this.insert (a := a) (b := l.map (·, false) ++ b) (c := c) rfl (hs c (by simp) hp)
      simpa using this

/-- What the traversal computes. -/
theorem run_postS {children : V → List V} {n : Nat} : ∀ {s : Dfs V} {events : List (DfsEvent × V)}, Dfs.run children n s = some (.ok events) →
    dependencyOrder s.yielded = s.processed → PostS children s.processed s.stack (dependencyOrder events) := by
  induction n with
  | zero => intro s events h; simp [Dfs.run] at h
  | succ n ih =>
    intro s events h hy
    unfold Dfs.run at h
    cases hst : s.stack with
    | nil =>
      rw [hst] at h
      simp only [pure, Except.pure, Option.some.injEq, Except.ok.injEq] at h
      subst h
      rw [hy]; exact .nil
    | cons e rest =>
      obtain ⟨node, b⟩ := e
      rw [hst] at h
      simp only at h
      cases b with
      | true =>
        have he : s.step children node true rest = .ok { s with stack := rest, processed := s.processed ++ [node], yielded := s.yielded ++ [(.late, node)] } := by
          simp [Dfs.step, pure, Except.pure]
        rw [he] at h
        simp only at h
        have := ih h (by simp only [dependencyOrder_append, hy]; simp [dependencyOrder])
        exact .late this
      | false =>
        by_cases hp : node ∈ s.processed
        · have he : s.step children node false rest = .ok { s with stack := rest } := by
            simp [Dfs.step, hp, pure, Except.pure]
          rw [he] at h
          exact .skip hp (ih h hy)
        · refine .visit hp ?_
          rcases pushChildren_cases (s.discovered ++ [node]) s.processed (children node).reverse ((node, true) :: rest) with ⟨g, _⟩ | ⟨g1, g2⟩
          · have he : s.step children node false rest = .error .circularReferencing := by
              simp [Dfs.step, hp, g, bind, Except.bind]
            rw [he] at h
            simp at h
          · have he : s.step children node false rest = .ok ⟨(((children node).reverse.filter fun c => c ∉ s.discovered ++ [node] ∧ c ∉ s.processed).map (·, false)).reverse ++
                (node, true) :: rest, s.discovered ++ [node], s.processed, s.yielded ++ [(.early, node)]⟩ := by
              simp only [Dfs.step, hp, if_false, if_true, bind, Except.bind, g2, pure, Except.pure]
            rw [he] at h
            have := ih h (by simp only [dependencyOrder_append, hy]; simp [dependencyOrder])
            simp only [List.filter_reverse, List.map_reverse, List.reverse_reverse] at this
            refine PostS.fill (a := []) (P := fun c => decide (c ∉ s.discovered ++ [node] ∧ c ∉ s.processed)) this ?_
            intro c hc hn
            simp only [decide_eq_false_iff_not, not_and_or, not_not] at hn
            rcases g1 c (by simpa using hc) with k | k
            · rcases hn with hn | hn
              · exact absurd hn k
              · exact hn
            · exact k

theorem yields_postS {children : V → List V} {root : V} {events : List (DfsEvent × V)} (h : DfsYields children root (.ok events)) :
    PostS children [] [(root, false)] (dependencyOrder events) := by
  obtain ⟨n, h⟩ := h
  exact run_postS h (by simp [Dfs.init, dependencyOrder])

omit [DecidableEq V] in
theorem PostS.unique {children : V → List V} {s : List V} {st : List (V × Bool)} {r r' : List V} (h : PostS children s st r) (h' : PostS children s st r') : r = r' := by
  induction h with
  | nil => cases h'; rfl
  | skip hv _ ih =>
    cases h' with
    | skip _ h' => exact ih h'
    | visit hn _ => exact absurd hv hn
  | visit hv _ ih =>
    cases h' with
    | skip hn _ => exact absurd hn hv
    | visit _ h' => exact ih h'
  | late _ ih =>
    cases h' with
    | late h' => exact ih h'

omit [DecidableEq V] in
/-- Only the children of nodes that can be reached matter. -/
theorem PostS.congr {ch ch' : V → List V} {R : V → Prop} (he : ∀ v, R v → ch' v = ch v) (hR : ∀ v, R v → ∀ c ∈ ch v, R c) {s : List V} {st : List (V × Bool)}
    {r : List V} (h : PostS ch s st r) (hst : ∀ e ∈ st, R e.1) : PostS ch' s st r := by
  induction h with
  | nil => exact .nil
  | skip hv _ ih => exact .skip hv (ih fun e h => hst e (by simp [h]))
  | @visit s v st r hv _ ih =>
    have hv' := hst (v, false) (by simp)
    refine .visit hv ?_
    rw [he v hv']
    refine ih fun e h => ?_
    simp only [List.mem_append, List.mem_map, List.mem_cons] at h
    rcases h with ⟨c, hc, rfl⟩ | rfl | h
    · exact hR v hv' c hc
    · exact hv'
    · exact hst e (by simp [h])
  | late _ ih => exact .late (ih fun e h => hst e (by simp [h]))

omit [DecidableEq V] in
/-- The same order under other names. -/
theorem PostS.map {W : Type} {ch : V → List V} {ch' : W → List W} {f : V → W} (hf : ∀ a b, f a = f b → a = b) (he : ∀ v, ch' (f v) = (ch v).map f) {s : List V}
    {st : List (V × Bool)} {r : List V} (h : PostS ch s st r) : PostS ch' (s.map f) (st.map fun e => (f e.1, e.2)) (r.map f) := by
  induction h with
  | nil => exact .nil
  | skip hv _ ih => exact .skip (List.mem_map_of_mem hv) ih
  | @visit s v st r hv _ ih =>
    refine .visit ?_ ?_
    · intro hm
      obtain ⟨a, ha, hb⟩ := List.mem_map.mp hm
      have e := hf a v hb
      rw [e] at ha
      exact hv ha
    · rw [he]
      simpa [Function.comp_def] using ih
  | late _ ih =>
    refine .late ?_
    simpa using ih

/-- A node without its children of the kind that is left out. -/
def contract (D : V → Bool) (deps : V → List V) (st : List (V × Bool)) : List (V × Bool) :=
  st.flatMap fun e => if D e.1 then [e] else if e.2 then [] else (deps e.1).map (·, false)

omit [DecidableEq V] in
theorem contract_append {D : V → Bool} {deps : V → List V} {a b : List (V × Bool)} : contract D deps (a ++ b) = contract D deps a ++ contract D deps b := by
  simp [contract]

omit [DecidableEq V] in
theorem contract_pending {D : V → Bool} {deps : V → List V} {l : List V} :
    contract D deps (l.map (·, false)) = (l.flatMap fun c => if D c then [c] else deps c).map (·, false) := by
  induction l with
  | nil => rfl
  | cons c l ih =>
    simp only [contract, List.map_cons, List.flatMap_cons, List.map_append] at ih ⊢
    rw [ih]
    cases D c <;> simp

omit [DecidableEq V] in
theorem PostS.skips {children : V → List V} {s : List V} {st : List (V × Bool)} {r : List V} (h : PostS children s st r) : ∀ {l : List V}, (∀ c ∈ l, c ∈ s) →
    PostS children s (l.map (·, false) ++ st) r := by
  intro l
  induction l with
  | nil => intro _; exact h
  | cons c l ih => intro hl; exact .skip (hl c (by simp)) (ih fun x hx => hl x (by simp [hx]))

/-- The order of the nodes in `D`, with everything between them contracted. -/
theorem PostS.contracted {ch deps : V → List V} {D : V → Bool} {R : V → Prop} (hR : ∀ v, R v → ∀ c ∈ ch v, R c)
    (hdeps : ∀ v, R v → deps v = (ch v).flatMap fun c => if D c then [c] else deps c) (hD : ∀ v, R v → ∀ c ∈ deps v, D c = true ∧ Reachable ch v c)
    {s : List V} {st : List (V × Bool)} {r : List V} (h : PostS ch s st r) (hst : ∀ e ∈ st, R e.1) (hcl : ∀ v ∈ s, ∀ c ∈ ch v, c ∈ s) (hE : EInv ch s [] st) :
    PostS deps (s.filter D) (contract D deps st) (r.filter D) := by
  have hreach : ∀ s : List V, (∀ v ∈ s, ∀ c ∈ ch v, c ∈ s) → ∀ v ∈ s, ∀ c, Reachable ch v c → c ∈ s := by
    intro s hcl v hv c ⟨n, hw⟩
    induction hw with
    | refl => exact hv
    | step _ hc ih => exact hcl _ (ih hv) _ hc
  induction h with
  | nil => exact .nil
  | @skip s v st r hv _ ih =>
    have hrest := ih (fun e h => hst e (by simp [h])) hcl (hE.2.mono (by
      rintro x (hx | hx)
      · exact .inl hx
      · simp only [List.mem_cons, List.not_mem_nil, or_false] at hx; subst hx; exact .inl hv))
    have hv' := hst (v, false) (by simp)
    cases hdv : D v with
    | true =>
      have : contract D deps ((v, false) :: st) = (v, false) :: contract D deps st := by simp [contract, hdv]
      rw [this]
      exact .skip (List.mem_filter.mpr ⟨hv, hdv⟩) hrest
    | false =>
      have : contract D deps ((v, false) :: st) = (deps v).map (·, false) ++ contract D deps st := by simp [contract, hdv]
      rw [this]
      refine hrest.skips fun c hc => ?_
      obtain ⟨h1, h2⟩ := hD v hv' c hc
      exact List.mem_filter.mpr ⟨hreach s hcl v hv c h2, h1⟩
  | @visit s v st r hv _ ih =>
    have hv' := hst (v, false) (by simp)
    have hrest := ih (by
      intro e h
      simp only [List.mem_append, List.mem_map, List.mem_cons] at h
      rcases h with ⟨c, hc, rfl⟩ | rfl | h
      · exact hR v hv' c hc
      · exact hv'
      · exact hst e (by simp [h])) hcl (by
      exact einv_push (ch v) [] (fun c hc => .inr hc) hE.2)
    rw [contract_append, contract_pending, ← hdeps v hv'] at hrest
    cases hdv : D v with
    | true =>
      have e1 : contract D deps ((v, false) :: st) = (v, false) :: contract D deps st := by simp [contract, hdv]
      have e2 : contract D deps ((v, true) :: st) = (v, true) :: contract D deps st := by simp [contract, hdv]
      rw [e2] at hrest
      rw [e1]
      exact .visit (fun h => hv (List.mem_filter.mp h).1) hrest
    | false =>
      have e1 : contract D deps ((v, false) :: st) = (deps v).map (·, false) ++ contract D deps st := by simp [contract, hdv]
      have e2 : contract D deps ((v, true) :: st) = contract D deps st := by simp [contract, hdv]
      rw [e2] at hrest
      rw [e1]
      exact hrest
  | @late s v st r _ ih =>
    have hall : ∀ c ∈ ch v, c ∈ s := fun c hc => by
      rcases hE.1 rfl c hc with h | h
      · exact h
      · cases h
    have hrest := ih (fun e h => hst e (by simp [h])) (by
      intro x hx c hc
      simp only [List.mem_append, List.mem_singleton] at hx ⊢
      rcases hx with hx | rfl
      · exact .inl (hcl x hx c hc)
      · exact .inl (hall c hc)) (hE.2.mono (by
      rintro x (hx | hx)
      · exact .inl (by simp [hx])
      · simp only [List.mem_cons, List.not_mem_nil, or_false] at hx; subst hx; exact .inl (by simp)))
    cases hdv : D v with
    | true =>
      have e : contract D deps ((v, true) :: st) = (v, true) :: contract D deps st := by simp [contract, hdv]
      rw [e]
      refine .late ?_
      rw [List.filter_append, List.filter_cons_of_pos hdv] at hrest
      exact hrest
    | false =>
      have e : contract D deps ((v, true) :: st) = contract D deps st := by simp [contract, hdv]
      rw [e]
      rw [List.filter_append, List.filter_cons_of_neg (by simp [hdv])] at hrest
      simpa using hrest

end Gen
