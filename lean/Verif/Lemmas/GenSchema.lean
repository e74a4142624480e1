import Verif.Lemmas.GenPrint

/-! # Which definitions a schema consists of, and in which order -/

namespace Gen
open Parser Spec Props

theorem schema_ok {t : Tree} {q : Path} {x : Text} (h : Schema t q (.ok x)) :
    ∃ events, DfsYields (extractChildren t q) (true, []) (.ok events) ∧ renderFlatdata t q (dependencyOrder events) = .ok x := by
  obtain ⟨n, h⟩ := h
  unfold schemaN at h
  cases hr : Dfs.run (extractChildren t q) n (Dfs.init (true, [])) with
  | none => rw [hr] at h; cases h
  | some r =>
    rw [hr] at h
    cases r with
    | error e => cases h
    | ok events =>
      refine ⟨events, ⟨n, hr⟩, ?_⟩
      injection h

/-! ## The graph of the traversal -/

theorem extract_finite {t : Tree} (hl : Lk t) {q : Path} {n : Tree} (hq : t.descend q = some n) :
    FiniteFrom (extractChildren t q) (true, []) ((List.range (q.length + 1)).map (fun i => (true, q.take i)) ++ ((t.iter []).map (·.1)).map fun p => (false, p)) := by
  have hf := depChildren_finite hl
  have hmem : ∀ {p : Path} {m : Tree}, t.descend p = some m → p ∈ (t.iter []).map (·.1) := by
    intro p m hm
    simp only [List.mem_map, Prod.exists, exists_and_right, exists_eq_right, iter_descend hl.good]
    exact ⟨m, hm⟩
  constructor
  · exact List.mem_append_left _ (List.mem_map.mpr ⟨0, by simp, by simp⟩)
  · rintro ⟨b, p⟩ hv c hcm
    unfold extractChildren at hcm
    split at hcm
    · rename_i hcond
      simp only at hcond
      simp only [List.mem_singleton] at hcm
      subst hcm
      obtain ⟨rfl, hne⟩ := hcond
      simp only [List.mem_append, List.mem_map, List.mem_range, Prod.mk.injEq, true_and, Bool.true_eq_false, false_and, and_false, exists_false, or_false,
        Bool.false_eq_true] at hv
      obtain ⟨i, hi, rfl⟩ := hv
      have hlt : i < q.length := by
        rcases Nat.lt_or_ge i q.length with h | h
        · exact h
        · exact absurd (List.take_of_length_le h) hne
      refine List.mem_append_left _ (List.mem_map.mpr ⟨i + 1, by simp; omega, ?_⟩)
      simp only [List.length_take]
      rw [Nat.min_eq_left (by omega)]
    · obtain ⟨d, hd, rfl⟩ := List.mem_map.mp hcm
      refine List.mem_append_right _ (List.mem_map.mpr ⟨d, ?_, rfl⟩)
      rename_i hcond
      have : p ∈ (t.iter []).map (·.1) := by
        simp only [List.mem_append, List.mem_map, Prod.mk.injEq] at hv
        rcases hv with ⟨i, _, rfl, rfl⟩ | ⟨a, ha, rfl, rfl⟩
        · have : q.take i = q := by
            by_contra h
            exact hcond ⟨rfl, h⟩
          rw [this]; exact hmem hq
        · exact List.mem_map.mpr ha
      exact hf.closed p this d hd

theorem extract_copy {t : Tree} {q : Path} {i : Nat} (hi : i < q.length) : extractChildren t q (true, q.take i) = [(true, q.take (i + 1))] := by
  unfold extractChildren
  rw [if_pos]
  · simp only [List.length_take]
    rw [Nat.min_eq_left (by omega)]
  · refine ⟨rfl, fun h => ?_⟩
    have := congrArg List.length h
    simp only [List.length_take] at this
    omega

theorem extract_node {t : Tree} {q : Path} : extractChildren t q (true, q) = (depChildren t q).map fun p => (false, p) := by
  unfold extractChildren
  rw [if_neg (by simp)]

theorem extract_below {t : Tree} {q p : Path} : extractChildren t q (false, p) = (depChildren t p).map fun p => (false, p) := by
  unfold extractChildren
  rw [if_neg (by simp)]

theorem extract_reach {t : Tree} {q : Path} {v : Bool × Path} (h : Reachable (extractChildren t q) (true, []) v) :
    (∃ i ≤ q.length, v = (true, q.take i)) ∨ ∃ p n, v = (false, p) ∧ Walk (depChildren t) (n + 1) q p := by
  obtain ⟨n, h⟩ := h
  induction n generalizing v with
  | zero =>
    cases h
    exact .inl ⟨0, by omega, rfl⟩
  | succ n ih =>
    cases h with
    | @step _ _ b _ hw hc =>
      rcases ih hw with ⟨i, hi, rfl⟩ | ⟨p, k, rfl, hk⟩
      · rcases Nat.lt_or_ge i q.length with hlt | hge
        · rw [extract_copy hlt, List.mem_singleton] at hc
          exact .inl ⟨i + 1, by omega, hc⟩
        · rw [List.take_of_length_le hge, extract_node] at hc
          obtain ⟨d, hd, rfl⟩ := List.mem_map.mp hc
          exact .inr ⟨d, 0, rfl, .step (.refl _) hd⟩
      · rw [extract_below] at hc
        obtain ⟨d, hd, rfl⟩ := List.mem_map.mp hc
        exact .inr ⟨d, k + 1, rfl, .step hk hd⟩

theorem extract_walk {t : Tree} {q p : Path} {n : Nat} (h : Walk (depChildren t) (n + 1) q p) : Walk (extractChildren t q) (n + 1) (true, q) (false, p) := by
  induction n generalizing p with
  | zero =>
    cases h with
    | step hw hc =>
      cases hw
      refine .step (.refl _) ?_
      rw [extract_node]
      exact List.mem_map_of_mem hc
  | succ n ih =>
    cases h with
    | step hw hc =>
      refine .step (ih hw) ?_
      rw [extract_below]
      exact List.mem_map_of_mem hc

theorem extract_prefix {t : Tree} {q : Path} : ∀ {i : Nat}, i ≤ q.length → Walk (extractChildren t q) i (true, []) (true, q.take i) := by
  intro i
  induction i with
  | zero => intro _; exact .refl _
  | succ i ih =>
    intro hi
    refine .step (ih (by omega)) ?_
    rw [extract_copy (by omega)]
    simp

theorem walk_trans {V : Type} {ch : V → List V} {n m : Nat} {a b c : V} (h1 : Walk ch n a b) (h2 : Walk ch m b c) : Walk ch (n + m) a c := by
  induction h2 with
  | refl => exact h1
  | step _ hc ih => exact .step (ih h1) hc

theorem extract_reachable {t : Tree} {q p : Path} {n : Nat} (h : Walk (depChildren t) (n + 1) q p) : Reachable (extractChildren t q) (true, []) (false, p) := by
  have := extract_prefix (t := t) (q := q) (i := q.length) (le_refl _)
  rw [List.take_length] at this
  exact ⟨_, walk_trans this (extract_walk h)⟩

/-! ## What is printed -/

/-- Definitions and resources. -/
def Printable (k : Kind) : Bool := Spec.Kind.isDefinition k || k.isResource

theorem supported_definition (k : Kind) : k.isSupported = Spec.Kind.isDefinition k := by cases k <;> rfl

/-- What is printed for a node of the extracted tree: the names of its namespaces and its record. -/
def printedOf (t : Tree) (q : Path) (v : Bool × Path) : Option (List Text × PEntry) :=
  match extractNode t q v with
  | some n => if n.kind.isSupported && !isBuiltin t v.2 then (definitionRecord n).map fun e => (v.2.dropLast, e) else none
  | none => none

theorem nested_print (ns : List Text) {e : PEntry} (he : Leads (entryText e)) : nestedText ns e ++ ['\n', '\n'] = '\n' :: '\n' :: printInNamespaces ns (unlead (entryText e)) := by
  have h1 : '\n' :: (ns.flatMap (fun n => "namespace ".toList ++ n ++ " {\n".toList) ++ (unlead (entryText e) ++ ((ns.flatMap fun _ => "}\n".toList) ++ "\n".toList))) =
      ns.flatMap openText ++ (entryText e ++ ('\n' :: ((ns.flatMap fun _ => "}\n".toList) ++ "\n".toList))) := by
    have := flatMap_unlead (f := openText) (l := ns) (fun n _ => ⟨_, rfl⟩) (unlead (entryText e) ++ ((ns.flatMap fun _ => "}\n".toList) ++ "\n".toList))
    have h2 : ns.flatMap (fun x => unlead (openText x)) = ns.flatMap (fun n => "namespace ".toList ++ n ++ " {\n".toList) := by
      apply List.flatMap_congr
      intro n _
      simp [openText, unlead]
    rw [h2] at this
    rw [this, ← List.cons_append, lead_unlead he]
    simp
  have h3 : '\n' :: ((ns.flatMap fun _ => "}\n".toList) ++ "\n".toList) = (ns.flatMap fun _ => ['\n', '}']) ++ ['\n', '\n'] := by
    have := flatMap_unlead (f := fun _ : Text => ['\n', '}']) (l := ns) (fun n _ => ⟨_, rfl⟩) ['\n']
    exact this
  unfold nestedText printInNamespaces
  rw [List.append_assoc, List.append_assoc, h1, h3]
  simp

theorem entryText_leads {ok : PResDeco → Prop} {e : PEntry} (h : NormalEntry ok e) : Leads (entryText e) := by
  cases e with
  | comment => exact h.elim
  | archive a =>
    show Leads (archiveText a)
    unfold archiveText
    cases a.bounds with
    | nil => exact ⟨_, rfl⟩
    | cons g gs => exact ⟨_, rfl⟩
  | _ => exact ⟨_, rfl⟩

section
variable {t : Tree} (hc : Compiled t)
include hc

theorem Compiled.above (hf : Flat t) {q : Path} {n : Tree} (hn : t.descend q = some n) (hd : Spec.Kind.isDefinition n.kind = true) {i : Nat} (hi : i < q.length) {m : Tree}
    (hm : t.descend (q.take i) = some m) : m.kind = .root ∨ m.kind = .namespace := by
  cases q using List.reverseRecOn with
  | nil => simp at hi
  | append_singleton ns k =>
    obtain ⟨a, ha, _, h1, _⟩ := hc.parents ns k n hn
    have hak := h1 hd
    simp only [List.length_append, List.length_singleton] at hi
    rw [List.take_append_of_le_length (by omega)] at hm
    by_cases h0 : 0 < i
    · have := flat_prefix hf ha hak i h0 (by omega)
      unfold isNamespaceAt at this
      rw [hm] at this
      right
      simpa [Tree.isNamespace] using this
    · have : i = 0 := by omega
      subst this
      simp only [List.take_zero, Tree.descend, Option.some.injEq] at hm
      left
      exact hm ▸ hc.rootKind

/-- Which nodes of the extracted tree are printed. -/
theorem Compiled.extracted (hf : Flat t) {q : Path} {n : Tree} (hn : t.descend q = some n) (hp : Printable n.kind = true) {i : Nat} (hi : i ≤ q.length) {x : Tree}
    (hx : extractNode t q (true, q.take i) = some x) (hs : x.kind.isSupported = true) :
    (q.take i = q ∧ Spec.Kind.isDefinition n.kind = true ∧ x = n) ∨
    ∃ a k, q = a ++ [k] ∧ q.take i = a ∧ n.kind.isResource = true ∧ ∃ m, t.descend a = some m ∧ m.kind = .archive ∧ n ∈ m.children ∧ n.name = k ∧
      x = .mk m.name .archive (m.children.filter fun c => c.name = k) := by
  unfold extractNode at hx
  cases hm : t.descend (q.take i) with
  | none => simp only [hm] at hx; cases hx
  | some m =>
    simp only [hm, true_and] at hx
    by_cases hq : q.take i = q
    · rw [if_neg (by simpa using hq)] at hx
      injection hx with hx
      subst hx
      rw [hq, hn] at hm
      injection hm with hm
      subst hm
      rw [supported_definition] at hs
      exact .inl ⟨hq, hs, rfl⟩
    · rw [if_pos hq] at hx
      injection hx with hx
      subst hx
      have hi' : i < q.length := by
        rcases Nat.lt_or_ge i q.length with h | h
        · exact h
        · exact absurd (List.take_of_length_le h) hq
      simp only [Tree.kind] at hs
      rw [supported_definition] at hs
      have hmk : Spec.Kind.isDefinition m.kind = true := hs
      have hnr : ¬ (m.kind = .root ∨ m.kind = .namespace) := by
        rintro (h | h) <;> rw [h] at hmk <;> cases hmk
      have hres : n.kind.isResource = true := by
        cases hd : Spec.Kind.isDefinition n.kind with
        | true => exact absurd (hc.above hf hn hd hi' hm) hnr
        | false => unfold Printable at hp; rw [hd] at hp; simpa using hp
      cases q using List.reverseRecOn with
      | nil => simp at hi'
      | append_singleton a k =>
        obtain ⟨b, hb, hmem, _, h2⟩ := hc.parents a k n hn
        obtain ⟨_, _, _, hname⟩ := descend_parent hn
        have hbk := h2 hres
        simp only [List.length_append, List.length_singleton] at hi'
        rw [List.take_append_of_le_length (by omega)] at hm hq
        have hia : i = a.length := by
          by_contra hne
          exact absurd (hc.above hf hb (by rw [hbk]; rfl) (by omega) hm) hnr
        subst hia
        rw [List.take_length, hb] at hm
        injection hm with hm
        subst hm
        refine .inr ⟨a, k, rfl, by simp, hres, b, hb, hbk, hmem, hname, ?_⟩
        rw [hbk]
        simp [eq_comm]

/-- What the printer makes of a traversal. -/
theorem Compiled.render (hf : Flat t) (hb : NoBuiltin t) {q : Path} {n : Tree} (hn : t.descend q = some n) (hp : Printable n.kind = true) {order : List (Bool × Path)}
    (ho : ∀ v ∈ order, Reachable (extractChildren t q) (true, []) v) :
    ∃ x, renderFlatdata t q order = .ok x ∧ '\n' :: '\n' :: x = sourceText (order.filterMap (printedOf t q)) ∧
      ∀ e ∈ order.filterMap (printedOf t q), e.1 ≠ [] ∧ (∀ k ∈ e.1, NsName k) ∧ NormalEntry (DecoOk t) e.2 := by
  have hnode : ∀ v ∈ order, ∀ x, extractNode t q v = some x → x.kind.isSupported = true → ∃ m, t.descend v.2 = some m ∧ Spec.Kind.isDefinition m.kind = true ∧
      (x = m ∨ m.kind = .archive ∧ ∃ cs, x = .mk m.name .archive cs ∧ ∀ c ∈ cs, c ∈ m.children) := by
    intro v hv x hx hs
    rcases extract_reach (ho v hv) with ⟨i, hi, rfl⟩ | ⟨p, k, rfl, _⟩
    · rcases hc.extracted hf hn hp hi hx hs with ⟨h1, h2, rfl⟩ | ⟨a, k, rfl, h1, _, m, h2, h3, _, _, rfl⟩
      · exact ⟨x, by rw [h1]; exact hn, h2, .inl rfl⟩
      · exact ⟨m, by simp only [h1]; exact h2, by rw [h3]; rfl, .inr ⟨h3, _, rfl, fun c hcm => (List.mem_filter.mp hcm).1⟩⟩
    · unfold extractNode at hx
      cases hm : t.descend p with
      | none => simp only [hm] at hx; cases hx
      | some m =>
        simp only [hm, Bool.false_eq_true, false_and, if_false] at hx
        injection hx with hx
        subst hx
        rw [supported_definition] at hs
        exact ⟨m, rfl, hs, .inl rfl⟩
  clear ho
  induction order with
  | nil => exact ⟨[], rfl, rfl, by simp⟩
  | cons v order ih =>
    obtain ⟨y, h1, h2, h3⟩ := ih fun w hw => hnode w (by simp [hw])
    have hskip : supportedNodes t q (v :: order) = supportedNodes t q order → printedOf t q v = none →
        ∃ x, renderFlatdata t q (v :: order) = .ok x ∧ '\n' :: '\n' :: x = sourceText ((v :: order).filterMap (printedOf t q)) ∧
          ∀ e ∈ (v :: order).filterMap (printedOf t q), e.1 ≠ [] ∧ (∀ k ∈ e.1, NsName k) ∧ NormalEntry (DecoOk t) e.2 := by
      intro e1 e2
      refine ⟨y, ?_, ?_, ?_⟩
      · unfold renderFlatdata at h1 ⊢
        rw [e1]; exact h1
      · rw [List.filterMap_cons_none e2]; exact h2
      · rw [List.filterMap_cons_none e2]; exact h3
    cases hx : extractNode t q v with
    | none =>
      refine hskip ?_ ?_
      · unfold supportedNodes
        rw [List.filterMap_cons_none]
        simp only [hx]
      · unfold printedOf
        simp only [hx]
    | some x =>
      by_cases hs : (x.kind.isSupported && !isBuiltin t v.2) = true
      · obtain ⟨m, hm, hd, hxm⟩ := hnode v (by simp) x hx (by simp only [Bool.and_eq_true] at hs; exact hs.1)
        obtain ⟨e, e1, e2, e3⟩ := hc.definition hf hb hm hd hxm
        obtain ⟨ns, k, hp, _, n1, n2, n3⟩ := hc.namespaces hf hm hd
        have hpr : printedOf t q v = some (ns, e) := by
          unfold printedOf
          simp only [hx, hs, if_true, e1, Option.map_some]
          rw [hp, List.dropLast_concat]
        have hsn : supportedNodes t q (v :: order) = (v.2, x) :: supportedNodes t q order := by
          unfold supportedNodes
          rw [List.filterMap_cons_some]
          simp only [hx, hs, if_true]
        refine ⟨printInNamespaces ns (unlead (entryText e)) ++ y, ?_, ?_, ?_⟩
        · unfold renderFlatdata at h1 ⊢
          obtain ⟨l, hl, hy⟩ := bind_ok h1
          simp only [pure, Except.pure, Except.ok.injEq] at hy
          rw [hsn, List.mapM_cons, hl]
          simp only [e2, n2, bind, Except.bind, pure, Except.pure]
          rw [← hy]
          rfl
        · rw [List.filterMap_cons_some hpr]
          unfold sourceText at h2 ⊢
          rw [List.flatMap_cons, List.append_assoc, ← h2]
          have := nested_print ns (entryText_leads e3)
          rw [show nestedText ns e ++ '\n' :: '\n' :: y = (nestedText ns e ++ ['\n', '\n']) ++ y by simp, this]
          rfl
        · rw [List.filterMap_cons_some hpr]
          intro d hd
          rcases List.mem_cons.mp hd with rfl | hd
          · exact ⟨n1, n3, e3⟩
          · exact h3 d hd
      · refine hskip ?_ ?_
        · unfold supportedNodes
          rw [List.filterMap_cons_none]
          simp only [hx]
          rw [if_neg hs]
        · unfold printedOf
          simp only [hx]
          rw [if_neg hs]

/-- The definitions in a schema. -/
theorem Compiled.schema (hf : Flat t) (hb : NoBuiltin t) {q : Path} {n : Tree} (hn : t.descend q = some n) (hp : Printable n.kind = true) {x : Text}
    (h : Schema t q (.ok x)) :
    ∃ order : List (Bool × Path), order.Nodup ∧ (∀ v, v ∈ order ↔ Reachable (extractChildren t q) (true, []) v) ∧
      (∀ v d k, v ∈ order → Walk (extractChildren t q) (k + 1) v d → Before order d v) ∧
      '\n' :: '\n' :: x = sourceText (order.filterMap (printedOf t q)) ∧
      ∀ e ∈ order.filterMap (printedOf t q), e.1 ≠ [] ∧ (∀ k ∈ e.1, NsName k) ∧ NormalEntry (DecoOk t) e.2 := by
  obtain ⟨events, h1, h2⟩ := schema_ok h
  have hfin := extract_finite hc.lk hn
  obtain ⟨a1, a2, _⟩ := C49_dependency_order _ _ _ hfin events h1
  obtain ⟨y, b1, b2, b3⟩ := hc.render hf hb hn hp (order := dependencyOrder events) (fun v hv => (a2 v).mp hv)
  rw [h2] at b1
  injection b1 with b1
  subst b1
  exact ⟨_, a1, a2, fun v d k hv hw => C49_all_dependencies_before _ _ _ hfin events h1 v d hv k hw, b2, b3⟩

end

/-- The last of the printed nodes. -/
theorem filterMap_last {α β : Type} {f : α → Option β} {l : List α} {x : α} {y : β} (hnd : l.Nodup) (hx : x ∈ l) (hy : f x = some y)
    (h : ∀ z ∈ l, z ≠ x → f z ≠ none → Before l z x) : ∃ init, l.filterMap f = init ++ [y] ∧ ∀ w, w ∈ init ↔ ∃ z ∈ l, z ≠ x ∧ f z = some w := by
  obtain ⟨a, b, rfl⟩ := List.append_of_mem hx
  have hxa : x ∉ a := by
    intro hm
    rw [List.nodup_append] at hnd
    exact hnd.2.2 x hm x (by simp) rfl
  have hxb : x ∉ b := by
    rw [List.nodup_append, List.nodup_cons] at hnd
    exact hnd.2.1.1
  have hb : ∀ z ∈ b, f z = none := by
    intro z hz
    by_contra hne
    have hzx : z ≠ x := fun e => hxb (e ▸ hz)
    obtain ⟨c, d, e, he⟩ := h z (by simp [hz]) hzx hne
    -- the two occurrences of `x` are the same
    have hza : z ∈ a := by
      have hx2 : x ∉ c ++ z :: d := by
        intro hm
        rw [he, List.nodup_append] at hnd
        exact hnd.2.2 x hm x (by simp) rfl
      classical
      have hlen : a.length = (c ++ z :: d).length := by
        have h1 : (a ++ x :: b).idxOf x = a.length := by rw [List.idxOf_append_of_notMem hxa]; simp
        have h2 : (c ++ z :: d ++ x :: e).idxOf x = (c ++ z :: d).length := by rw [List.idxOf_append_of_notMem hx2]; simp
        rw [he] at h1
        omega
      rw [(List.append_inj he hlen).1]
      simp
    rw [List.nodup_append] at hnd
    exact hnd.2.2 z hza z (by simp [hz]) rfl
  refine ⟨a.filterMap f, ?_, ?_⟩
  · rw [List.filterMap_append, List.filterMap_cons_some hy, List.filterMap_eq_nil_iff.mpr hb]
  · intro w
    rw [List.mem_filterMap]
    constructor
    · rintro ⟨z, hz, hw⟩
      exact ⟨z, by simp [hz], fun e => hxa (e ▸ hz), hw⟩
    · rintro ⟨z, hz, hne, hw⟩
      rcases List.mem_append.mp hz with hz | hz
      · exact ⟨z, hz, hw⟩
      · rcases List.mem_cons.mp hz with rfl | hz
        · exact absurd rfl hne
        · rw [hb z hz] at hw; cases hw

end Gen
