import Verif.Lemmas.GenOrder
import Verif.Lemmas.GenMeaning

/-! # The order of the definitions of a schema (for C107) -/

namespace Gen
open Spec Props

section
variable {V : Type} [DecidableEq V]

omit [DecidableEq V] in
theorem PostS.split {ch : V → List V} {s : List V} {st : List (V × Bool)} {r : List V} (h : PostS ch s st r) : ∀ {a b : List (V × Bool)}, st = a ++ b →
    ∃ m, PostS ch s a m ∧ PostS ch m b r := by
  induction h with
  | nil =>
    intro a b he
    obtain ⟨rfl, rfl⟩ := List.append_eq_nil_iff.mp he.symm
    exact ⟨_, .nil, .nil⟩
  | @skip s v st r hv h ih =>
    intro a b he
    cases a with
    | nil => subst he; exact ⟨_, .nil, .skip hv h⟩
    | cons x a =>
      injection he with e1 e2
      subst e1
      obtain ⟨m, h1, h2⟩ := ih e2
      exact ⟨m, .skip hv h1, h2⟩
  | @visit s v st r hv h ih =>
    intro a b he
    cases a with
    | nil => subst he; exact ⟨_, .nil, .visit hv h⟩
    | cons x a =>
      injection he with e1 e2
      subst e1 e2
      obtain ⟨m, h1, h2⟩ := ih (a := (ch v).map (·, false) ++ (v, true) :: a) (b := b) (by simp)
      exact ⟨m, .visit hv h1, h2⟩
  | @late s v st r h ih =>
    intro a b he
    cases a with
    | nil => subst he; exact ⟨_, .nil, .late h⟩
    | cons x a =>
      injection he with e1 e2
      subst e1
      obtain ⟨m, h1, h2⟩ := ih e2
      exact ⟨m, .late h1, h2⟩

omit [DecidableEq V] in
theorem PostS.lates {ch : V → List V} {r : List V} : ∀ {l s : List V}, PostS ch s (l.map (·, true)) r → r = s ++ l := by
  intro l
  induction l with
  | nil => intro s h; cases h; simp
  | cons a l ih =>
    intro s h
    cases h with
    | late h => rw [ih h]; simp

omit [DecidableEq V] in
/-- The same order under other names, backwards. -/
theorem PostS.unmap {W : Type} {ch : V → List V} {ch' : W → List W} {f : V → W} (hf : ∀ a b, f a = f b → a = b) (he : ∀ v, ch' (f v) = (ch v).map f) {s' : List W}
    {st' : List (W × Bool)} {r' : List W} (h : PostS ch' s' st' r') : ∀ {s : List V} {st : List (V × Bool)}, s' = s.map f → st' = st.map (fun e => (f e.1, e.2)) →
      ∃ r, r' = r.map f ∧ PostS ch s st r := by
  induction h with
  | nil =>
    intro s st h1 h2
    obtain rfl := List.map_eq_nil_iff.mp h2.symm
    exact ⟨s, h1, .nil⟩
  | @skip s' v' st' r' hv _ ih =>
    intro s st h1 h2
    cases st with
    | nil => cases h2
    | cons e st =>
      obtain ⟨v, b⟩ := e
      simp only [List.map_cons, List.cons.injEq, Prod.mk.injEq] at h2
      obtain ⟨⟨rfl, rfl⟩, rfl⟩ := h2
      obtain ⟨r, h3, h4⟩ := ih h1 rfl
      subst h1
      obtain ⟨a, ha, hb⟩ := List.mem_map.mp hv
      rw [hf a v hb] at ha
      exact ⟨r, h3, .skip ha h4⟩
  | @visit s' v' st' r' hv _ ih =>
    intro s st h1 h2
    cases st with
    | nil => cases h2
    | cons e st =>
      obtain ⟨v, b⟩ := e
      simp only [List.map_cons, List.cons.injEq, Prod.mk.injEq] at h2
      obtain ⟨⟨rfl, rfl⟩, rfl⟩ := h2
      obtain ⟨r, h3, h4⟩ := ih (st := (ch v).map (·, false) ++ (v, true) :: st) h1 (by rw [he]; simp [Function.comp_def])
      subst h1
      exact ⟨r, h3, .visit (fun hm => hv (List.mem_map_of_mem hm)) h4⟩
  | @late s' v' st' r' _ ih =>
    intro s st h1 h2
    cases st with
    | nil => cases h2
    | cons e st =>
      obtain ⟨v, b⟩ := e
      simp only [List.map_cons, List.cons.injEq, Prod.mk.injEq] at h2
      obtain ⟨⟨rfl, rfl⟩, rfl⟩ := h2
      obtain ⟨r, h3, h4⟩ := ih (s := s ++ [v]) (st := st) (by rw [h1]; simp) rfl
      exact ⟨r, h3, .late h4⟩
end

theorem peel_chain {t : Tree} {q : Path} : ∀ (d i : Nat) {lates r : List (Bool × Path)}, i + d = q.length →
    PostS (extractChildren t q) [] (((true, q.take i), false) :: lates.map (·, true)) r →
    ∃ r0, PostS (extractChildren t q) [] (((depChildren t q).map fun p => (false, p)).map (·, false)) r0 ∧
      r = r0 ++ ((List.range' i (d + 1)).reverse.map fun j => (true, q.take j)) ++ lates := by
  intro d
  induction d with
  | zero =>
    intro i lates r hi h
    have htake : q.take i = q := List.take_of_length_le (by omega)
    cases h with
    | skip hv _ => cases hv
    | visit _ h =>
      rw [htake, extract_node] at h
      obtain ⟨m, h1, h2⟩ := h.split rfl
      have := PostS.lates (l := (true, q) :: lates) h2
      exact ⟨m, h1, by rw [this]; simp [htake]⟩
  | succ d ih =>
    intro i lates r hi h
    cases h with
    | skip hv _ => cases hv
    | visit _ h =>
      rw [extract_copy (by omega)] at h
      obtain ⟨r0, h1, h2⟩ := ih (i + 1) (lates := (true, q.take i) :: lates) (by omega) h
      refine ⟨r0, h1, ?_⟩
      rw [h2, List.range'_succ (n := d + 1)]
      simp

theorem filterMap_one {α β : Type} {f : α → Option β} {l : List α} {x : α} {y : β} (hnd : l.Nodup) (hx : x ∈ l) (hy : f x = some y)
    (h : ∀ z ∈ l, z ≠ x → f z = none) : l.filterMap f = [y] := by
  obtain ⟨a, b, rfl⟩ := List.append_of_mem hx
  rw [List.nodup_append, List.nodup_cons] at hnd
  obtain ⟨_, ⟨h1, _⟩, h2⟩ := hnd
  rw [List.filterMap_append, List.filterMap_cons_some hy, List.filterMap_eq_nil_iff.mpr, List.filterMap_eq_nil_iff.mpr]
  · rfl
  · intro z hz
    exact h z (by simp [hz]) (fun e => h1 (e ▸ hz))
  · intro z hz
    exact h z (by simp [hz]) (fun e => h2 z hz x (by simp) e)

theorem chain_nodup {q : Path} : ((List.range' 0 (q.length + 1)).reverse.map fun j => ((true, q.take j) : Bool × Path)).Nodup := by
  refine List.Nodup.map_on ?_ ((List.nodup_reverse).mpr List.nodup_range')
  intro a ha b hb h
  simp only [List.mem_reverse, List.mem_range'_1] at ha hb
  have := congrArg (fun x : Bool × Path => x.2.length) h
  simp only [List.length_take] at this
  omega

/-- What is printed of the nodes below. -/
def entryBelow (t : Tree) (p : Path) : Option (List Text × PEntry) := printedOf t [] (false, p)

theorem entryBelow_eq {t : Tree} {q p : Path} : printedOf t q (false, p) = entryBelow t p := by
  unfold entryBelow printedOf extractNode
  simp

section
variable {t : Tree} (hc : Compiled t)
include hc

theorem Compiled.peeled (hf : Flat t) (hb : NoBuiltin t) {q : Path} {n : Tree} (hn : t.descend q = some n) (hp : Printable n.kind = true) {x : Text} (h : Schema t q (.ok x))
    {i : Nat} {y : List Text × PEntry} (hi : i ≤ q.length) (hself : printedOf t q (true, q.take i) = some y)
    (hother : ∀ j ≤ q.length, j ≠ i → printedOf t q (true, q.take j) = none) :
    ∃ post, PostS (depChildren t) [] ((depChildren t q).map (·, false)) post ∧ '\n' :: '\n' :: x = sourceText (post.filterMap (entryBelow t) ++ [y]) := by
  obtain ⟨events, h1, h2⟩ := schema_ok h
  have hpost := yields_postS h1
  have hfin := extract_finite hc.lk hn
  obtain ⟨_, hord, _⟩ := C49_dependency_order _ _ _ hfin events h1
  obtain ⟨z, e1, e2, _⟩ := hc.render hf hb hn hp (order := dependencyOrder events) (fun v hv => (hord v).mp hv)
  rw [e1] at h2
  injection h2 with h2
  subst h2
  obtain ⟨r0, g1, g2⟩ := peel_chain (t := t) (q := q) q.length 0 (lates := []) (by simp) (by simpa using hpost)
  rw [List.append_nil] at g2
  obtain ⟨post, k1, k2⟩ := PostS.unmap (f := fun p : Path => (false, p)) (ch := depChildren t) (by intro a b e; simpa using e) (fun v => extract_below) g1
    (s := []) (st := (depChildren t q).map (·, false)) rfl (by simp [Function.comp_def])
  refine ⟨post, k2, ?_⟩
  have k3 : ((List.range' 0 (q.length + 1)).reverse.map fun j => ((true, q.take j) : Bool × Path)).filterMap (printedOf t q) = [y] := by
    refine filterMap_one chain_nodup (x := (true, q.take i)) ?_ hself ?_
    · simp only [List.mem_map, List.mem_reverse, List.mem_range'_1]
      exact ⟨i, by omega, rfl⟩
    · intro z hz hne
      simp only [List.mem_map, List.mem_reverse, List.mem_range'_1] at hz
      obtain ⟨j, hj, rfl⟩ := hz
      exact hother j (by omega) (fun e => hne (by rw [e]))
  have k4 : (post.map fun p : Path => (false, p)).filterMap (printedOf t q) = post.filterMap (entryBelow t) := by
    rw [List.filterMap_map]
    apply List.filterMap_congr
    intro p _
    exact entryBelow_eq
  rw [e2, g2, List.filterMap_append, k1, k3, k4]

/-- The schema of a definition, in order. -/
theorem Compiled.definitionPeeled (hf : Flat t) (hb : NoBuiltin t) {q : Path} {n : Tree} (hn : t.descend q = some n) {e : PEntry} (he : definitionRecord n = some e)
    (hq : ¬ InBuiltin q) {x : Text} (h : Schema t q (.ok x)) :
    ∃ post, PostS (depChildren t) [] ((depChildren t q).map (·, false)) post ∧ '\n' :: '\n' :: x = sourceText (post.filterMap (entryBelow t) ++ [(q.dropLast, e)]) := by
  have hd : Spec.Kind.isDefinition n.kind = true := by rw [← record_isSome, he]; rfl
  have hp : Printable n.kind = true := by unfold Printable; rw [hd]; rfl
  refine hc.peeled hf hb hn hp h (i := q.length) (le_refl _) ?_ ?_
  · rw [List.take_length]
    unfold printedOf extractNode
    have hnb : isBuiltin t q = false := by
      rw [← Bool.not_eq_true, hc.builtin hf hn hd]
      exact hq
    simp only [hn, ne_eq, not_true_eq_false, and_false, if_false]
    rw [supported_definition, hd, hnb, he]
    rfl
  · intro j hj hne
    unfold printedOf
    cases hx : extractNode t q (true, q.take j) with
    | none => rfl
    | some y =>
      dsimp only
      by_cases hs : y.kind.isSupported = true
      · rcases hc.extracted hf hn hp hj hx hs with ⟨g1, _, _⟩ | ⟨_, _, _, _, g, _⟩
        · have := congrArg List.length g1
          simp only [List.length_take] at this
          omega
        · have : n.kind.isResource = false := by
            cases hk : n.kind <;> rw [hk] at hd <;> first | (cases hd; done) | rfl
          rw [g] at this; cases this
      · rw [if_neg (by simp [hs])]

/-- The schema of a resource, in order. -/
theorem Compiled.resourcePeeled (hf : Flat t) (hb : NoBuiltin t) {a : Path} {k : Text} {n : Tree} (hn : t.descend (a ++ [k]) = some n) (hr : n.kind.isResource = true)
    (hq : ¬ InBuiltin a) {x : Text} (h : Schema t (a ++ [k]) (.ok x)) :
    ∃ m post, t.descend a = some m ∧ m.kind = .archive ∧ PostS (depChildren t) [] ((depChildren t (a ++ [k])).map (·, false)) post ∧
      '\n' :: '\n' :: x = sourceText (post.filterMap (entryBelow t) ++ [(a.dropLast, .archive (archiveRecord (.mk m.name .archive [n])))]) := by
  have hp : Printable n.kind = true := by unfold Printable; rw [hr]; simp
  have hnd : Spec.Kind.isDefinition n.kind = false := by
    cases hk : n.kind <;> rw [hk] at hr <;> first | (cases hr; done) | rfl
  obtain ⟨m, hm, hmem, _, hma⟩ := hc.parents a k n hn
  have hmk := hma hr
  obtain ⟨_, _, _, hname⟩ := descend_parent hn
  have hmd : Spec.Kind.isDefinition m.kind = true := by rw [hmk]; rfl
  have hne : a ≠ a ++ [k] := by
    intro e
    have := congrArg List.length e
    simp at this
  obtain ⟨post, h1, h2⟩ := hc.peeled hf hb hn hp h (i := a.length) (y := (a.dropLast, .archive (archiveRecord (.mk m.name .archive [n])))) (by simp) (by
    rw [List.take_left]
    unfold printedOf extractNode
    have hnb : isBuiltin t a = false := by
      rw [← Bool.not_eq_true, hc.builtin hf hm hmd]
      exact hq
    simp only [hm, ne_eq, hne, not_false_eq_true, and_self, if_true]
    have hfil : (m.children.filter fun c => some c.name = ((a ++ [k]).drop a.length).head?) = [n] := by
      rw [List.drop_left]
      simp only [List.head?_cons, Option.some.injEq]
      have := hc.uniqueChild hm hmem
      rw [hname] at this
      exact this
    rw [hfil, hmk, hnb]
    rfl) (by
    intro j hj hne
    unfold printedOf
    cases hx : extractNode t (a ++ [k]) (true, (a ++ [k]).take j) with
    | none => rfl
    | some y =>
      dsimp only
      by_cases hs : y.kind.isSupported = true
      · rcases hc.extracted hf hn hp hj hx hs with ⟨_, g, _⟩ | ⟨a', k', g1, g2, _⟩
        · rw [g] at hnd; cases hnd
        · have e := (List.append_inj' g1 rfl).1
          rw [← e] at g2
          have := congrArg List.length g2
          simp only [List.length_take, List.length_append, List.length_singleton] at this hj
          omega
      · rw [if_neg (by simp [hs])])
  exact ⟨m, post, hm, hmk, h1, h2⟩
end

end Gen
