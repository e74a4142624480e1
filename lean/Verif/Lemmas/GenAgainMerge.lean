import Verif.Lemmas.GenAgainLike
import Verif.Props.Gen.Schema

/-! # The tree of a stored schema (for C106) -/

namespace Gen
open Spec Props

/-- What is stored, each definition once. -/
theorem schemaEntries {s : Text} {t : Tree} (h : Compile s (.ok t)) (hf : Flat t) (hb : NoBuiltin t) {q : Path} {n : Tree} (hn : t.descend q = some n)
    (hd : Spec.Kind.isDefinition n.kind = true) (hq : ¬ InBuiltin q) {x : Text} (hx : Schema t q (.ok x)) :
    ∃ es : List (List Text × PEntry), '\n' :: '\n' :: x = sourceText es ∧ es.Nodup ∧ es ≠ [] ∧
      (∀ w, w ∈ es ↔ ∃ p m, Reachable (depChildren t) q p ∧ t.descend p = some m ∧ ¬ InBuiltin p ∧ definitionRecord m = some w.2 ∧ w.1 = p.dropLast) ∧
      ∀ w ∈ es, w.1 ≠ [] ∧ (∀ k ∈ w.1, NsName k) ∧ NormalEntry (DecoOk t) w.2 := by
  have hc := compile_compiled h
  obtain ⟨blocks, hs, hl, hba⟩ := compile_blocks h
  have hplain := fun (b : PBlock) (hb : b ∈ blocks) => lexical_plain (hl b hb)
  obtain ⟨e, he⟩ := Option.isSome_iff_exists.mp (record_isSome.trans hd)
  have hp : Printable n.kind = true := by unfold Printable; rw [hd]; rfl
  obtain ⟨order, h1, h2, h3, h4, h5⟩ := hc.schema hf hb hn hp hx
  have hself : printedOf t q (true, q) = some (q.dropLast, e) := by
    unfold printedOf extractNode
    have hnb : isBuiltin t q = false := by
      rw [← Bool.not_eq_true, hc.builtin hf hn hd]
      exact hq
    simp only [hn, ne_eq, not_true_eq_false, and_false, if_false]
    rw [supported_definition, hd, hnb, he]
    rfl
  have hqo : (true, q) ∈ order := by
    have := extract_prefix (t := t) (q := q) (i := q.length) (le_refl _)
    rw [List.take_length] at this
    exact (h2 _).mpr ⟨_, this⟩
  have hform : ∀ z ∈ order, z ≠ (true, q) → printedOf t q z ≠ none → ∃ p k, z = (false, p) ∧ Walk (depChildren t) (k + 1) q p := by
    intro z hz hne hpr
    rcases extract_reach ((h2 z).mp hz) with ⟨i, hi, rfl⟩ | ⟨p, k, rfl, hk⟩
    · exfalso
      unfold printedOf at hpr
      cases hx : extractNode t q (true, q.take i) with
      | none => simp [hx] at hpr
      | some y =>
        simp only [hx] at hpr
        by_cases hs : y.kind.isSupported = true
        · rcases hc.extracted hf hn hp hi hx hs with ⟨g1, _, _⟩ | ⟨_, _, _, _, g, _⟩
          · exact hne (by rw [g1])
          · have : n.kind.isResource = false := by
              cases hk : n.kind <;> rw [hk] at hd <;> first | (cases hd; done) | rfl
            rw [g] at this; cases this
        · rw [if_neg (by simp [hs])] at hpr
          exact hpr rfl
    · exact ⟨p, k, rfl, hk⟩
  have hpath : ∀ z ∈ order, ∀ w, printedOf t q z = some w → ∃ p m, Reachable (depChildren t) q p ∧ t.descend p = some m ∧ ¬ InBuiltin p ∧
      definitionRecord m = some w.2 ∧ w.1 = p.dropLast ∧ p = w.1 ++ [entryName w.2] ∧ z.2 = p ∧ (z = (true, q) ∨ z.1 = false ∧ ∃ k, Walk (depChildren t) (k + 1) q p) := by
    intro z hz w hw
    by_cases hzq : z = (true, q)
    · subst hzq
      rw [hself] at hw
      cases hw
      refine ⟨q, n, ⟨0, .refl _⟩, hn, hq, he, rfl, ?_, rfl, .inl rfl⟩
      exact hc.defPath hf hn he
    · obtain ⟨p, k, rfl, hk⟩ := hform z hz hzq (by rw [hw]; simp)
      obtain ⟨m, a1, a2, e', a3, rfl⟩ := (hc.printedBelow hf).mp hw
      exact ⟨p, m, ⟨_, hk⟩, a1, a2, a3, rfl, hc.defPath hf a1 a3, rfl, .inr ⟨rfl, k, hk⟩⟩
  refine ⟨order.filterMap (printedOf t q), h4, ?_, ?_, ?_, h5⟩
  · have key : ∀ z ∈ order, ∀ z' ∈ order, ∀ w, printedOf t q z = some w → printedOf t q z' = some w → z = z' := by
      intro z hz z' hz' w hw hw'
      obtain ⟨p, m, _, _, _, _, _, a1, a2, a3⟩ := hpath z hz w hw
      obtain ⟨p', m', _, _, _, _, _, b1, b2, b3⟩ := hpath z' hz' w hw'
      have hpp : p = p' := a1.trans b1.symm
      subst hpp
      have hcyc : ∀ k, ¬ Walk (depChildren t) (k + 1) q q := fun k hk => C64_acyclic hplain hba hn (by intro rk hk'; rw [hk'] at hd; cases hd) ⟨k, hk⟩
      rcases a3 with rfl | ⟨a3, k, hk⟩
      · rcases b3 with rfl | ⟨b3, k, hk⟩
        · rfl
        · simp only at a2; subst a2; exact absurd hk (hcyc k)
      · rcases b3 with rfl | ⟨b3, k', hk'⟩
        · simp only at b2; subst b2; exact absurd hk (hcyc k)
        · exact Prod.ext (a3.trans b3.symm) (a2.trans b2.symm)
    clear h2 h3 h4 h5 hqo hform hpath
    induction order with
    | nil => simp
    | cons z l ih =>
      rw [List.nodup_cons] at h1
      rw [List.filterMap_cons]
      have hrec := ih h1.2 (fun a ha b hb => key a (by simp [ha]) b (by simp [hb]))
      split
      · exact hrec
      · rename_i w hw
        rw [List.nodup_cons]
        refine ⟨fun hm => ?_, hrec⟩
        obtain ⟨z', hz', hw'⟩ := List.mem_filterMap.mp hm
        have := key z (by simp) z' (by simp [hz']) w hw hw'
        subst this
        exact h1.1 hz'
  · intro he0
    have : (q.dropLast, e) ∈ order.filterMap (printedOf t q) := List.mem_filterMap.mpr ⟨_, hqo, hself⟩
    rw [he0] at this; cases this
  · intro w
    rw [List.mem_filterMap]
    constructor
    · rintro ⟨z, hz, hw⟩
      obtain ⟨p, m, a1, a2, a3, a4, a5, _⟩ := hpath z hz w hw
      exact ⟨p, m, a1, a2, a3, a4, a5⟩
    · rintro ⟨p, m, ⟨k, hk⟩, a2, a3, a4, a5⟩
      obtain ⟨w1, w2⟩ := w
      simp only at a4 a5
      subst a5
      cases k with
      | zero =>
        cases hk
        rw [hn] at a2; cases a2
        rw [he] at a4; cases a4
        exact ⟨_, hqo, hself⟩
      | succ k => exact ⟨(false, p), (h2 _).mpr (extract_reachable hk), (hc.printedBelow hf).mpr ⟨m, a2, a3, w2, a4, rfl⟩⟩

/-! ## The merged tree -/

theorem noNs_of : ∀ (c : Tree), Good c → (∀ p n, c.descend p = some n → n.kind ≠ .namespace) → NoNs c
  | .mk n k cs, hg, h => by
    refine .mk (h [] _ rfl) fun d hd => noNs_of d (hg.children d hd) fun p m hp => h (d.name :: p) m ?_
    simp only [Tree.descend, child_of_mem hg.nodup hd]
    exact hp
  termination_by c => sizeOf c
  decreasing_by
    simp only [Tree.mk.sizeOf_spec]
    have := List.sizeOf_lt_of_mem hd
    omega

theorem oneNode (ns : Text) {e : PEntry} {d : Tree} (h : entryCreate e = .ok d) : definitionNodes (blockOf ns [e]) = [d] ∧ Valid (blockOf ns [e]) := by
  unfold definitionNodes Valid
  cases e <;> simp_all [blockOf, entryCreate, Except.toOption]

/-- The tree of the stored schema of the definition at `q`. -/
structure Again (t : Tree) (q : Path) (t0 : Tree) : Prop where
  like : Like t0 t
  there : ∀ p m, Reachable (depChildren t) q p → t.descend p = some m → ¬ InBuiltin p → Spec.Kind.isDefinition m.kind = true →
    ∃ d, t0.descend p = some d ∧ Like d m ∧ Full d m
  only : ∀ p d, t0.descend p = some d → d.kind ≠ .root → d.kind ≠ .namespace → ∃ a b p', p = a :: b :: p' ∧ Reachable (depChildren t) q [a, b] ∧ ¬ InBuiltin [a, b] ∧
    ∃ m, t.descend [a, b] = some m ∧ Spec.Kind.isDefinition m.kind = true

theorem splitDot_ident' {n : Text} (h : Ident n) : splitDot n = [n] := splitDot_nodot (ident_name h).1

theorem againBuilt {s : Text} {t : Tree} (h : Compile s (.ok t)) (hf : Flat t) (hb : NoBuiltin t) (hs : SimpleNamespaces t) {q : Path} {n : Tree}
    (hn : t.descend q = some n) (hd : Spec.Kind.isDefinition n.kind = true) (hq : ¬ InBuiltin q) {x : Text} (hx : Schema t q (.ok x))
    (ha : ∀ p m, Reachable (depChildren t) q p → t.descend p = some m → ∀ r ∈ m.children, ExplicitApart r) :
    ∃ blocks t0, parseSource x = .ok blocks ∧ (∀ b ∈ blocks, Ident b.name ∧ b.name ≠ "_builtin".toList) ∧ buildNodeTree blocks = .ok t0 ∧ Again t q t0 ∧
      (∀ p m e, Reachable (depChildren t) q p → t.descend p = some m → ¬ InBuiltin p → definitionRecord m = some e →
        ∃ ns, p = [ns, m.name] ∧ Ident ns ∧ blockOf ns [e] ∈ blocks) ∧
      ∀ b ∈ blocks, ∃ ns m e, b = blockOf ns [e] ∧ Ident ns ∧ Reachable (depChildren t) q [ns, m.name] ∧ t.descend [ns, m.name] = some m ∧ ¬ InBuiltin [ns, m.name] ∧
        definitionRecord m = some e := by
  have hc := compile_compiled h
  obtain ⟨es, a1, a2, a0, a3, a4⟩ := schemaEntries h hf hb hn hd hq hx
  have hsimple : ∀ w ∈ es, ∃ ns m, w.1 = [ns] ∧ Ident ns ∧ ns ≠ "_builtin".toList ∧ Reachable (depChildren t) q [ns, m.name] ∧ t.descend [ns, m.name] = some m ∧ ¬ InBuiltin [ns, m.name] ∧
      definitionRecord m = some w.2 ∧ entryName w.2 = m.name := by
    intro w hw
    obtain ⟨p, m, h1, h2, h3, h4, h5⟩ := (a3 w).mp hw
    obtain ⟨ns, c1, c2, c3⟩ := simple_path hc hf hs h2 (by rw [← record_isSome, h4]; rfl) h3
    subst c1
    refine ⟨ns, m, h5.trans c2, c3, ?_, h1, h2, h3, h4, record_name h4⟩
    intro e
    apply h3
    unfold InBuiltin
    simp [e]
  have hparse := parse_printed hs.2 a0 a1 a4 (fun w hw => by
    obtain ⟨ns, _, h1, h2, _⟩ := hsimple w hw
    exact ⟨ns, h1, h2⟩)
  have hcreate : ∀ w ∈ es, ∃ ns m d, w.1 = [ns] ∧ t.descend [ns, m.name] = some m ∧ entryCreate w.2 = .ok d ∧ d.name = m.name ∧ definitionRecord m = some w.2 := by
    intro w hw
    obtain ⟨ns, m, h1, h2, _, h3, h4, h5, h6, _⟩ := hsimple w hw
    obtain ⟨d, d1, d2, d3, d4⟩ := entryAgain h hf h4 h6 (ha _ _ h3 h4)
    exact ⟨ns, m, d, h1, h4, d1, d2, h6⟩
  generalize hB : es.map (fun w => blockOf (w.1.headD []) [w.2]) = B at hparse
  have hmem : ∀ b ∈ B, ∃ w ∈ es, ∃ ns m d, w.1 = [ns] ∧ b = blockOf ns [w.2] ∧ Ident ns ∧ ns ≠ "_builtin".toList ∧ Reachable (depChildren t) q [ns, m.name] ∧ ¬ InBuiltin [ns, m.name] ∧
      t.descend [ns, m.name] = some m ∧ Spec.Kind.isDefinition m.kind = true ∧ entryCreate w.2 = .ok d ∧ d.name = m.name ∧ Like d m ∧ Full d m := by
    intro b hbm
    rw [← hB] at hbm
    obtain ⟨w, hw, rfl⟩ := List.mem_map.mp hbm
    obtain ⟨ns, m, h1, h2, h2', h3, h4, h5, h6, _⟩ := hsimple w hw
    obtain ⟨d, d1, d2, d3, d4⟩ := entryAgain h hf h4 h6 (ha _ _ h3 h4)
    exact ⟨w, hw, ns, m, d, h1, by rw [h1]; rfl, h2, h2', h3, h5, h4, by rw [← record_isSome, h6]; rfl, d1, d2, d3, d4⟩
  have hname : ∀ ns e, (blockOf ns e).name = ns := fun _ _ => rfl
  have hcontr : ∀ name, ((contributions B name).map Tree.name).Nodup := by
    intro name
    have : ∀ l : List (List Text × PEntry), l.Nodup → (∀ w ∈ l, w ∈ es) → ((contributions (l.map (fun w => blockOf (w.1.headD []) [w.2])) name).map Tree.name).Nodup := by
      intro l
      induction l with
      | nil => intro _ _; simp [contributions]
      | cons w l ih =>
        intro hnd hsub
        rw [List.nodup_cons] at hnd
        have hrec := ih hnd.2 (fun x hx => hsub x (by simp [hx]))
        obtain ⟨ns, m, d, h1, h2, h3, h4, h5⟩ := hcreate w (hsub w (by simp))
        unfold contributions at hrec ⊢
        rw [List.map_cons, List.filter_cons]
        split
        · rename_i hbn
          rw [h1] at hbn ⊢
          simp only [List.headD_cons, hname, decide_eq_true_eq] at hbn
          subst hbn
          rw [List.flatMap_cons, List.headD_cons, (oneNode ns h3).1, List.singleton_append, List.map_cons, List.nodup_cons]
          refine ⟨fun hm => ?_, hrec⟩
          obtain ⟨d', hd', hdn⟩ := List.mem_map.mp hm
          obtain ⟨b, hb1, hb2⟩ := List.mem_flatMap.mp hd'
          obtain ⟨hb1, hb3⟩ := List.mem_filter.mp hb1
          obtain ⟨w', hw', rfl⟩ := List.mem_map.mp hb1
          obtain ⟨ns', m', d2, g1, g2, g3, g4, g5⟩ := hcreate w' (hsub w' (by simp [hw']))
          rw [g1] at hb2 hb3
          simp only [List.headD_cons, hname, decide_eq_true_eq] at hb2 hb3
          subst hb3
          rw [(oneNode _ g3).1, List.mem_singleton] at hb2
          subst hb2
          have hmm : m' = m := by
            have : m'.name = m.name := by rw [← g4, ← h4, hdn]
            rw [this, h2] at g2
            cases g2; rfl
          subst hmm
          have e1 : w.1 = w'.1 := h1.trans g1.symm
          have e2 : w.2 = w'.2 := by
            rw [h5] at g5
            exact Option.some.inj g5
          exact hnd.1 (by rw [show w = w' from Prod.ext e1 e2]; exact hw')
        · exact hrec
    rw [← hB]
    exact this es a2 (fun _ h => h)
  obtain ⟨t0, ht0⟩ := C47_accepted B (fun b hbm => by
      obtain ⟨w, _, ns, m, d, _, rfl, _, _, _, _, _, _, h3, _⟩ := hmem b hbm
      exact (oneNode ns h3).2) (fun b hbm => by
      obtain ⟨w, _, ns, m, d, _, rfl, h2, _⟩ := hmem b hbm
      rw [hname, splitDot_ident' h2]
      simp only [List.mem_singleton]
      exact fun e => (ident_name h2).2 e.symm) (fun b _ => hcontr b.name) (fun b hbm b' hbm' d hd hpre => by
      obtain ⟨w, _, ns, m, d, _, rfl, h2, _⟩ := hmem b hbm
      obtain ⟨w', _, ns', m', d', _, rfl, h2', _⟩ := hmem b' hbm'
      rw [hname, hname, splitDot_ident' h2, splitDot_ident' h2'] at hpre
      have := hpre.length_le
      simp at this)
  obtain ⟨hm, _⟩ := built_merged ht0
  have hsh := built_shaped ht0
  have hg := hm.good
  -- namespaces are outermost
  have hnsat : ∀ p n, t0.descend p = some n → n.kind = .namespace → ∃ b ∈ B, p = [b.name] := by
    intro p n hp hk
    obtain ⟨b, hbm, hpre⟩ := hm.from_block p n hp hk
    obtain ⟨w, _, ns, m, d, _, rfl, h2, _⟩ := hmem b hbm
    rw [hname, splitDot_ident' h2] at hpre
    refine ⟨_, hbm, ?_⟩
    cases p with
    | nil => simp only [Tree.descend, Option.some.injEq] at hp; subst hp; rw [hm.kind] at hk; cases hk
    | cons k ks =>
      obtain ⟨u, hu⟩ := hpre
      simp only [List.cons_append, List.cons.injEq, List.append_eq_nil_iff] at hu
      rw [hname, hu.1, hu.2.1]
  -- their children
  have hchildren : ∀ b ∈ B, ∀ n, t0.descend [b.name] = some n → ∀ c, c ∈ n.children ↔ ∃ b' ∈ B, b'.name = b.name ∧ c ∈ definitionNodes b' := by
    intro b hbm n hn c
    obtain ⟨n', hn', hk⟩ := hm.there b hbm
    obtain ⟨w, _, ns, m, d, _, rfl, h2, _⟩ := hmem b hbm
    rw [hname, splitDot_ident' h2] at hn'
    rw [hname] at hn
    rw [hn] at hn'; cases hn'
    have hdefs := hm.defs _ n hn hk
    have hno : ∀ c ∈ n.children, NoNs c := by
      intro c hcm
      have hcd := descend_child hg hn hcm
      refine noNs_of c (descend_good hg hcd) fun p x hp hxk => ?_
      obtain ⟨b', _, e⟩ := hnsat ([ns] ++ [c.name] ++ p) x (by rw [descend_append, hcd]; exact hp) hxk
      simp at e
    rw [definitionsIn_noNs hno] at hdefs
    rw [hdefs, List.mem_flatMap]
    constructor
    · rintro ⟨b', h1, h3⟩
      obtain ⟨h1, h4⟩ := List.mem_filter.mp h1
      obtain ⟨w', _, ns', m', d', _, rfl, h2', _⟩ := hmem b' h1
      simp only [hname, splitDot_ident' h2', decide_eq_true_eq, List.cons.injEq, and_true] at h4
      exact ⟨_, h1, h4, h3⟩
    · rintro ⟨b', h1, h4, h3⟩
      refine ⟨b', List.mem_filter.mpr ⟨h1, ?_⟩, h3⟩
      rw [h4, hname, splitDot_ident' h2]
      simp
  have hns : ∀ c ∈ t0.children, ∃ b ∈ B, c.name = b.name ∧ c.kind = .namespace ∧ t0.descend [b.name] = some c := by
    intro c hcm
    have hcd := descend_child hg (p := []) rfl hcm
    have hk : c.kind = .namespace := by
      by_contra hne
      have h0 := hsh.kinds
      rw [hm.kind] at h0
      have h0 : childKinds t0.children = [] := h0
      have := childKinds_mem hcm hne
      rw [h0] at this; cases this
    obtain ⟨b, hbm, e⟩ := hnsat _ _ hcd hk
    simp only [List.nil_append, List.cons.injEq, and_true] at e
    refine ⟨b, hbm, e, hk, ?_⟩
    rw [← e]; exact hcd
  refine ⟨B, t0, hparse, ?_, ht0, ⟨?_, ?_, ?_⟩, ?_, ?_⟩
  · intro b hbm
    obtain ⟨w, _, ns, m, d, _, rfl, h2, h3, _⟩ := hmem b hbm
    exact ⟨h2, h3⟩
  · refine .intro (by rw [hm.kind, hc.rootKind]) ?_ ?_
    · intro c hcm w hk
      obtain ⟨_, _, _, hk', _⟩ := hns c hcm
      rw [hk] at hk'; cases hk'
    · intro c hcm
      obtain ⟨b, hbm, e1, e2, e3⟩ := hns c hcm
      obtain ⟨w, _, ns, m, d, _, rfl, h2, _, h4, _, h6, hdm, _⟩ := hmem b hbm
      obtain ⟨x, x1, x2, x3⟩ := descend_parent (p := [ns]) (k := m.name) h6
      obtain ⟨y, y1, y2, y3⟩ := descend_parent (p := []) (k := ns) x1
      simp only [Tree.descend, Option.some.injEq] at y1
      subst y1
      have hxk : x.kind = .namespace := by
        obtain ⟨x', g1, _, g2, _⟩ := hc.parents [ns] m.name m h6
        rw [x1] at g1; cases g1
        exact g2 hdm
      refine ⟨x, y2, .inr (by rw [e1, hname, y3]), .intro (by rw [e2, hxk]) ?_ ?_⟩
      · intro c' hc' w' hk'
        obtain ⟨b', hb', _, hd'⟩ := (hchildren _ hbm c e3 c').mp hc'
        obtain ⟨w2, _, ns2, m2, d2, _, rfl, _, _, _, _, _, hdm2, g1, _, g3, _⟩ := hmem b' hb'
        rw [(oneNode ns2 g1).1, List.mem_singleton] at hd'
        subst hd'
        have := g3.kind
        rw [hk'] at this
        obtain ⟨rk', e, _⟩ := gist_ref this.symm
        rw [e] at hdm2; cases hdm2
      · intro c' hc'
        obtain ⟨b', hb', hbn, hd'⟩ := (hchildren _ hbm c e3 c').mp hc'
        obtain ⟨w2, _, ns2, m2, d2, _, rfl, _, _, _, _, hm2, hdm2, g1, g2, g3, _⟩ := hmem b' hb'
        rw [(oneNode ns2 g1).1, List.mem_singleton] at hd'
        subst hd'
        rw [hname, hname] at hbn
        subst hbn
        obtain ⟨x', x1', x2', x3'⟩ := descend_parent (p := [ns2]) (k := m2.name) hm2
        rw [x1] at x1'; cases x1'
        exact ⟨m2, x2', .inr g2, g3⟩
  · intro p m hr hp hnb hdm
    obtain ⟨ns, c1, c2, c3⟩ := simple_path hc hf hs hp hdm hnb
    obtain ⟨e, he⟩ := Option.isSome_iff_exists.mp (record_isSome.trans hdm)
    have hw : (p.dropLast, e) ∈ es := (a3 _).mpr ⟨p, m, hr, hp, hnb, he, rfl⟩
    obtain ⟨d, d1, d2, d3, d4⟩ := entryAgain h hf hp he (ha _ _ hr hp)
    have hbm : blockOf ns [e] ∈ B := by
      rw [← hB]
      refine List.mem_map.mpr ⟨_, hw, ?_⟩
      rw [c2]; rfl
    obtain ⟨n', hn', hk'⟩ := hm.there _ hbm
    rw [hname, splitDot_ident' c3] at hn'
    have hdc : d ∈ n'.children := (hchildren _ hbm n' hn' d).mpr ⟨_, hbm, rfl, by rw [(oneNode ns d1).1]; simp⟩
    refine ⟨d, ?_, d3, d4⟩
    rw [c1, ← d2]
    exact descend_child hg hn' hdc
  · intro p d hp hk1 hk2
    match p, hp with
    | [], hp => simp only [Tree.descend, Option.some.injEq] at hp; subst hp; exact absurd hm.kind hk1
    | [a], hp =>
      obtain ⟨y, y1, y2, y3⟩ := descend_parent (p := []) (k := a) hp
      simp only [Tree.descend, Option.some.injEq] at y1
      subst y1
      obtain ⟨_, _, _, hk, _⟩ := hns d y2
      exact absurd hk hk2
    | a :: b :: p', hp =>
      obtain ⟨x, hx1, _⟩ : ∃ x, t0.descend [a, b] = some x ∧ x.descend p' = some d := by
        have : a :: b :: p' = [a, b] ++ p' := rfl
        rw [this, descend_append] at hp
        cases hx : t0.descend [a, b] with
        | none => rw [hx] at hp; cases hp
        | some x => rw [hx] at hp; exact ⟨x, rfl, hp⟩
      obtain ⟨y, y1, y2, y3⟩ := descend_parent (p := [a]) (k := b) hx1
      obtain ⟨z, z1, z2, z3⟩ := descend_parent (p := []) (k := a) y1
      simp only [Tree.descend, Option.some.injEq] at z1
      subst z1
      obtain ⟨bl, hbl, e1, e2, e3⟩ := hns y z2
      obtain ⟨b', hb', hbn, hd'⟩ := (hchildren _ hbl y e3 x).mp y2
      obtain ⟨w2, _, ns2, m2, d2, _, rfl, _, _, hr, hnb, hm2, hdm2, g1, g2, g3, _⟩ := hmem b' hb'
      rw [(oneNode ns2 g1).1, List.mem_singleton] at hd'
      subst hd'
      have ea : a = ns2 := by rw [← z3, e1, ← hbn, hname]
      have eb : b = m2.name := by rw [← y3, g2]
      subst ea
      subst eb
      exact ⟨_, _, _, rfl, hr, hnb, m2, hm2, hdm2⟩
  · intro p m e hr hp hnb he
    obtain ⟨ns, c1, c2, c3⟩ := simple_path hc hf hs hp (by rw [← record_isSome, he]; rfl) hnb
    have hw : (p.dropLast, e) ∈ es := (a3 _).mpr ⟨p, m, hr, hp, hnb, he, rfl⟩
    refine ⟨ns, c1, c3, ?_⟩
    rw [← hB]
    refine List.mem_map.mpr ⟨_, hw, ?_⟩
    rw [c2]; rfl
  · intro b hbm
    rw [← hB] at hbm
    obtain ⟨w, hw, rfl⟩ := List.mem_map.mp hbm
    obtain ⟨ns, m, h1, h2, h2', h3, h4, h5, h6, _⟩ := hsimple w hw
    exact ⟨ns, m, w.2, by rw [h1]; rfl, h2, h3, h4, h5, h6⟩

end Gen
