import Verif.Lemmas.GenStored3

/-! # The schemas of what is compiled from a stored schema (for C107) -/

namespace Gen
open Spec Props

theorem PostS.closed {V : Type} {ch : V → List V} {R : V → Prop} (hR : ∀ v, R v → ∀ c ∈ ch v, R c) {s : List V} {st : List (V × Bool)}
    {r : List V} (h : PostS ch s st r) (hst : ∀ e ∈ st, R e.1) (hs : ∀ v ∈ s, R v) : ∀ v ∈ r, R v := by
  induction h with
  | nil => exact hs
  | skip hv _ ih => exact ih (fun e h => hst e (by simp [h])) hs
  | @visit s v st r hv _ ih =>
    have hv' := hst (v, false) (by simp)
    refine ih ?_ hs
    intro e he
    rcases List.mem_append.mp he with he | he
    · obtain ⟨c, hc, rfl⟩ := List.mem_map.mp he
      exact hR _ hv' _ hc
    · rcases List.mem_cons.mp he with rfl | he
      · exact hv'
      · exact hst e (by simp [he])
  | @late s v st r _ ih =>
    refine ih (fun e h => hst e (by simp [h])) ?_
    intro x hx
    rcases List.mem_append.mp hx with hx | hx
    · exact hs x hx
    · simp only [List.mem_singleton] at hx
      subst hx
      exact hst (x, true) (by simp)

theorem Ground.entryBelow_eq {t : Tree} (hg : Ground t) {p : Path} {m : Tree} (hm : t.descend p = some m) (hp : isDef t p = true) {e : PEntry} (he : definitionRecord m = some e) :
    entryBelow t p = some (p.dropLast, e) := by
  unfold entryBelow
  exact (hg.compiled.printedBelow hg.flat).mpr ⟨m, hm, (isDef_iff.mp hp).2, e, he, rfl⟩

theorem Ground.entryBelow_none {t : Tree} (hg : Ground t) {p : Path} (hp : isDef t p = false) : entryBelow t p = none := by
  unfold entryBelow
  rw [Option.eq_none_iff_forall_ne_some]
  intro w hw
  obtain ⟨m, h1, h2, e, h3, _⟩ := (hg.compiled.printedBelow hg.flat).mp hw
  have : isDef t p = true := isDef_iff.mpr ⟨⟨m, h1, by rw [← record_isSome, h3]; rfl⟩, h2⟩
  rw [hp] at this; cases this

theorem Ground.entries {t : Tree} (hg : Ground t) (l : List Path) : l.filterMap (entryBelow t) = (l.filter (isDef t)).filterMap (entryBelow t) := by
  induction l with
  | nil => rfl
  | cons p l ih =>
    cases hp : isDef t p with
    | true => rw [List.filter_cons_of_pos hp, List.filterMap_cons, List.filterMap_cons, ih]
    | false => rw [List.filter_cons_of_neg (by simp [hp]), List.filterMap_cons_none (hg.entryBelow_none hp), ih]

/-- The child of an archive that was written as a resource or as a group. -/
theorem written_child {m m' n : Tree} (h : archiveRecord m' = archiveRecord m) (hn : n ∈ m.children) (hr : (resourceRecord n).isSome ∨ (boundRecord n).isSome) :
    ∃ n' ∈ m'.children, n'.name = n.name ∧ resourceRecord n' = resourceRecord n ∧ boundRecord n' = boundRecord n ∧ n'.kind.isResource = true := by
  unfold archiveRecord at h
  simp only [PArchive.mk.injEq] at h
  obtain ⟨_, hb, hres⟩ := h
  have rinfo : ∀ {n : Tree} {pr : PResource}, resourceRecord n = some pr → n.name = pr.name ∧ boundRecord n = none ∧ n.kind.isResource = true := by
    intro n pr h
    unfold resourceRecord at h
    cases hty : resourceTypeRecord n with
    | none => rw [hty] at h; cases h
    | some ty =>
      rw [hty] at h
      simp only [Option.some.injEq] at h
      refine ⟨by rw [← h], ?_, ?_⟩
      · unfold boundRecord
        unfold resourceTypeRecord at hty
        cases hk : n.kind <;> simp only [hk] at hty ⊢
        rename_i k o mx
        cases k <;> simp only [] at hty ⊢
        cases hty
      · unfold resourceTypeRecord at hty
        cases hk : n.kind <;> simp only [hk] at hty <;> first | rfl | cases hty
  have binfo : ∀ {n : Tree} {g}, boundRecord n = some g → n.name = g.1 ∧ resourceRecord n = none ∧ n.kind.isResource = true := by
    intro n g h
    unfold boundRecord at h
    split at h
    · rename_i hk
      simp only [Option.some.injEq] at h
      refine ⟨by rw [← h], ?_, by rw [hk]; rfl⟩
      unfold resourceRecord resourceTypeRecord
      simp only [hk]
    · cases h
  rcases hr with hr | hr
  · obtain ⟨pr, hpr⟩ := Option.isSome_iff_exists.mp hr
    have : pr ∈ m'.children.filterMap resourceRecord := by rw [hres]; exact List.mem_filterMap.mpr ⟨n, hn, hpr⟩
    obtain ⟨n', h1, h2⟩ := List.mem_filterMap.mp this
    obtain ⟨a1, a2, a3⟩ := rinfo hpr
    obtain ⟨b1, b2, b3⟩ := rinfo h2
    exact ⟨n', h1, by rw [a1, b1], by rw [hpr, h2], by rw [a2, b2], b3⟩
  · obtain ⟨g, hg⟩ := Option.isSome_iff_exists.mp hr
    have : g ∈ m'.children.filterMap boundRecord := by rw [hb]; exact List.mem_filterMap.mpr ⟨n, hn, hg⟩
    obtain ⟨n', h1, h2⟩ := List.mem_filterMap.mp this
    obtain ⟨a1, a2, a3⟩ := binfo hg
    obtain ⟨b1, b2, b3⟩ := binfo h2
    exact ⟨n', h1, by rw [a1, b1], by rw [a2, b2], by rw [hg, h2], b3⟩

theorem Ground.written {t : Tree} (hg : Ground t) {p : Path} {n : Tree} (hn : t.descend p = some n) (hr : n.kind.isResource = true) :
    (resourceRecord n).isSome ∨ (boundRecord n).isSome := by
  cases hk : n.kind <;> rw [hk] at hr <;> first | (cases hr; done) | skip
  rcases hg.resource_deps hn hk with ⟨pr, h, _⟩ | ⟨_, _, rfl⟩
  · left; rw [h]; rfl
  · right; unfold boundRecord; rw [hk]; rfl

/-- What a resource refers to is what it says. -/
theorem Ground.resource_same {t t' : Tree} (hg : Ground t) (hg' : Ground t') {p p' : Path} {n n' : Tree} (hn : t.descend p = some n) (hn' : t'.descend p' = some n')
    (hr : n.kind.isResource = true) (hr' : n'.kind.isResource = true) (h : resourceRecord n' = resourceRecord n) : defDeps t' p' = defDeps t p := by
  have h1 : defDeps t p = refsBelow (isDef t) n := by unfold defDeps; rw [hn]
  have h2 : defDeps t' p' = refsBelow (isDef t') n' := by unfold defDeps; rw [hn']
  rw [h1, h2]
  cases hk : n.kind <;> rw [hk] at hr <;> first | (cases hr; done) | skip
  cases hk' : n'.kind <;> rw [hk'] at hr' <;> first | (cases hr'; done) | skip
  rcases hg.resource_deps hn hk with ⟨pr, a1, a2⟩ | ⟨a1, a2, _⟩ <;> rcases hg'.resource_deps hn' hk' with ⟨pr', b1, b2⟩ | ⟨b1, b2, _⟩
  · rw [h, a1] at b1; cases b1; rw [a2, b2]
  · rw [h, a1] at b1; cases b1
  · rw [h, a1] at b1; cases b1
  · rw [a2, b2]

section
variable {s : Text} {t : Tree} {q : Path} (h : Storable s t q) {x : Text} (hx : Schema t q (.ok x)) {t' : Tree} (ht : Compile x (.ok t'))
  (hi : ∀ p m sz, t.descend p = some m → m.kind = .structure sz → ∀ f ∈ m.children, InvalidLast f)
  (hone : ∀ p m m', t.descend p = some m → t'.descend p = some m' → m.kind = .archive → SameOrder (constantsListed m) (constantsListed m'))
include h hx ht hi hone

/-- The definitions below a node that refers to the same ones are printed in the same order. -/
theorem _root_.Props.Storable.sameBelow {v : Path} (hv : InnerNode t v) (hv' : InnerNode t' v) (hd : defDeps t' v = defDeps t v) (hr : ∀ c ∈ defDeps t v, Reachable (depChildren t) q c)
    {post post' : List Path} (hp : PostS (depChildren t) [] ((depChildren t v).map (·, false)) post) (hp' : PostS (depChildren t') [] ((depChildren t' v).map (·, false)) post') :
    post'.filterMap (entryBelow t') = post.filterMap (entryBelow t) := by
  have hg := h.ground
  have hg' := h.groundAgain hx ht
  have c1 := hg.contracted (hg.inner_kids hv) hp
  have c2 := hg'.contracted (hg'.inner_kids hv') hp'
  rw [← hg.deps_eq hv] at c1
  rw [← hg'.deps_eq hv', hd] at c2
  have hclosed : ∀ v, (Reachable (depChildren t) q v ∧ isDef t v = true) → ∀ c ∈ defDeps t v, Reachable (depChildren t) q c ∧ isDef t c = true := by
    rintro v ⟨⟨i, hi⟩, _⟩ c hc
    obtain ⟨a, j, hj⟩ := hg.deps_reachable hc
    exact ⟨⟨_, walk_trans hi hj⟩, a⟩
  have hst : ∀ e ∈ (defDeps t v).map (·, false), Reachable (depChildren t) q e.1 ∧ isDef t e.1 = true := by
    intro e he
    obtain ⟨c, hc, rfl⟩ := List.mem_map.mp he
    exact ⟨hr c hc, (hg.deps_reachable hc).1⟩
  have c3 := PostS.congr (ch' := defDeps t') (R := fun v => Reachable (depChildren t) q v ∧ isDef t v = true) (fun v hv => h.deps hx ht hi hone hv.1 hv.2) hclosed c1 hst
  have hmem := PostS.closed hclosed c1 hst (by simp)
  have e := c3.unique c2
  rw [hg.entries, hg'.entries, ← e]
  apply List.filterMap_congr
  intro p hp
  obtain ⟨r1, r2⟩ := hmem p hp
  obtain ⟨m, m', a1, a2, a3, a4, a5⟩ := h.mirror hx ht r1 r2
  obtain ⟨en, hen⟩ := Option.isSome_iff_exists.mp (record_isSome.trans a3)
  rw [hg.entryBelow_eq a1 r2 hen, hg'.entryBelow_eq a2 a5 (by rw [a4]; exact hen)]

/-- The schemas of definitions. -/
theorem _root_.Props.Storable.definitionText {p : Path} (hr : Reachable (depChildren t) q p) (hp : Gen.isDef t p = true) {y y' : Text} (hy : Schema t p (.ok y))
    (hy' : Schema t' p (.ok y')) : y' = y := by
  have hg := h.ground
  have hg' := h.groundAgain hx ht
  obtain ⟨m, m', a1, a2, a3, a4, a5⟩ := h.mirror hx ht hr hp
  obtain ⟨e, he⟩ := Option.isSome_iff_exists.mp (record_isSome.trans a3)
  have hb := (isDef_iff.mp hp).2
  obtain ⟨post, p1, p2⟩ := hg.compiled.definitionPeeled hg.flat hg.noBuiltin a1 he hb hy
  obtain ⟨post', p1', p2'⟩ := hg'.compiled.definitionPeeled hg'.flat hg'.noBuiltin a2 (by rw [a4]; exact he) hb hy'
  have hreach : ∀ c ∈ defDeps t p, Reachable (depChildren t) q c := by
    intro c hc
    obtain ⟨_, j, hj⟩ := hg.deps_reachable hc
    obtain ⟨i, hi⟩ := hr
    exact ⟨_, walk_trans hi hj⟩
  rw [← h.sameBelow hx ht hi hone (isDef_inner hp) (isDef_inner a5) (h.deps hx ht hi hone hr hp) hreach p1 p1', ← p2'] at p2
  injection p2 with _ p2
  injection p2 with _ p2
  exact p2.symm

/-- The schemas of resources. -/
theorem _root_.Props.Storable.resourceText {p : Path} (hr : Reachable (depChildren t) q p) (hp : Gen.isDef t p = true) {k : Text} {n n' : Tree} (hn : t.descend (p ++ [k]) = some n)
    (hnr : n.kind.isResource = true) (hn' : t'.descend (p ++ [k]) = some n') (hnr' : n'.kind.isResource = true) (hrec : resourceRecord n' = resourceRecord n)
    (hbound : boundRecord n' = boundRecord n) {y y' : Text} (hy : Schema t (p ++ [k]) (.ok y)) (hy' : Schema t' (p ++ [k]) (.ok y')) : y' = y := by
  have hg := h.ground
  have hg' := h.groundAgain hx ht
  obtain ⟨m, m', a1, a2, a3, a4, a5⟩ := h.mirror hx ht hr hp
  have hb := (isDef_iff.mp hp).2
  obtain ⟨m0, post, e1, e2, p1, p2⟩ := hg.compiled.resourcePeeled hg.flat hg.noBuiltin hn hnr hb hy
  obtain ⟨m0', post', e1', e2', p1', p2'⟩ := hg'.compiled.resourcePeeled hg'.flat hg'.noBuiltin hn' hnr' hb hy'
  rw [a1] at e1; cases e1
  rw [a2] at e1'; cases e1'
  have inner : ∀ {t : Tree} {v : Path} {n : Tree}, t.descend v = some n → n.kind.isResource = true → InnerNode t v := by
    intro t v n hn hr
    refine ⟨n, hn, ?_, ?_, ?_⟩ <;> intro e <;> (try intro e') <;> simp_all [Kind.isResource]
  have hreach : ∀ c ∈ defDeps t (p ++ [k]), Reachable (depChildren t) q c := by
    intro c hc
    obtain ⟨_, j, hj⟩ := hg.deps_reachable hc
    obtain ⟨i, hi⟩ := reachable_below hg.compiled.lk hr hn (by intro rk e; rw [e] at hnr; cases hnr)
    exact ⟨_, walk_trans hi hj⟩
  have hname : m'.name = m.name := by
    obtain ⟨e, he⟩ := Option.isSome_iff_exists.mp (record_isSome.trans a3)
    have h1 := record_name he
    have h2 := record_name (a4.trans he)
    exact h2.symm.trans h1
  have hentry : archiveRecord (.mk m'.name .archive [n']) = archiveRecord (.mk m.name .archive [n]) := by
    show PArchive.mk m'.name ([n'].filterMap boundRecord) ([n'].filterMap resourceRecord) = PArchive.mk m.name ([n].filterMap boundRecord) ([n].filterMap resourceRecord)
    simp only [List.filterMap_cons, hrec, hbound, hname]
  rw [← h.sameBelow hx ht hi hone (inner hn hnr) (inner hn' hnr') (hg.resource_same hg' hn hn' hnr hnr' hrec) hreach p1 p1', ← hentry, ← p2'] at p2
  injection p2 with _ p2
  injection p2 with _ p2
  exact p2.symm

end

end Gen
