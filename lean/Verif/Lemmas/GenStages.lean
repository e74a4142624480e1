import Verif.Lemmas.GenLimits

/-! # The stages of `build_ast` -/

namespace Gen
open Spec

/-- The trees between the passes up to the computation of maximal sizes. -/
structure Stages (blocks : List PBlock) (t : Tree) where
  resolved : Tree
  constants : Tree
  typed : Tree
  sized : Tree
  h1 : buildResolved blocks = .ok resolved
  h2 : appendConstantRefs resolved = .ok constants
  h3 : checkRanges constants = .ok ()
  h4 : updateFieldTypes constants = .ok typed
  h5 : ∃ n, computeSizes n typed = some (.ok sized)
  h6 : computeMaxSizes sized = .ok t

theorem buildTyped_ok {blocks : List PBlock} {y : Tree} (h : buildTyped blocks = .ok y) :
    ∃ r c, buildResolved blocks = .ok r ∧ appendConstantRefs r = .ok c ∧ checkRanges c = .ok () ∧ updateFieldTypes c = .ok y := by
  unfold buildTyped at h
  obtain ⟨r, h1, h⟩ := bind_ok h
  obtain ⟨c, h2, h⟩ := bind_ok h
  obtain ⟨_, h3, h⟩ := bind_ok h
  exact ⟨r, c, h1, h2, h3, h⟩

theorem buildAst_stages {blocks : List PBlock} {t : Tree} (h : BuildAst blocks (.ok t)) : ∃ _ : Stages blocks t, checkConstRefs t = .ok () ∧ checkExplicitReferences t = .ok () := by
  obtain ⟨n, h⟩ := h
  unfold buildAst at h
  split at h
  · cases h
  · rename_i y hy
    obtain ⟨r, c, h1, h2, h3, h4⟩ := buildTyped_ok hy
    split at h
    · cases h
    · cases h
    · rename_i z hz
      simp only [Option.some.injEq] at h
      unfold finishAst at h
      obtain ⟨t', h6, h⟩ := bind_ok h
      obtain ⟨_, h7, h⟩ := bind_ok h
      obtain ⟨_, h8, h⟩ := bind_ok h
      simp only [pure, Except.pure, Except.ok.injEq] at h
      subst h
      exact ⟨⟨r, c, y, z, h1, h2, h3, h4, ⟨n, hz⟩, h6⟩, h7, h8⟩

theorem Stages.accepted {blocks : List PBlock} {t : Tree} (s : Stages blocks t) (h7 : checkConstRefs t = .ok ())
    (h8 : checkExplicitReferences t = .ok ()) : BuildAst blocks (.ok t) := by
  obtain ⟨n, h5⟩ := s.h5
  refine ⟨n, ?_⟩
  unfold buildAst
  have : buildTyped blocks = .ok s.typed := by
    unfold buildTyped
    rw [s.h1]
    simp only [bind, Except.bind, s.h2, s.h3, s.h4]
  rw [this]
  simp only [h5]
  unfold finishAst
  rw [s.h6]
  simp only [bind, Except.bind, h7, h8]
  rfl

section
variable {blocks : List PBlock} {t : Tree} (s : Stages blocks t) (hb : ∀ b ∈ blocks, PlainNames b)
include s hb

theorem Stages.linked : Linked s.resolved ∧ Shaped s.resolved := buildResolved_linked hb s.h1
theorem Stages.linkedC : Linked s.constants := (appendConstantRefs_spec (s.linked hb).1 s.h2).1
theorem Stages.typedSame : Good s.typed ∧ SameBy Kind.untyped s.constants s.typed :=
  ⟨(updateFieldTypes_spec (s.linkedC hb).lk s.h4).1, (updateFieldTypes_spec (s.linkedC hb).lk s.h4).2.1⟩
theorem Stages.lkTyped : Lk s.typed :=
  (s.linkedC hb).lk.same ((s.typedSame hb).2.mono blank_untyped) (s.typedSame hb).1

theorem Stages.sizedSpec : Good s.sized ∧ SameBy Kind.unsized s.typed s.sized ∧ (∀ q, LaidOutAt s.sized q) ∧
    ∀ p, Reachable (depChildren s.typed) [] p → ¬ OnCycle (depChildren s.typed) p := by
  obtain ⟨n, hn⟩ := s.h5
  exact computeSizes_spec (s.lkTyped hb) hn

theorem Stages.lkSized : Lk s.sized :=
  (s.lkTyped hb).same ((s.sizedSpec hb).2.1.mono blank_unsized) (s.sizedSpec hb).1

theorem Stages.sameCS : Same s.constants s.sized :=
  ((s.typedSame hb).2.mono blank_untyped).trans ((s.sizedSpec hb).2.1.mono blank_unsized)

/-- No resource has a maximal size before they are computed. -/
theorem Stages.fresh : ∀ q k o m, kindAt s.sized q = some (.resource k o m) → m = none := by
  intro q k o m h
  obtain ⟨n, hn, hk⟩ := kindAt_some.mp h
  obtain ⟨y, y1, _, y3, _⟩ := (s.sizedSpec hb).2.1.symm.node hn
  obtain ⟨c, c1, _, c3, _⟩ := (s.typedSame hb).2.symm.node y1
  have hc := (s.linkedC hb).kindOk q c c1
  rw [hk] at y3
  have hy : y.kind = .resource k o m := by
    cases hyk : y.kind <;> rw [hyk] at y3 <;> simp [Kind.unsized] at y3
    obtain ⟨rfl, rfl, rfl⟩ := y3; rfl
  rw [hy] at c3
  have hck : c.kind = .resource k o m := by
    cases hyk : c.kind <;> rw [hyk] at c3 <;> simp [Kind.untyped] at c3
    obtain ⟨rfl, rfl, rfl⟩ := c3; rfl
  rw [hck] at hc
  exact hc

theorem Stages.maxSpec : Good t ∧ SameBy Kind.unlimited s.sized t ∧
    ∀ q k o m, kindAt t q = some (.resource k o m) → Least (Limit s.sized q) m :=
  computeMaxSizes_spec (s.lkSized hb) (s.fresh hb) s.h6

theorem Stages.sameCT : Same s.constants t := (s.sameCS hb).trans ((s.maxSpec hb).2.1.mono blank_unlimited)

theorem Stages.lkT : Lk t := (s.linkedC hb).lk.same (s.sameCT hb) (s.maxSpec hb).1

end

/-- The same children, up to computed attributes. -/
theorem SameBy.mem {b : Kind → Kind} {t t' : Tree} (hs : SameBy b t t') (hg : Good t) {q : Path} {n n' c : Tree}
    (hn : t.descend q = some n) (hn' : t'.descend q = some n') (hc : c ∈ n.children) :
    ∃ c' ∈ n'.children, c'.name = c.name ∧ b c'.kind = b c.kind ∧ t.descend (q ++ [c.name]) = some c ∧
      t'.descend (q ++ [c.name]) = some c' := by
  have h1 := descend_child hg hn hc
  obtain ⟨c', h2, h3, h4, _⟩ := hs.node h1
  obtain ⟨m, h5, h6, _⟩ := descend_parent h2
  rw [hn'] at h5; cases h5
  exact ⟨c', h6, h3, h4, h1, h2⟩

theorem blank_range {k k' : Kind} (h : k.blank = k'.blank) : k.rangeName = k'.rangeName := by
  cases k <;> cases k' <;> simp_all only [Kind.blank, Kind.rangeName, Kind.field.injEq, reduceCtorEq]
  rename_i a b c d e f
  cases e with
  | none => rfl
  | some e => cases e <;> rfl

theorem blank_isField {k k' : Kind} (h : k.blank = k'.blank) : k.isField = k'.isField := by
  cases k <;> cases k' <;> simp_all [Kind.blank, Kind.isField]

theorem Same.ref_eq {k k' : Kind} (h : k.blank = k'.blank) {rk : RefKind} (hk : k = .ref rk) : k' = .ref rk := by
  rw [hk] at h; exact blank_ref.mp h.symm

end Gen
