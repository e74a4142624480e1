import Verif.Lemmas.GenAccept
import Verif.Lemmas.GenForm
import Verif.Lemmas.GenDeclared
import Verif.Props.Gen.Ast

/-! # C103: what is accepted -/

namespace Gen

/-- Attributes without what is computed: the types of fields with enumeration types, offsets, sizes and limits. -/
def Kind.raw : Kind → Kind
  | .field (.basic b) r _ => .field (.basic b) r none
  | .field _ r _ => .field .none r none
  | .structure _ => .structure none
  | .resource k o _ => .resource k o none
  | k => k

end Gen

namespace Props
open Gen Spec

theorem raw_blank {k k' : Kind} (h : k.raw = k'.raw) : k.blank = k'.blank := by
  cases k with
  | field a b c =>
    cases k' with
    | field d e f =>
      cases a <;> cases d <;> simp only [Kind.raw, Kind.field.injEq, reduceCtorEq, false_and] at h <;> obtain ⟨_, rfl, _⟩ := h <;> rfl
    | _ => cases a <;> simp [Kind.raw] at h
  | _ =>
    cases k' with
    | field d e f => cases d <;> simp [Kind.raw] at h
    | _ => simp_all [Kind.raw, Kind.blank]

theorem raw_ref {k : Kind} {rk : RefKind} : k.raw = .ref rk ↔ k = .ref rk := by
  cases k <;> simp [Kind.raw]
  rename_i a b c; cases a <;> simp

theorem raw_field {k : Kind} {ty rg o} (h : k.raw = Kind.raw (.field ty rg o)) : ∃ ty' o', k = .field ty' rg o' ∧ ∀ b, ty' = .basic b ↔ ty = .basic b := by
  cases k with
  | field a b c => cases a <;> cases ty <;> simp_all [Kind.raw]
  | _ => cases ty <;> simp_all [Kind.raw]

theorem raw_resource {k : Kind} {rk o m} (h : k.raw = Kind.raw (.resource rk o m)) : ∃ m', k = .resource rk o m' := by
  cases k with
  | field a b c => cases a <;> simp_all [Kind.raw]
  | _ => simp_all [Kind.raw]

theorem raw_simple {k k' : Kind} (h : k.raw = k'.raw) (h1 : ∀ ty rg o, k' ≠ .field ty rg o) (h2 : ∀ s, k' ≠ .structure s)
    (h3 : ∀ r o m, k' ≠ .resource r o m) : k = k' := by
  cases k' with
  | field a b c => exact absurd rfl (h1 a b c)
  | «structure» s => exact absurd rfl (h2 s)
  | resource r o m => exact absurd rfl (h3 r o m)
  | _ =>
    cases k with
    | field a b c => cases a <;> simp_all [Kind.raw]
    | _ => simp_all [Kind.raw]

/-- `b` is `a` with computed attributes and with references to constants below archives. -/
structure Ext (a b : Tree) : Prop where
  la : Lk a
  lb : Lk b
  fwd : ∀ q n, a.descend q = some n → ∃ n', b.descend q = some n' ∧ n'.name = n.name ∧ n'.kind.raw = n.kind.raw ∧
    (n.kind ≠ .archive → n'.children.map Tree.name = n.children.map Tree.name)
  back : ∀ q n', b.descend q = some n' → (∃ n, a.descend q = some n) ∨ (n'.kind = .ref .constantValue ∧
    ∃ p m, q = p ++ [n'.name] ∧ b.descend p = some m ∧ m.kind = .archive)

section
variable {a b : Tree} (x : Ext a b)
include x

theorem Ext.nodeBack {q : Path} {n' : Tree} (hn : b.descend q = some n') (hk : n'.kind ≠ .ref .constantValue) :
    ∃ n, a.descend q = some n ∧ n'.name = n.name ∧ n'.kind.raw = n.kind.raw := by
  rcases x.back q n' hn with ⟨n, h⟩ | ⟨h, _⟩
  · obtain ⟨m, h1, h2, h3, _⟩ := x.fwd q n h
    rw [hn] at h1; cases h1
    exact ⟨n, h, h2, h3⟩
  · exact absurd h hk

theorem Ext.memFwd {p : Path} {n n' c : Tree} (hn : a.descend p = some n) (hn' : b.descend p = some n') (hc : c ∈ n.children) :
    ∃ c' ∈ n'.children, c'.name = c.name ∧ c'.kind.raw = c.kind.raw ∧ a.descend (p ++ [c.name]) = some c ∧ b.descend (p ++ [c.name]) = some c' := by
  have h1 := descend_child x.la.good hn hc
  obtain ⟨c', h2, h3, h4, _⟩ := x.fwd _ _ h1
  obtain ⟨m, h5, h6, _⟩ := descend_parent h2
  rw [hn'] at h5; cases h5
  exact ⟨c', h6, h3, h4, h1, h2⟩

theorem Ext.memBack {p : Path} {n' c' : Tree} (hn' : b.descend p = some n') (hc : c' ∈ n'.children)
    (hk : c'.kind ≠ .ref .constantValue ∨ n'.kind ≠ .archive) :
    ∃ n, a.descend p = some n ∧ n'.kind.raw = n.kind.raw ∧ ∃ c ∈ n.children, c'.name = c.name ∧ c'.kind.raw = c.kind.raw ∧
      a.descend (p ++ [c.name]) = some c ∧ b.descend (p ++ [c.name]) = some c' := by
  have h1 := descend_child x.lb.good hn' hc
  rcases x.back _ _ h1 with ⟨c, h2⟩ | ⟨h2, p', m, h3, h4, h5⟩
  · obtain ⟨n, h3, h4, h5⟩ := descend_parent h2
    obtain ⟨d, d1, d2, d3, _⟩ := x.fwd _ _ h2
    rw [h1] at d1; cases d1
    obtain ⟨e, e1, e2, e3, _⟩ := x.fwd _ _ h3
    rw [hn'] at e1; cases e1
    exact ⟨n, h3, e3, c, h4, d2, d3, by rw [h5]; exact h2, by rw [h5]; exact h1⟩
  · have := List.append_inj_left' h3 rfl
    subst this
    rw [hn'] at h4; cases h4
    rcases hk with hk | hk
    · exact absurd h2 hk
    · exact absurd h5 hk

theorem Ext.find {q : Path} {r r' : Tree} {rk : RefKind} (hr : a.descend q = some r) (hk : r.kind = .ref rk) (hname : r'.name = r.name) :
    ∃ m m', a.find r.target = .ok m ∧ b.find r'.target = .ok m' ∧ a.descend r.targetPath = some m ∧ b.descend r.targetPath = some m' ∧
      m'.kind.raw = m.kind.raw := by
  obtain ⟨m, t1, t2, t3, _⟩ := x.la.target hr hk
  obtain ⟨m', m1, _, m3, _⟩ := x.fwd _ _ t2
  refine ⟨m, m', t3, ?_, t2, m1, m3⟩
  have : r'.target = r.target := by unfold Tree.target; rw [hname]
  rw [this, t1]
  exact (find_path x.lb.name (descend_nodot x.la.good t2)).mpr m1

theorem Ext.ranges : RangesOk a ↔ RangesOk b := by
  constructor
  · intro h p s' f' ty name o hs' hf' hfk hne
    obtain ⟨s, s1, s2, f, f1, f2, f3, f4, f5⟩ := x.memBack hs' hf' (.inl (by rw [hfk]; simp))
    rw [hfk] at f3
    obtain ⟨ty0, o0, e1, _⟩ := raw_field f3.symm
    obtain ⟨a1, a2⟩ := h p s f ty0 name o0 s1 f1 e1 hne
    constructor
    · intro g' hg' gt gr go hgk
      obtain ⟨s0, t1, _, g, g1, g2, g3, _⟩ := x.memBack hs' hg' (.inl (by rw [hgk]; simp))
      rw [s1] at t1; cases t1
      rw [hgk] at g3
      obtain ⟨ty1, o1, e2, _⟩ := raw_field g3.symm
      rw [g2]; exact a1 g g1 _ _ _ e2
    · intro c' hc' hck
      obtain ⟨f0, t1, _, c, c1, c2, c3, _⟩ := x.memBack (f2 ▸ f5) hc' (.inl (by rw [hck]; simp))
      rw [f2] at t1
      rw [← f2, f2, f4] at t1; cases t1
      rw [hck] at c3
      exact a2 c c1 (raw_ref.mp c3.symm)
  · intro h p s f ty name o hs hf hfk hne
    obtain ⟨s', s1, _⟩ := x.fwd _ _ hs
    obtain ⟨f', f1, f2, f3, f4, f5⟩ := x.memFwd hs s1 hf
    rw [hfk] at f3
    obtain ⟨ty0, o0, e1, _⟩ := raw_field f3
    obtain ⟨a1, a2⟩ := h p s' f' ty0 name o0 s1 f1 e1 hne
    constructor
    · intro g hg gt gr go hgk
      obtain ⟨g', g1, g2, g3, _⟩ := x.memFwd hs s1 hg
      rw [hgk] at g3
      obtain ⟨ty1, o1, e2, _⟩ := raw_field g3
      rw [← g2]; exact a1 g' g1 _ _ _ e2
    · intro c hc hck
      obtain ⟨c', c1, c2, c3, _⟩ := x.memFwd f4 f5 hc
      rw [hck] at c3
      exact a2 c' c1 (raw_ref.mp c3)

theorem Ext.hasRange {p : Path} {s s' : Tree} (h : a.descend p = some s) (h' : b.descend p = some s') : HasRange s ↔ HasRange s' := by
  constructor
  · rintro ⟨f, hf, ty, name, o, hfk, hne⟩
    obtain ⟨f', f1, _, f3, _⟩ := x.memFwd h h' hf
    rw [hfk] at f3
    obtain ⟨ty0, o0, e1, _⟩ := raw_field f3
    exact ⟨f', f1, ty0, name, o0, e1, hne⟩
  · rintro ⟨f', hf, ty, name, o, hfk, hne⟩
    obtain ⟨s0, t1, _, f, f1, _, f3, _⟩ := x.memBack h' hf (.inl (by rw [hfk]; simp))
    rw [h] at t1; cases t1
    rw [hfk] at f3
    obtain ⟨ty0, o0, e1, _⟩ := raw_field f3.symm
    exact ⟨f, f1, ty0, name, o0, e1, hne⟩

theorem Ext.rangeUse : RangeUseOk a ↔ RangeUseOk b := by
  constructor
  · intro h p r' ref' s' k o m hr' hrk href' hrefk hfind hrange
    obtain ⟨r, r1, r2, ref, e1, e2, e3, e4, e5⟩ := x.memBack hr' href' (.inl (by rw [hrefk]; simp))
    rw [hrefk] at e3
    rw [hrk] at r2
    obtain ⟨m0, hk0⟩ := raw_resource r2.symm
    have hrefk0 := raw_ref.mp e3.symm
    obtain ⟨s, s2, g1, g2, g3, g4, _⟩ := x.find e4 hrefk0 e2
    rw [hfind] at g2; cases g2
    exact h p r ref s k o m0 r1 hk0 e1 hrefk0 g1 ((x.hasRange g3 g4).mpr hrange)
  · intro h p r ref s k o m hr hrk href hrefk hfind hrange
    obtain ⟨r', r1, _, r3, _⟩ := x.fwd _ _ hr
    obtain ⟨ref', e1, e2, e3, e4, e5⟩ := x.memFwd hr r1 href
    rw [hrefk] at e3
    rw [hrk] at r3
    obtain ⟨m0, hk0⟩ := raw_resource r3
    have hrefk0 := raw_ref.mp e3
    obtain ⟨s0, s', g1, g2, g3, g4, _⟩ := x.find e4 hrefk e2
    rw [hfind] at g1; cases g1
    exact h p r' ref' s' k o m0 r1 hk0 e1 hrefk0 g2 ((x.hasRange g3 g4).mp hrange)

theorem Ext.widths : EnumWidthsOk a ↔ EnumWidthsOk b := by
  constructor
  · intro h p f' ty rg o ref' w e' t hf' hfk href' hrefk hfind hek
    obtain ⟨f, f1, f2, ref, e1, e2, e3, e4, e5⟩ := x.memBack hf' href' (.inl (by rw [hrefk]; simp))
    rw [hrefk] at e3
    rw [hfk] at f2
    obtain ⟨ty0, o0, hk0, _⟩ := raw_field f2.symm
    have hrefk0 := raw_ref.mp e3.symm
    obtain ⟨e, e2', g1, g2, g3, g4, g5⟩ := x.find e4 hrefk0 e2
    rw [hfind] at g2; cases g2
    exact h p f ty0 rg o0 ref w e t f1 hk0 e1 hrefk0 g1 ((raw_simple g5.symm (by simp [hek]) (by simp [hek]) (by simp [hek])).trans hek)
  · intro h p f ty rg o ref w e t hf hfk href hrefk hfind hek
    obtain ⟨f', f1, _, f3, _⟩ := x.fwd _ _ hf
    obtain ⟨ref', e1, e2, e3, e4, e5⟩ := x.memFwd hf f1 href
    rw [hrefk] at e3
    rw [hfk] at f3
    obtain ⟨ty0, o0, hk0, _⟩ := raw_field f3
    have hrefk0 := raw_ref.mp e3
    obtain ⟨e0, e', g1, g2, g3, g4, g5⟩ := x.find e4 hrefk e2
    rw [hfind] at g1; cases g1
    exact h p f' ty0 rg o0 ref' w e' t f1 hk0 e1 hrefk0 g2 ((raw_simple g5 (by simp [hek]) (by simp [hek]) (by simp [hek])).trans hek)

theorem Ext.explicit : ExplicitReferencesOk a ↔ ExplicitReferencesOk b := by
  constructor
  · intro h p r' e' ref' hr' he' hek href' hrefk
    obtain ⟨r, r1, r2, e, e1, e2, e3, e4, e5⟩ := x.memBack hr' he' (.inl (by rw [hek]; simp))
    rw [hek] at e3
    have hek0 : e.kind = .explicitReference := raw_simple e3.symm (by simp) (by simp) (by simp)
    obtain ⟨e0, f1, _, ref, g1, g2, g3, _⟩ := x.memBack e5 href' (.inl (by rw [hrefk]; simp))
    rw [e4] at f1; cases f1
    rw [hrefk] at g3
    obtain ⟨y, y1, y2, y3⟩ := h p r e ref r1 e1 hek0 g1 (raw_ref.mp g3.symm)
    obtain ⟨y', z1, z2, z3, _⟩ := x.memFwd r1 hr' y1
    rw [y2] at z3
    refine ⟨y', z1, raw_ref.mp z3, ?_⟩
    unfold Tree.target at y3 ⊢
    rw [z2, y3, g2]
  · intro h p r e ref hr he hek href hrefk
    obtain ⟨r', r1, _⟩ := x.fwd _ _ hr
    obtain ⟨e', e1, e2, e3, e4, e5⟩ := x.memFwd hr r1 he
    rw [hek] at e3
    have hek0 : e'.kind = .explicitReference := raw_simple e3 (by simp) (by simp) (by simp)
    obtain ⟨ref', g1, g2, g3, _⟩ := x.memFwd e4 e5 href
    rw [hrefk] at g3
    obtain ⟨y', y1, y2, y3⟩ := h p r' e' ref' r1 e1 hek0 g1 (raw_ref.mp g3)
    obtain ⟨r0, t1, _, y, z1, z2, z3, _⟩ := x.memBack r1 y1 (.inl (by rw [y2]; simp))
    rw [hr] at t1; cases t1
    rw [y2] at z3
    refine ⟨y, z1, raw_ref.mp z3.symm, ?_⟩
    unfold Tree.target at y3 ⊢
    rw [← z2, y3, g2]

theorem Ext.constants : FieldConstantsOk a ↔ FieldConstantsOk b := by
  constructor
  · intro h p f' ty rg o hf' hfk
    obtain ⟨f, f1, f2, f3⟩ := x.nodeBack hf' (by rw [hfk]; simp)
    rw [hfk] at f3
    obtain ⟨ty0, o0, hk0, hb⟩ := raw_field f3.symm
    obtain ⟨a1, a2⟩ := h p f ty0 rg o0 f1 hk0
    have hna : f'.kind ≠ .archive := by rw [hfk]; simp
    constructor
    · intro ref' href' hrefk
      obtain ⟨f0, t1, _, ref, e1, e2, e3, e4, e5⟩ := x.memBack hf' href' (.inr hna)
      rw [f1] at t1; cases t1
      have hrefk0 : ref.kind = .ref .constantValue ∨ ref.kind = .ref .invalidValue := by
        rcases hrefk with hr | hr
        · left; rw [hr] at e3; exact raw_ref.mp e3.symm
        · right; rw [hr] at e3; exact raw_ref.mp e3.symm
      obtain ⟨n, bt, ct, v, b1, b2, b3, b4, b5⟩ := a1 ref e1 hrefk0
      obtain ⟨rk, hrk⟩ : ∃ rk, ref.kind = .ref rk := by rcases hrefk0 with h | h <;> exact ⟨_, h⟩
      obtain ⟨n0, n', g1, g2, g3, g4, g5⟩ := x.find e4 hrk e2
      rw [b1] at g1; cases g1
      exact ⟨n', bt, ct, v, g2, (raw_simple g5 (by simp [b2]) (by simp [b2]) (by simp [b2])).trans b2, (hb bt).mp b3, b4, b5⟩
    · intro c' hc' d' hd' hck hdk
      obtain ⟨f0, t1, _, c, c1, c2, c3, c4, c5⟩ := x.memBack hf' hc' (.inr hna)
      rw [f1] at t1; cases t1
      obtain ⟨f0, t1, _, d, d1, d2, d3, d4, d5⟩ := x.memBack hf' hd' (.inr hna)
      rw [f1] at t1; cases t1
      rw [hck] at c3
      rw [hdk] at d3
      have := a2 c c1 d d1 (raw_ref.mp c3.symm) (raw_ref.mp d3.symm)
      subst this
      rw [c5] at d5
      injection d5
  · intro h p f ty rg o hf hfk
    obtain ⟨f', f1, _, f3, _⟩ := x.fwd _ _ hf
    rw [hfk] at f3
    obtain ⟨ty0, o0, hk0, hb⟩ := raw_field f3
    obtain ⟨a1, a2⟩ := h p f' ty0 rg o0 f1 hk0
    constructor
    · intro ref href hrefk
      obtain ⟨ref', e1, e2, e3, e4, e5⟩ := x.memFwd hf f1 href
      have hrefk0 : ref'.kind = .ref .constantValue ∨ ref'.kind = .ref .invalidValue := by
        rcases hrefk with hr | hr
        · left; rw [hr] at e3; exact raw_ref.mp e3
        · right; rw [hr] at e3; exact raw_ref.mp e3
      obtain ⟨n', bt, ct, v, b1, b2, b3, b4, b5⟩ := a1 ref' e1 hrefk0
      obtain ⟨rk, hrk⟩ : ∃ rk, ref.kind = .ref rk := by rcases hrefk with h | h <;> exact ⟨_, h⟩
      obtain ⟨n, n2, g1, g2, g3, g4, g5⟩ := x.find e4 hrk e2
      rw [b1] at g2; cases g2
      exact ⟨n, bt, ct, v, g1, (raw_simple g5.symm (by simp [b2]) (by simp [b2]) (by simp [b2])).trans b2, (hb bt).mp b3, b4, b5⟩
    · intro c hc d hd hck hdk
      obtain ⟨c', c1, c2, c3, c4, c5⟩ := x.memFwd hf f1 hc
      obtain ⟨d', d1, d2, d3, d4, d5⟩ := x.memFwd hf f1 hd
      rw [hck] at c3
      rw [hdk] at d3
      have := a2 c' c1 d' d1 (raw_ref.mp c3) (raw_ref.mp d3)
      subst this
      have hn : c.name = d.name := c2.symm.trans d2
      rw [hn, d4] at c4
      injection c4 with c4
      exact c4.symm

end

theorem onCycle_iff {V : Type} {f : V → List V} {R : V → V → Prop} (h : ∀ a b, b ∈ f a ↔ R a b) (p : V) :
    OnCycle f p ↔ Relation.TransGen R p p := by
  have key : ∀ {k a b}, Walk f (k + 1) a b → Relation.TransGen R a b := by
    intro k
    induction k with
    | zero =>
      intro a b hw
      cases hw with
      | step h1 h2 => cases h1; exact .single ((h _ _).mp h2)
    | succ k ih =>
      intro a b hw
      cases hw with
      | step h1 h2 => exact .tail (ih h1) ((h _ _).mp h2)
  have back : ∀ {a b}, Relation.TransGen R a b → ∃ k, Walk f (k + 1) a b := by
    intro a b ht
    induction ht with
    | single h1 => exact ⟨0, .step (.refl _) ((h _ _).mpr h1)⟩
    | tail _ h2 ih =>
      obtain ⟨k, hk⟩ := ih
      exact ⟨k + 1, .step hk ((h _ _).mpr h2)⟩
  exact ⟨fun ⟨k, hk⟩ => key hk, back⟩

theorem isType_iff {k : Kind} : k.isTypeReference = true ↔ ∃ rk, k = .ref rk ∧ rk.isType = true := by
  cases k <;> simp [Kind.isTypeReference]

theorem notReference_iff {k : Kind} : (!k.isReference) = true ↔ ∀ rk, k ≠ .ref rk := by
  cases k <;> simp [Kind.isReference]

/-- With the added constants, the dependencies are the specified ones. -/
theorem dependsOn_iff {r c : Tree} (hl : Linked r) (hsh : Shaped r) (h : appendConstantRefs r = .ok c) (p q : Path) :
    q ∈ depChildren c p ↔ DependsOn r p q := by
  obtain ⟨hlc, hgrow, hback⟩ := appendConstantRefs_spec hl h
  have hnoat : ∀ x ∈ unreferenced r, '@' ∉ pathText x ∧ ∀ k ∈ x, '.' ∉ k := by
    intro x hx
    obtain ⟨⟨m, mty, mv, m1, m2⟩, _⟩ := (mem_unreferenced hl hsh).mp hx
    exact ⟨pathText_noat (descend_noat hl.named m1 (by rw [m2]; simp)), descend_nodot hl.good m1⟩
  cases hp : r.descend p with
  | none =>
    constructor
    · intro hq
      unfold depChildren at hq
      cases hc : c.descend p with
      | none => rw [hc] at hq; cases hq
      | some n' =>
        rw [hc] at hq
        rcases hback p n' hc with ⟨n, h1, _⟩ | ⟨_, _, _, _, _, _, _, _, hk⟩
        · rw [hp] at h1; cases h1
        · have := hlc.lk.leaf p n' _ hc hk
          simp [Tree.childrenLike, this] at hq
    · rintro ⟨n, h1, _⟩; rw [hp] at h1; cases h1
  | some n =>
    obtain ⟨n', ext, g1, g2, g3, g4, g5⟩ := hgrow p n hp
    have hinfo : ∀ a b, (∃ x ∈ n'.children, x.name = a ∧ x.kind = b) ↔ (∃ x ∈ n.children, x.name = a ∧ x.kind = b) ∨ (a, b) ∈ ext := by
      intro a b
      have : (a, b) ∈ info n' ↔ (a, b) ∈ info n ++ ext := by rw [g4]
      simpa [info] using this
    have hl' : q ∈ depChildren c p ↔ (∃ x ∈ n'.children, (∀ rk, x.kind ≠ .ref rk) ∧ q = p ++ [x.name]) ∨
        ∃ x ∈ n'.children, (∃ rk, x.kind = .ref rk ∧ rk.isType = true) ∧ x.targetPath = q := by
      unfold depChildren
      rw [g1]
      simp only [List.mem_append, List.mem_map, Tree.childrenLike, List.mem_filter, notReference_iff, isType_iff, and_assoc, eq_comm (b := q)]
    rw [hl']
    constructor
    · rintro (⟨x, h1, h2, rfl⟩ | ⟨x, h1, h2, rfl⟩)
      · rcases (hinfo x.name x.kind).mp ⟨x, h1, rfl, rfl⟩ with ⟨y, y1, y2, y3⟩ | he
        · exact ⟨n, hp, .inl ⟨y, y1, by rw [y3]; exact h2, by rw [y2]⟩⟩
        · rw [g5] at he
          split at he
          · obtain ⟨z, _, hz⟩ := List.mem_map.mp he
            simp only [Prod.mk.injEq] at hz
            exact absurd hz.2.symm (h2 _)
          · cases he
      · rcases (hinfo x.name x.kind).mp ⟨x, h1, rfl, rfl⟩ with ⟨y, y1, y2, y3⟩ | he
        · refine ⟨n, hp, .inr (.inl ⟨y, y1, by rw [y3]; exact h2, ?_⟩)⟩
          unfold Tree.targetPath Tree.target; rw [y2]
        · rw [g5] at he
          split at he
          · rename_i ha
            obtain ⟨z, z1, hz⟩ := List.mem_map.mp he
            simp only [Prod.mk.injEq] at hz
            have ht : x.target = pathText z := by
              rw [Tree.target, ← hz.1, dereferencify_referencify (hnoat z z1).1]
            have := targetPath_of (hnoat z z1).2 ht
            rw [this]
            exact ⟨n, hp, .inr (.inr ⟨ha, (mem_unreferenced hl hsh).mp z1⟩)⟩
          · cases he
    · rintro ⟨m, hm, h⟩
      rw [hp] at hm; cases hm
      rcases h with ⟨x, h1, h2, rfl⟩ | ⟨x, h1, h2, rfl⟩ | ⟨ha, hq⟩
      · obtain ⟨y, y1, y2, y3⟩ := (hinfo x.name x.kind).mpr (.inl ⟨x, h1, rfl, rfl⟩)
        exact .inl ⟨y, y1, by rw [y3]; exact h2, by rw [y2]⟩
      · obtain ⟨y, y1, y2, y3⟩ := (hinfo x.name x.kind).mpr (.inl ⟨x, h1, rfl, rfl⟩)
        refine .inr ⟨y, y1, by rw [y3]; exact h2, ?_⟩
        unfold Tree.targetPath Tree.target; rw [y2]
      · have hq := (mem_unreferenced hl hsh).mpr hq
        obtain ⟨y, y1, y2, y3⟩ := (hinfo (referencify (pathText q)) (.ref .constantValue)).mpr (.inr (by
          rw [g5, if_pos ha]; exact List.mem_map.mpr ⟨q, hq, rfl⟩))
        refine .inr ⟨y, y1, ⟨_, y3, rfl⟩, ?_⟩
        have ht : y.target = pathText q := by
          rw [Tree.target, y2, dereferencify_referencify (hnoat q hq).1]
        exact targetPath_of (hnoat q hq).2 ht

/-- Constants below archives are all that is added. -/
theorem ext_constants {r c : Tree} (hl : Linked r) (h : appendConstantRefs r = .ok c) : Ext r c := by
  obtain ⟨hlc, hgrow, hback⟩ := appendConstantRefs_spec hl h
  refine ⟨hl.lk, hlc.lk, ?_, ?_⟩
  · intro q n hn
    obtain ⟨n', ext, g1, g2, g3, g4, g5⟩ := hgrow q n hn
    refine ⟨n', g1, g2, by rw [g3], fun hk => ?_⟩
    rw [if_neg hk] at g5
    subst g5
    have := congrArg (List.map Prod.fst) g4
    simpa [info, Function.comp_def] using this
  · intro q n' hn'
    rcases hback q n' hn' with ⟨n, h1, _⟩ | ⟨a, n, h1, h2, x, _, h3, _, h5⟩
    · exact .inl ⟨n, h1⟩
    · obtain ⟨m, _, g1, _, g3, _⟩ := hgrow a n h1
      exact .inr ⟨h5, a, m, h3, g1, g3.trans h2⟩

theorem raw_unsized {k k' : Kind} (h : k.unsized = k'.unsized) : k.raw = k'.raw := by
  have : ∀ k : Kind, k.unsized.raw = k.raw := by
    intro k
    cases k with
    | field a b c => cases a <;> rfl
    | _ => rfl
  rw [← this k, h, this]

theorem raw_unlimited {k k' : Kind} (h : k.unlimited = k'.unlimited) : k.raw = k'.raw := by
  have : ∀ k : Kind, k.unlimited.raw = k.raw := by intro k; cases k <;> rfl
  rw [← this k, h, this]

/-- Computed attributes are all that changes later. -/
theorem ext_raw {a b b' : Tree} (x : Ext a b) (hl : Lk b') (hs : SameBy Kind.raw b b') : Ext a b' := by
  refine ⟨x.la, hl, ?_, ?_⟩
  · intro q n hn
    obtain ⟨m, h1, h2, h3, h4⟩ := x.fwd q n hn
    obtain ⟨m', g1, g2, g3, g4⟩ := hs.node h1
    exact ⟨m', g1, g2.trans h2, g3.trans h3, fun hk => g4.trans (h4 hk)⟩
  · intro q n' hn'
    obtain ⟨m, g1, g2, g3, _⟩ := hs.symm.node hn'
    rcases x.back q m g1 with h | ⟨h1, p, y, h2, h3, h4⟩
    · exact .inl h
    · rw [h1] at g3
      obtain ⟨y', k1, _, k3, _⟩ := hs.node h3
      refine .inr ⟨raw_ref.mp g3.symm, p, y', by rw [← g2]; exact h2, k1, ?_⟩
      rw [h4] at k3
      exact raw_simple k3 (by simp) (by simp) (by simp)

theorem sameBy_of {f g : Kind → Kind} (hfg : ∀ k k', f k = f k' → g k = g k') {a b : Tree} (h : SameBy f a b) : SameBy g a b := by
  intro q
  unfold skel
  cases ha : a.descend q with
  | none => rw [h.none.mpr ha]
  | some n =>
    obtain ⟨n', h1, h2, h3, h4⟩ := h.node ha
    rw [h1]
    simp only [Option.map_some, h2, hfg _ _ h3, h4]

theorem sameBy_typed {c y : Tree} (hl : Lk c) (h : updateFieldTypes c = .ok y) : SameBy Kind.raw c y := by
  obtain ⟨_, h2, h3, h4⟩ := updateFieldTypes_spec hl h
  intro q
  unfold skel
  cases ha : c.descend q with
  | none => rw [h2.none.mpr ha]
  | some n =>
    obtain ⟨n', g1, g2, g3, g4⟩ := h2.node ha
    rw [g1]
    have hk : n'.kind.raw = n.kind.raw := by
      by_cases hn : ∃ rg o, n.kind = .field .none rg o
      · obtain ⟨rg, o, hn⟩ := hn
        obtain ⟨ref, _, w, m, bt, _, _, _, k1, _⟩ := h4 q n rg o ha hn
        obtain ⟨n2, k2, k3⟩ := kindAt_some.mp k1
        rw [g1] at k2; cases k2
        rw [k3, hn]; rfl
      · obtain ⟨n2, k2, k3⟩ := kindAt_some.mp (h3 q n.kind (kindAt_some.mpr ⟨n, ha, rfl⟩) fun rg o e => hn ⟨rg, o, e⟩)
        rw [g1] at k2; cases k2
        rw [k3]
    simp only [Option.map_some, g2, hk, g4]

/-! ## Shapes of nodes after constants have been added -/

theorem childKinds_info {n n' : Tree} (h : info n' = info n) : childKinds n'.children = childKinds n.children := by
  have := congrArg (List.map Prod.snd) h
  unfold childKinds
  simp only [info, List.map_map, Function.comp_def] at this
  have e : ∀ l : List Tree, l.map (fun c => c.kind) = l.map Tree.kind := fun _ => rfl
  rw [← e, ← e, this]

/-- Nodes other than archives have the children that their classes demand. -/
theorem shaped_constants {r c : Tree} (hl : Linked r) (hsh : Shaped r) (h : appendConstantRefs r = .ok c) {q : Path} {n : Tree}
    (hn : c.descend q = some n) (hk : n.kind ≠ .archive) (hr : n.kind ≠ .ref .constantValue) : ChildrenOk n.kind (childKinds n.children) := by
  obtain ⟨_, hgrow, hback⟩ := appendConstantRefs_spec hl h
  rcases hback q n hn with ⟨m, h1, h2⟩ | ⟨_, _, _, _, _, _, _, _, h3⟩
  · obtain ⟨n2, ext, g1, _, g3, g4, g5⟩ := hgrow q m h1
    rw [hn] at g1; cases g1
    rw [if_neg (by rw [← g3]; exact hk)] at g5
    subst g5
    rw [List.append_nil] at g4
    rw [h2, childKinds_info g4]
    exact (shaped_descend hsh h1).kinds
  · exact absurd h3 hr

theorem mem_childKinds {cs : List Tree} {k : Kind} (h : k ∈ childKinds cs) : ∃ c ∈ cs, c.kind = k := by
  unfold childKinds at h
  obtain ⟨c, h1, h2⟩ := List.mem_map.mp (List.mem_of_mem_filter h)
  exact ⟨c, h1, h2⟩

theorem childKinds_mem {cs : List Tree} {c : Tree} (h : c ∈ cs) (hk : c.kind ≠ .namespace) : c.kind ∈ childKinds cs := by
  unfold childKinds
  rw [List.mem_filter]
  exact ⟨List.mem_map.mpr ⟨c, h, rfl⟩, by simpa using hk⟩

/-- A field without a basic type has exactly one reference to an enumeration. -/
theorem enumRef_unique {n : Tree} {rg o} (h : ChildrenOk (.field .none rg o) (childKinds n.children)) {a b : Tree} (ha : a ∈ n.children)
    (hb : b ∈ n.children) (hak : a.kind.isEnumerationReference = true) (hbk : b.kind.isEnumerationReference = true) : a = b := by
  obtain ⟨cs, w, h1, h2⟩ := h
  have hf : (childKinds n.children).filter Kind.isEnumerationReference = [.ref (.enumeration w)] := by
    rw [h1, List.filter_append]
    have : cs.filter Kind.isEnumerationReference = [] := by
      rw [List.filter_eq_nil_iff]
      intro k hk he
      have := h2 k hk
      cases k <;> simp [Kind.isEnumerationReference, Kind.isConstantReference] at he this
      rename_i rk
      cases rk <;> simp [Kind.isEnumerationReference, RefKind.isConstant] at he this
    rw [this]; rfl
  have hf2 : (n.children.filter fun c => c.kind.isEnumerationReference).map Tree.kind = [.ref (.enumeration w)] := by
    rw [← hf]
    unfold childKinds
    rw [List.filter_filter]
    have : (fun k : Kind => k.isEnumerationReference && decide (k ≠ .namespace)) = Kind.isEnumerationReference := by
      funext k; cases k <;> simp [Kind.isEnumerationReference]
    rw [this, List.filter_map]; rfl
  have hm : ∀ x ∈ n.children, x.kind.isEnumerationReference = true → x ∈ n.children.filter fun c => c.kind.isEnumerationReference :=
    fun x h1 h2 => List.mem_filter.mpr ⟨h1, h2⟩
  have ha' := hm a ha hak
  have hb' := hm b hb hbk
  generalize n.children.filter (fun c => c.kind.isEnumerationReference) = l at hf2 ha' hb'
  match l, hf2, ha', hb' with
  | [x], _, ha', hb' => simp only [List.mem_singleton] at ha' hb'; rw [ha', hb']
  | _ :: _ :: _, hf2, _, _ => simp at hf2

/-- What fields with enumeration types have as children. -/
theorem enumRef_exists {n : Tree} {rg o} (h : ChildrenOk (.field .none rg o) (childKinds n.children)) :
    ∃ ref ∈ n.children, ref.kind.isEnumerationReference = true := by
  obtain ⟨cs, w, h1, _⟩ := h
  obtain ⟨c, c1, c2⟩ := mem_childKinds (cs := n.children) (k := .ref (.enumeration w)) (by rw [h1]; simp)
  exact ⟨c, c1, by rw [c2]; rfl⟩

theorem widths_checked {r c y : Tree} (hl : Linked r) (hsh : Shaped r) (h : appendConstantRefs r = .ok c) (hlc : Linked c)
    (hy : updateFieldTypes c = .ok y) : EnumWidthsOk c := by
  intro p f ty rg o ref w e b hf hfk href hrefk hfind hek hw
  have hch := shaped_constants hl hsh h hf (by rw [hfk]; simp) (by rw [hfk]; simp)
  have hok := hlc.kindOk p f hf
  rw [hfk] at hok hch
  obtain ⟨_, rfl | ⟨bt, rfl, _⟩⟩ := hok
  · obtain ⟨_, _, _, h4⟩ := updateFieldTypes_spec hlc.lk hy
    obtain ⟨ref', k1, w', m, bt, k2, k3, k4, _, k6⟩ := h4 p f rg o hf hfk
    have := enumRef_unique hch href k1 (by rw [hrefk]; rfl) (by rw [k2]; rfl)
    subst this
    rw [hrefk] at k2
    simp only [Kind.ref.injEq, RefKind.enumeration.injEq] at k2
    obtain ⟨m', _, t2, t3, _⟩ := hlc.lk.target (descend_child hlc.good hf href) hrefk
    rw [hfind] at t3; cases t3
    rw [k3] at t2; cases t2
    rw [hek] at k4; cases k4
    exact k6 w k2.symm hw
  · have := hch _ (childKinds_mem href (by rw [hrefk]; simp))
    rw [hrefk] at this
    simp [Kind.isConstantReference, RefKind.isConstant] at this

/-- Kinds of references and namespaces are not changed by computing attributes. -/
theorem kinds_blank {l l' : List Kind} (h : l'.map Kind.blank = l.map Kind.blank) (hl : ∀ k ∈ l, k = .namespace ∨ ∃ rk, k = .ref rk) : l' = l := by
  induction l generalizing l' with
  | nil => simpa using h
  | cons k l ih =>
    cases l' with
    | nil => simp at h
    | cons k' l' =>
      simp only [List.map_cons, List.cons.injEq] at h
      rw [ih h.2 fun x hx => hl x (by simp [hx])]
      congr 1
      rcases hl k (by simp) with rfl | ⟨rk, rfl⟩
      · have := h.1; cases k' <;> simp_all [Kind.blank]
      · exact blank_ref.mp h.1

theorem untyped_resource {k : Kind} {rk o m} (h : Kind.resource rk o m = k.untyped) : k = .resource rk o m := by
  cases k <;> simp_all [Kind.untyped]

theorem unsized_resource {k : Kind} {rk o m} (h : Kind.resource rk o m = k.unsized) : k = .resource rk o m := by
  cases k <;> simp_all [Kind.unsized]

/-- C103. If all names of a schema can be resolved, then it is accepted exactly if it is well-formed. -/
theorem C103_accepted_iff {blocks : List PBlock} (hb : ∀ b ∈ blocks, PlainNames b) {r : Tree} (h1 : buildResolved blocks = .ok r) :
    (∃ t, BuildAst blocks (.ok t)) ↔ WellFormed r := by
  obtain ⟨hl, hsh⟩ := buildResolved_linked hb h1
  constructor
  · rintro ⟨t, h⟩
    obtain ⟨s, _⟩ := buildAst_stages h
    have hr : s.resolved = r := by have := s.h1; rw [h1] at this; cases this; rfl
    have h2 := s.h2
    rw [hr] at h2
    have hlc := s.linkedC hb
    have x := ext_constants hl h2
    obtain ⟨z1, z2, _⟩ := s.sizedSpec hb
    obtain ⟨m1, m2, _⟩ := s.maxSpec hb
    have x2 : Ext r t := ext_raw x (s.lkT hb) (((sameBy_typed hlc.lk s.h4).trans (sameBy_of (fun _ _ => raw_unsized) z2)).trans
      (sameBy_of (fun _ _ => raw_unlimited) m2))
    obtain ⟨k1, k2⟩ := (checkRanges_iff hlc.lk (by rw [hlc.kind]; rfl)).mp s.h3
    refine ⟨x.ranges.mpr k1, x.rangeUse.mpr k2, x.widths.mpr (widths_checked hl hsh h2 hlc s.h4), ?_, x2.constants.mpr (C54_constants hb h),
      x2.explicit.mpr (C65_explicit_references hb h)⟩
    intro p hp
    have hdep : depChildren t = depChildren s.constants := funext fun q => depChildren_same hlc.good m1 (s.sameCT hb) q
    have hc : OnCycle (depChildren t) p := by
      rw [hdep]; exact (onCycle_iff (dependsOn_iff hl hsh h2) p).mpr hp
    have hne : depChildren t p ≠ [] := by
      obtain ⟨q, hq, _⟩ := Relation.TransGen.head'_iff.mp hp
      have := (dependsOn_iff hl hsh h2 p q).mpr hq
      rw [← hdep] at this
      intro he; rw [he] at this; cases this
    unfold depChildren at hne
    cases hn : t.descend p with
    | none => rw [hn] at hne; exact hne rfl
    | some n =>
      rw [hn] at hne
      refine C64_acyclic hb h hn (fun rk hk => ?_) hc
      have := (s.lkT hb).leaf p n rk hn hk
      simp [Tree.childrenLike, this] at hne
  · intro hw
    obtain ⟨c, h2⟩ := appendConstantRefs_succ hl hsh
    have hlc := (appendConstantRefs_spec hl h2).1
    have x := ext_constants hl h2
    have h3 : checkRanges c = .ok () := (checkRanges_iff hlc.lk (by rw [hlc.kind]; rfl)).mpr ⟨x.ranges.mp hw.ranges, x.rangeUse.mp hw.rangeUse⟩
    obtain ⟨y, h4⟩ := updateFieldTypes_succ hlc (fun q n rg o hn hk => by
      have := shaped_constants hl hsh h2 hn (by rw [hk]; simp) (by rw [hk]; simp)
      rw [hk] at this
      exact enumRef_exists this) (x.widths.mp hw.widths)
    obtain ⟨y1, y2, y3, y4⟩ := updateFieldTypes_spec hlc.lk h4
    have hsy : Same c y := y2.mono blank_untyped
    have hly : Lk y := hlc.lk.same hsy y1
    have hty : AllTyped y := by
      intro q ty rg o hk hno
      subst hno
      obtain ⟨m, m1, m2⟩ := kindAt_some.mp hk
      obtain ⟨n, n1, _, n3, _⟩ := y2.symm.node m1
      rw [m2] at n3
      obtain ⟨ty0, hn⟩ := untyped_field n3
      by_cases h0 : ty0 = .none
      · subst h0
        obtain ⟨_, _, _, _, _, _, _, _, e, _⟩ := y4 q n rg o n1 hn
        rw [hk] at e; simp at e
      · have := y3 q n.kind (kindAt_some.mpr ⟨n, n1, rfl⟩) (by rw [hn]; simp [h0])
        rw [hk, hn] at this
        simp only [Option.some.injEq, Kind.field.injEq] at this
        exact h0 this.1.symm
    have hdy : depChildren y = depChildren c := funext fun q => depChildren_same hlc.good y1 hsy q
    obtain ⟨k, z, h5⟩ := computeSizes_succ hly hty (by
      intro p hp
      rw [hdy] at hp
      exact hw.acyclic p ((onCycle_iff (dependsOn_iff hl hsh h2) p).mp hp))
    obtain ⟨z1, z2, _, _⟩ := computeSizes_spec hly h5
    have hsz : Same c z := hsy.trans (z2.mono blank_unsized)
    have hlz : Lk z := hlc.lk.same hsz z1
    obtain ⟨t, h6⟩ := computeMaxSizes_succ hlz (hty.unsized z2) (by
      intro q k o m hk
      obtain ⟨n, n1, n2⟩ := kindAt_some.mp hk
      obtain ⟨a, a1, _, a3, _⟩ := z2.symm.node n1
      rw [n2] at a3
      obtain ⟨b, b1, _, b3, _⟩ := y2.symm.node a1
      rw [unsized_resource a3.symm] at b3
      have := hlc.kindOk q b b1
      rw [untyped_resource b3.symm] at this
      exact this) (by
      intro p e he hek
      obtain ⟨d, d1, _, d3, _⟩ := hsz.symm.node he
      rw [hek] at d3
      have hdk : d.kind = .explicitReference := by
        cases hd : d.kind <;> rw [hd] at d3 <;> simp_all [Kind.blank]
      have hch := shaped_constants hl hsh h2 d1 (by rw [hdk]; simp) (by rw [hdk]; simp)
      rw [hdk] at hch
      have hch : childKinds d.children = [.ref .resource, .ref .field, .ref .structure] := hch
      have hall : ∀ k ∈ d.children.map Tree.kind, k = .namespace ∨ ∃ rk, k = .ref rk := by
        intro k hk
        obtain ⟨u, u1, rfl⟩ := List.mem_map.mp hk
        by_cases hn : u.kind = .namespace
        · exact .inl hn
        · have := childKinds_mem u1 hn
          rw [hch] at this
          simp only [List.mem_cons, List.not_mem_nil, or_false] at this
          right
          rcases this with h | h | h <;> exact ⟨_, h⟩
      have hinfo := congrArg (List.map Prod.snd) (blank_infos hlc.good z1 hsz d1 he)
      rw [List.map_map, List.map_map] at hinfo
      have hkinds : e.children.map Tree.kind = d.children.map Tree.kind := kinds_blank (by
        rw [List.map_map, List.map_map]; exact hinfo) hall
      unfold childKinds at hch ⊢
      rw [hkinds, hch])
    let s : Stages blocks t := ⟨r, c, y, z, h1, h2, h3, h4, ⟨k, h5⟩, h6⟩
    have x2 : Ext r t := ext_raw x (s.lkT hb) (((sameBy_typed hlc.lk h4).trans (sameBy_of (fun _ _ => raw_unsized) z2)).trans
      (sameBy_of (fun _ _ => raw_unlimited) (s.maxSpec hb).2.1))
    exact ⟨t, (C54_exact hb s).mpr ⟨x2.constants.mp hw.constants, x2.explicit.mp hw.explicit⟩⟩

/-! ## Names -/

theorem treeAt_parent {pos : List Nat} {i : Nat} : ∀ {t c : Tree}, treeAt t (pos ++ [i]) = some c → ∃ n, treeAt t pos = some n ∧ n.children[i]? = some c := by
  induction pos with
  | nil =>
    intro t c h
    simp only [List.nil_append, treeAt] at h
    cases hc : t.children[i]? with
    | none => rw [hc] at h; cases h
    | some d => rw [hc] at h; simp only [treeAt, Option.bind_some, Option.some.injEq] at h; exact ⟨t, rfl, by rw [hc, h]⟩
  | cons j js ih =>
    intro t c h
    simp only [List.cons_append, treeAt] at h ⊢
    cases hc : t.children[j]? with
    | none => rw [hc] at h; cases h
    | some d => rw [hc] at h; exact ih h

theorem enclosingNamespace_exists {t : Tree} {p s : Path} (hs : s <+: p) (hn : NamespaceAt t s) : ∃ s, EnclosingNamespace t p s := by
  induction p using List.reverseRecOn with
  | nil =>
    refine ⟨s, hs, hn, fun r h1 h2 _ => ?_⟩
    rw [List.prefix_nil.mp hs, List.prefix_nil.mp h2]
  | append_singleton p k ih =>
    by_cases hp : NamespaceAt t (p ++ [k])
    · exact ⟨p ++ [k], List.prefix_refl _, hp, fun r h1 h2 _ => h2.eq_of_length (Nat.le_antisymm h2.length_le h1.length_le)⟩
    · rcases prefix_singleton hs with h | h
      · obtain ⟨s', g1, g2, g3⟩ := ih h
        refine ⟨s', g1.trans (List.prefix_append _ _), g2, fun r h1 h2 h3 => ?_⟩
        rcases prefix_singleton h2 with h2 | h2
        · exact g3 r h1 h2 h3
        · rw [h2] at h3; exact absurd h3 hp
      · rw [h] at hn; exact absurd hn hp

/-- Everything lies in a namespace. -/
theorem shaped_namespace {t n : Tree} (hs : Shaped t) (hk : t.kind = .root) {k : Text} {p : Path} (hn : t.descend (k :: p) = some n) :
    NamespaceAt t [k] := by
  simp only [Tree.descend] at hn
  cases hc : t.child k with
  | none => rw [hc] at hn; cases hn
  | some c =>
    refine ⟨c, by simp [Tree.descend, hc], ?_⟩
    have h := hs.kinds
    rw [hk] at h
    by_contra hne
    have := childKinds_mem (child_some hc).1 hne
    have h0 : childKinds t.children = [] := h
    rw [h0] at this; cases this

/-- C103 (names). All names can be resolved exactly if every reference means a fitting node and the references of one definition
mean different nodes. -/
theorem C103_names_iff {blocks : List PBlock} (hb : ∀ b ∈ blocks, PlainNames b) {t root : Tree} (ht : buildNodeTree blocks = .ok t)
    (hr : appendBuiltins t = .ok root) : (∃ r, resolveReferences root = .ok r) ↔ NamesOk root := by
  have hm := (built_merged ht).1
  have hready := appendBuiltins_ready ⟨hm.good, (built_named hb ht).1, hm.name, hm.kind⟩ hr
  have hsh : Shaped root := appendBuiltins_shaped hm.good (built_shaped ht) hr
  have hg := hready.good
  have hw := hready.named
  have hn := hready.name
  constructor
  · rintro ⟨r, h⟩
    have hpos : ∀ p n ref, root.descend p = some n → ref ∈ n.children → ∃ (pos : List Nat) (i : Nat), namesAt root pos = p ∧ treeAt root pos = some n ∧
        treeAt root (pos ++ [i]) = some ref := by
      intro p n ref hp href
      obtain ⟨pos, h1, h2⟩ := descend_treeAt hp
      obtain ⟨i, hi⟩ := List.mem_iff_getElem?.mp href
      exact ⟨pos, i, h2, h1, treeAt_snoc' h1 hi⟩
    obtain ⟨hg', hw', hn'⟩ := C48_stays_good hg hw hn h
    obtain ⟨hren, _⟩ := resolve_renamed hg hw hn h
    constructor
    · intro p n ref rk hp href hk
      obtain ⟨pos, i, h2, h1, h3⟩ := hpos p n ref hp href
      obtain ⟨r', q, m, a1, a2, a3, a4, a5, a6⟩ := C48_resolved hg hw hn h h3 hk
      rw [List.dropLast_concat, h2] at a3
      have hq : ∀ {p u q}, Means root p u q → ∃ x, root.descend q = some x := by
        intro p u q hm
        cases hm with
        | absolute h _ => exact h
        | inDefinition _ _ hc _ => exact hc
        | inNamespace _ _ _ hc => exact hc
      obtain ⟨x, hx⟩ := hq a3
      refine ⟨q, x, a3, hx, ?_⟩
      have hnoat : ∀ k ∈ q, '@' ∉ k := by
        have : '@' ∉ pathText q := by rw [← a4]; exact dereferencify_noat _
        intro k hk hat
        apply this
        simp only [pathText, List.mem_flatMap]
        exact ⟨k, hk, List.mem_cons_of_mem _ hat⟩
      obtain ⟨m', b1, b2⟩ := (C48_lookup_unaffected hren q hnoat).1 x hx
      rw [a4, find_path hn' (descend_nodot hg hx), b1] at a5
      cases a5
      rw [← b2]; exact a6
    · intro p n a b ra rb q hp ha hb hak hbk hma hmb
      obtain ⟨pos, i, h2, h1, h3⟩ := hpos p n a hp ha
      obtain ⟨j, hj⟩ := List.mem_iff_getElem?.mp hb
      have h4 := treeAt_snoc' h1 hj
      obtain ⟨a', qa, _, a1, a2, a3, a4, _⟩ := C48_resolved hg hw hn h h3 hak
      obtain ⟨b', qb, _, b1, b2, b3, b4, _⟩ := C48_resolved hg hw hn h h4 hbk
      rw [List.dropLast_concat, h2] at a3 b3
      have ea := means_unique hg a3 hma
      have eb := means_unique hg b3 hmb
      subst ea
      subst eb
      obtain ⟨x, x1, x2⟩ := treeAt_parent a1
      obtain ⟨x', x1', y2⟩ := treeAt_parent b1
      rw [x1] at x1'; cases x1'
      have hname : a'.name = b'.name := by
        have wa := treeAt_wellNamed hw' a1
        have wb := treeAt_wellNamed hw' b1
        have ga := (treeAt_good hg' a1)
        have gb := (treeAt_good hg' b1)
        have e : a'.target = b'.target := a4.trans b4.symm
        cases wa with
        | node _ h _ => exact absurd a2 (h _)
        | @ref ba _ =>
          cases wb with
          | node _ h _ => exact absurd b2 (h _)
          | @ref bb _ =>
            simp only [Tree.target, Tree.name] at e ⊢
            have da : '.' ∉ ba := fun hm => ga.name (List.mem_cons_of_mem _ hm)
            have db : '.' ∉ bb := fun hm => gb.name (List.mem_cons_of_mem _ hm)
            rw [← referencify_dereferencify da, ← referencify_dereferencify db, e]
      have hnd := (treeAt_good hg' x1).nodup
      have hij : i = j := by
        obtain ⟨hi', ei⟩ := List.getElem?_eq_some_iff.mp x2
        obtain ⟨hj', ej⟩ := List.getElem?_eq_some_iff.mp y2
        have := (List.nodup_iff_injective_get.mp hnd) (a₁ := ⟨i, by simpa using hi'⟩) (a₂ := ⟨j, by simpa using hj'⟩) (by
          simp [ei, ej, hname])
        simpa using this
      subst hij
      rw [h3] at h4; cases h4; rfl
  · intro hok
    refine C48_accepted hg hw hn ?_ ?_ ?_
    · intro pos r rk h1 h2
      cases pos using List.reverseRecOn with
      | nil => simp only [treeAt, Option.some.injEq] at h1; subst h1; rw [hready.kind] at h2; cases h2
      | append_singleton pos i =>
        obtain ⟨n, n1, n2⟩ := treeAt_parent h1
        rw [List.dropLast_concat]
        exact hok.fits _ n r rk (descend_namesAt hg n1) (List.mem_of_getElem? n2) h2
    · intro pos i j r s rk sk q h1 h2 hrk hsk m1 m2
      obtain ⟨n, n1, n2⟩ := treeAt_parent h1
      obtain ⟨n', n1', n3⟩ := treeAt_parent h2
      rw [n1] at n1'; cases n1'
      have := hok.distinct _ n r s rk sk q (descend_namesAt hg n1) (List.mem_of_getElem? n2) (List.mem_of_getElem? n3) hrk hsk m1 m2
      subst this
      have hnd := (treeAt_good hg n1).nodup
      obtain ⟨hi', ei⟩ := List.getElem?_eq_some_iff.mp n2
      obtain ⟨hj', ej⟩ := List.getElem?_eq_some_iff.mp n3
      have := (List.nodup_iff_injective_get.mp hnd) (a₁ := ⟨i, by simpa using hi'⟩) (a₂ := ⟨j, by simpa using hj'⟩) (by simp [ei, ej])
      simpa using this
    · intro pos r rk h1 h2
      cases pos using List.reverseRecOn with
      | nil => simp only [treeAt, Option.some.injEq] at h1; subst h1; rw [hready.kind] at h2; cases h2
      | append_singleton pos i =>
        rw [List.dropLast_concat]
        obtain ⟨n, n1, n2⟩ := treeAt_parent h1
        have hd := descend_namesAt hg n1
        cases hp : namesAt root pos with
        | nil =>
          rw [hp] at hd
          simp only [Tree.descend, Option.some.injEq] at hd
          subst hd
          have h0 := hsh.kinds
          rw [hready.kind] at h0
          have h0 : childKinds root.children = [] := h0
          have := childKinds_mem (List.mem_of_getElem? n2) (by rw [h2]; simp)
          rw [h0] at this; cases this
        | cons k ks =>
          rw [hp] at hd
          exact enclosingNamespace_exists (s := [k]) (by simp) (shaped_namespace hsh hready.kind hd)

/-- C103 (from the merged tree). Once the definitions have been merged into one tree, a schema is accepted exactly if its names can be
resolved in that tree, and the tree with resolved names is well-formed. -/
theorem C103_accepted_iff_names {blocks : List PBlock} (hb : ∀ b ∈ blocks, PlainNames b) {t root : Tree} (ht : buildNodeTree blocks = .ok t)
    (hr : appendBuiltins t = .ok root) : (∃ a, BuildAst blocks (.ok a)) ↔
      NamesOk root ∧ ∀ r, resolveReferences root = .ok r → WellFormed r := by
  have hres : buildResolved blocks = resolveReferences root := by
    unfold buildResolved
    rw [ht]
    simp only [bind, Except.bind, hr]
  constructor
  · rintro ⟨a, ha⟩
    obtain ⟨s, _⟩ := buildAst_stages ha
    have h1 := s.h1
    refine ⟨(C103_names_iff hb ht hr).mp ⟨s.resolved, by rw [← hres]; exact h1⟩, fun r h => ?_⟩
    exact (C103_accepted_iff hb (by rw [hres]; exact h)).mp ⟨a, ha⟩
  · rintro ⟨h1, h2⟩
    obtain ⟨r, h⟩ := (C103_names_iff hb ht hr).mpr h1
    exact (C103_accepted_iff hb (by rw [hres]; exact h)).mpr (h2 r h)

/-- An accepted schema: its names can be resolved. -/
example : (∀ b ∈ astSample, PlainNames b) ∧ (∃ t root, buildNodeTree astSample = .ok t ∧ appendBuiltins t = .ok root) ∧
    (∃ r, buildResolved astSample = .ok r ∧ WellFormed r) ∧ ∃ a, BuildAst astSample (.ok a) := by
  have hp : ∀ b ∈ astSample, PlainNames b := by
    intro b hb
    simp only [astSample, List.mem_singleton] at hb
    subst hb
    refine ⟨by decide, by decide, by decide, by decide, ?_⟩
    intro a ha
    simp only [List.mem_singleton] at ha
    subst ha
    refine ⟨by decide, by decide, ?_⟩
    intro r hr
    simp only [List.mem_cons, List.not_mem_nil, or_false] at hr
    rcases hr with rfl | rfl | rfl
    · refine ⟨by decide, ?_⟩
      intro s f d h
      simp only [List.mem_cons, List.not_mem_nil, or_false, PResDeco.explicitReference.injEq] at h
      rcases h with ⟨rfl, rfl, rfl⟩ | ⟨rfl, rfl, rfl⟩ | ⟨rfl, rfl, rfl⟩ <;> decide
    · exact ⟨by decide, by simp⟩
    · exact ⟨by decide, by simp⟩
  have ha : ∃ a, BuildAst astSample (.ok a) := by
    have h : (match buildAst 300 astSample with | some (.ok _) => true | _ => false) = true := by decide +kernel
    cases hx : buildAst 300 astSample with
    | none => rw [hx] at h; cases h
    | some m =>
      cases m with
      | error e => rw [hx] at h; cases h
      | ok t => exact ⟨t, 300, hx⟩
  obtain ⟨a, ha⟩ := ha
  obtain ⟨s, _⟩ := buildAst_stages ha
  have h1 := s.h1
  refine ⟨hp, ?_, ⟨s.resolved, h1, (C103_accepted_iff hp h1).mp ⟨a, ha⟩⟩, a, ha⟩
  unfold buildResolved at h1
  obtain ⟨t, h2, h1⟩ := bind_ok h1
  obtain ⟨root, h3, _⟩ := bind_ok h1
  exact ⟨t, root, h2, h3⟩

/-- `namespace n { const u8 K = 1; } namespace n.K.m { archive A { r : raw_data; } }`: the archive lies below a constant to which no
field refers. -/
def constantCycle : List PBlock :=
  [{ name := ['n'], constants := [⟨['K'], .u8, 1⟩], structures := [], enumerations := [], archives := [] },
   { name := ['n', '.', 'K', '.', 'm'], constants := [], structures := [], enumerations := [], archives := [⟨['A'], [], [⟨['r'], [], .rawData⟩]⟩] }]

/-- All names of this schema can be resolved, but the archive depends on itself; so it is not accepted. -/
example : ∃ r, buildResolved constantCycle = .ok r ∧ ¬ Acyclic r ∧ ¬ WellFormed r ∧ ¬ ∃ a, BuildAst constantCycle (.ok a) := by
  have hp : ∀ b ∈ constantCycle, PlainNames b := by
    intro b hb
    simp only [constantCycle, List.mem_cons, List.not_mem_nil, or_false] at hb
    rcases hb with rfl | rfl
    · refine ⟨by decide, by decide, by decide, by decide, ?_⟩
      intro a ha; cases ha
    · refine ⟨by decide, by decide, by decide, by decide, ?_⟩
      intro a ha
      simp only [List.mem_singleton] at ha
      subst ha
      refine ⟨by decide, by decide, ?_⟩
      intro r hr
      simp only [List.mem_singleton] at hr
      subst hr
      exact ⟨by decide, by simp⟩
  have h1 : (match buildResolved constantCycle >>= appendConstantRefs with
      | .ok c => decide (["n", "K"].map String.toList ∈ depChildren c (["n", "K", "m", "A"].map String.toList) ∧
          ["n", "K", "m"].map String.toList ∈ depChildren c (["n", "K"].map String.toList) ∧
          ["n", "K", "m", "A"].map String.toList ∈ depChildren c (["n", "K", "m"].map String.toList))
      | .error _ => false) = true := by decide +kernel
  cases hr : buildResolved constantCycle with
  | error e => rw [hr] at h1; cases h1
  | ok r =>
    rw [hr] at h1
    simp only [bind, Except.bind] at h1
    cases hc : appendConstantRefs r with
    | error e => rw [hc] at h1; cases h1
    | ok c =>
      rw [hc] at h1
      simp only [decide_eq_true_eq] at h1
      obtain ⟨hl, hsh⟩ := buildResolved_linked hp hr
      have hn : ¬ Acyclic r := fun h => h _ (.tail (.tail (.single ((dependsOn_iff hl hsh hc _ _).mp h1.1))
        ((dependsOn_iff hl hsh hc _ _).mp h1.2.1)) ((dependsOn_iff hl hsh hc _ _).mp h1.2.2))
      exact ⟨r, rfl, hn, fun h => hn h.acyclic, fun h => hn ((C103_accepted_iff hp hr).mp h).acyclic⟩

end Props
