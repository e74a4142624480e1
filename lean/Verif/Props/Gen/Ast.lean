import Verif.Lemmas.GenStages
import Verif.Spec.Accepted
import Verif.Props.Gen.Enumeration

/-!
# C52-C55, C62, C64: what `build_ast` computes and checks

`BuildAst blocks (.ok t)` says that `build_ast` accepts the parsed definitions and returns the tree `t`.
-/

namespace Props
open Gen Spec

theorem forM_ok {α : Type} {f : α → M Unit} {l : List α} : l.forM f = .ok () ↔ ∀ a ∈ l, f a = .ok () := by
  induction l with
  | nil => simp [List.forM, pure, Except.pure]
  | cons a l ih =>
    have : (a :: l).forM f = (f a >>= fun _ => l.forM f) := rfl
    rw [this]
    constructor
    · intro h
      obtain ⟨u, h1, h2⟩ := bind_ok h
      intro x hx
      rcases List.mem_cons.mp hx with rfl | hx
      · exact h1
      · exact ih.mp h2 x hx
    · intro h
      rw [h a (by simp)]
      exact ih.mpr fun x hx => h x (by simp [hx])

/-! ## C52 -/

theorem limitBy_mono {t t' : Tree} (hl : Lk t) (hl' : Lk t') (hs : SameBy Kind.unlimited t t') {q : Path} {e e' : Tree}
    (he : t.descend q = some e) (he' : t'.descend q = some e') {p : Path} {l : Nat} (h : LimitBy t e p l) : LimitBy t' e' p l := by
  obtain ⟨f, f1, d, d1, fn, ty, rg, o, w, f2, f3, f4, f5, f6, d2, d3, rfl⟩ := h
  obtain ⟨f', g1, g2, g3, g4, _⟩ := hs.mem hl.good he he' f1
  obtain ⟨d', k1, k2, k3, _, _⟩ := hs.mem hl.good he he' d1
  have hf' : f'.kind = .ref .field := by
    rw [f2] at g3
    cases hk : f'.kind <;> rw [hk] at g3 <;> simp_all [Kind.unlimited]
  have hd' : d'.kind = d.kind := by
    rcases d2 with h | h <;> rw [h] at k3 ⊢ <;> cases hk : d'.kind <;> rw [hk] at k3 <;> simp_all [Kind.unlimited]
  obtain ⟨m, m1, m2, m3, _⟩ := hl.target g4 f2
  rw [m3] at f3; cases f3
  obtain ⟨fn', n1, _, n3, _⟩ := hs.node m2
  have hfind : t'.find f'.target = .ok fn' := by
    rw [Tree.target, g2, ← Tree.target, m1]
    exact (find_path hl'.name (descend_nodot hl.good m2)).mpr n1
  have hfk : fn'.kind = .field ty rg o := unlimited_field (by rw [n3, f4]; rfl)
  refine ⟨f', g1, d', k1, fn', ty, rg, o, w, hf', hfind, hfk, f5, f6, by rw [hd']; exact d2, ?_, rfl⟩
  rw [Tree.target, k2]; exact d3

theorem limit_mono {t t' : Tree} (hl : Lk t) (hl' : Lk t') (hs : SameBy Kind.unlimited t t') {p : Path} {l : Nat}
    (h : Limit t p l) : Limit t' p l := by
  obtain ⟨q, e, h1, h2, h3⟩ := h
  obtain ⟨e', g1, _, g3, _⟩ := hs.node h1
  refine ⟨q, e', g1, ?_, limitBy_mono hl hl' hs h1 g1 h3⟩
  rw [h2] at g3
  cases hk : e'.kind <;> rw [hk] at g3 <;> simp_all [Kind.unlimited]

/-- C52. The maximal size of every resource of an accepted schema is the least `2 ^ w` over all explicit references to it
whose field has `w ≠ 64` bits, and it is absent if there is none. -/
theorem C52_max_size {blocks : List PBlock} (hb : ∀ b ∈ blocks, PlainNames b) {t : Tree} (h : BuildAst blocks (.ok t))
    {p : Path} {n : Tree} {k : ResKind} {o : Bool} {m : Option Nat} (hn : t.descend p = some n) (hk : n.kind = .resource k o m) :
    Least (Limit t p) m := by
  obtain ⟨s, _⟩ := buildAst_stages h
  obtain ⟨_, hs, hm⟩ := s.maxSpec hb
  refine least_congr ?_ (hm p k o m (kindAt_some.mpr ⟨n, hn, hk⟩))
  intro l
  exact ⟨limit_mono (s.lkSized hb) (s.lkT hb) hs, limit_mono (s.lkT hb) (s.lkSized hb) hs.symm⟩

/-! ## C53 -/

theorem rangeName_some {k : Kind} {n : Text} : k.rangeName = some n ↔ n ≠ [] ∧ ∃ ty o, k = .field ty (some n) o := by
  cases k with
  | field ty rg o =>
    cases rg with
    | none => simp [Kind.rangeName]
    | some x =>
      cases x with
      | nil =>
        simp only [Kind.rangeName, reduceCtorEq, false_iff, not_and, not_exists]
        rintro hn ty' o' h
        simp only [Kind.field.injEq, Option.some.injEq] at h
        exact hn h.2.1.symm
      | cons c cs =>
        simp only [Kind.rangeName, Option.some.injEq, Kind.field.injEq]
        constructor
        · rintro rfl; exact ⟨by simp, ty, o, rfl, rfl, rfl⟩
        · rintro ⟨_, _, _, _, h, _⟩; exact h
  | _ => simp [Kind.rangeName]

theorem hasRange_iff {s : Tree} : s.hasRange = true ↔ HasRange s := by
  simp only [Tree.hasRange, Tree.fields, Tree.childrenLike, List.any_eq_true, List.mem_filter, HasRange]
  constructor
  · rintro ⟨f, ⟨h1, _⟩, h3⟩
    obtain ⟨n, hn⟩ := Option.isSome_iff_exists.mp h3
    obtain ⟨a, ty, o, h⟩ := rangeName_some.mp hn
    exact ⟨f, h1, ty, n, o, h, a⟩
  · rintro ⟨f, h1, ty, n, o, h, a⟩
    exact ⟨f, ⟨h1, by rw [h]; rfl⟩, by rw [rangeName_some.mpr ⟨a, ty, o, h⟩]; rfl⟩

theorem isField_iff {k : Kind} : k.isField = true ↔ ∃ ty rg o, k = .field ty rg o := by
  cases k <;> simp [Kind.isField]

/-- The checks of one tree are exactly the conditions. -/
theorem checkRanges_iff {t : Tree} (hl : Lk t) (hroot : t.kind.isField = false) :
    checkRanges t = .ok () ↔ RangesOk t ∧ RangeUseOk t := by
  have key : checkRanges t = .ok () ↔ (∀ e ∈ t.nodesLike Kind.isField, checkRangeField t e = .ok ()) ∧
      ∀ e ∈ t.nodesLike (fun k => k = .ref .structure), checkRangeReference t e = .ok () := by
    unfold checkRanges
    rw [← forM_ok, ← forM_ok]
    constructor
    · intro h
      obtain ⟨_, h1, h2⟩ := bind_ok h
      exact ⟨h1, h2⟩
    · rintro ⟨h1, h2⟩
      rw [h1]; exact h2
  rw [key]
  refine and_congr ?_ ?_
  · constructor
    · intro h p s f ty name o hs hf hfk hne
      have hd := descend_child hl.good hs hf
      have hc := h (p ++ [f.name], f) ((mem_nodesLike hl.good).mpr ⟨hd, by rw [hfk]; rfl⟩)
      unfold checkRangeField at hc
      simp only [rangeName_some.mpr ⟨hne, ty, o, hfk⟩, List.dropLast_concat, hs] at hc
      split at hc
      · cases hc
      · rename_i h1
        split at hc
        · cases hc
        · rename_i h2
          simp only [List.any_eq_true, decide_eq_true_eq, not_exists, not_and, Tree.fields, Tree.childrenLike,
            List.mem_filter, and_imp] at h1
          simp only [ne_eq, not_not, Tree.childrenLike, List.filter_eq_nil_iff, decide_eq_true_eq] at h2
          exact ⟨fun g hg gt gr go hgk => h1 g hg (by rw [hgk]; rfl), h2⟩
    · rintro h ⟨p, f⟩ he
      obtain ⟨hd, hk⟩ := (mem_nodesLike hl.good).mp he
      unfold checkRangeField
      simp only
      split
      · rfl
      · rename_i name hrn
        obtain ⟨hne, ty, o, hfk⟩ := rangeName_some.mp hrn
        rcases List.eq_nil_or_concat p with rfl | ⟨q, k, rfl⟩
        · simp only [Tree.descend, Option.some.injEq] at hd
          subst hd; rw [hroot] at hk; cases hk
        · rw [List.concat_eq_append] at hd
          obtain ⟨s, hs, hf, rfl⟩ := descend_parent hd
          simp only [List.concat_eq_append, List.dropLast_concat, hs]
          obtain ⟨a1, a2⟩ := h q s f ty name o hs hf hfk hne
          rw [if_neg, if_neg]
          · rfl
          · simp only [ne_eq, not_not, Tree.childrenLike, List.filter_eq_nil_iff, decide_eq_true_eq]; exact a2
          · simp only [List.any_eq_true, decide_eq_true_eq, not_exists, not_and, Tree.fields, Tree.childrenLike,
              List.mem_filter, and_imp]
            intro g hg hgf
            obtain ⟨gt, gr, go, hgk⟩ := isField_iff.mp hgf
            exact a1 g hg gt gr go hgk
  · constructor
    · intro h p r ref s k o m hr hrk href hrefk hfind hrange
      have hd := descend_child hl.good hr href
      have hc := h (p ++ [ref.name], ref) ((mem_nodesLike hl.good).mpr ⟨hd, by simp [hrefk]⟩)
      unfold checkRangeReference at hc
      simp only [hfind, bind, Except.bind] at hc
      obtain ⟨s', g1, _, g3, g4⟩ := hl.target hd hrefk
      rw [hfind] at g3; cases g3
      obtain ⟨sz, hsz⟩ := g4
      rw [if_pos ⟨by rw [hsz]; rfl, hasRange_iff.mpr hrange⟩] at hc
      simp only [List.dropLast_concat, hr] at hc
      split at hc
      · cases hc
      · rename_i hv
        rw [hrk] at hv
        cases k <;> simp_all [Kind.isResource, Kind.isVector]
    · rintro h ⟨p, ref⟩ he
      obtain ⟨hd, hk⟩ := (mem_nodesLike hl.good).mp he
      simp only [decide_eq_true_eq] at hk
      obtain ⟨s, g1, _, g3, g4⟩ := hl.target hd hk
      unfold checkRangeReference
      simp only [g3, bind, Except.bind]
      split
      · rename_i hsr
        rcases List.eq_nil_or_concat p with rfl | ⟨q, key, rfl⟩
        · simp only [List.dropLast_nil, Tree.descend]
          split
          · rename_i hbad
            simp only [Tree.descend, Option.some.injEq] at hd
            subst hd; rw [hk] at hbad; cases hbad.1
          · rfl
        · rw [List.concat_eq_append] at hd
          obtain ⟨r, hr, hrm, rfl⟩ := descend_parent hd
          simp only [List.concat_eq_append, List.dropLast_concat, hr]
          rw [if_neg]
          · rfl
          · rintro ⟨b1, b2⟩
            cases hrk : r.kind with
            | resource k o m =>
              have := h q r ref s k o m hr hrk hrm hk g3 (hasRange_iff.mp hsr.2)
              subst this
              rw [hrk] at b2; exact b2 rfl
            | _ => rw [hrk] at b1; cases b1
      · rfl

theorem rangesOk_mono {t t' : Tree} (hl : Lk t) (hl' : Lk t') (hs : Same t t') (h : RangesOk t) : RangesOk t' := by
  intro p s' f' ty name o hs' hf' hfk hne
  obtain ⟨s, s1, _⟩ := hs.symm.node hs'
  obtain ⟨f, f1, f2, f3, f4, f5⟩ := hs.symm.mem hl'.good hs' s1 hf'
  obtain ⟨_, ty0, o0, hf0⟩ := rangeName_some.mp ((blank_range f3).trans (rangeName_some.mpr ⟨hne, ty, o, hfk⟩))
  obtain ⟨a1, a2⟩ := h p s f ty0 name o0 s1 f1 hf0 hne
  constructor
  · intro g' hg' gt gr go hgk
    obtain ⟨g, g1, g2, g3, _⟩ := hs.symm.mem hl'.good hs' s1 hg'
    obtain ⟨gt0, gr0, go0, hg0⟩ := isField_iff.mp ((blank_isField g3).trans (by rw [hgk]; rfl))
    rw [← g2]
    exact a1 g g1 gt0 gr0 go0 hg0
  · intro c' hc' hck
    obtain ⟨c, c1, c2, c3, _⟩ := hs.symm.mem hl'.good f4 f5 hc'
    exact a2 c c1 (Same.ref_eq c3.symm hck)

theorem hasRange_mono {t t' : Tree} (hl' : Lk t') (hs : Same t t') {p : Path} {s s' : Tree}
    (h1 : t.descend p = some s) (h1' : t'.descend p = some s') (h : HasRange s') : HasRange s := by
  obtain ⟨f', hf', ty, name, o, hfk, hne⟩ := h
  obtain ⟨f, f1, _, f3, _⟩ := hs.symm.mem hl'.good h1' h1 hf'
  obtain ⟨_, ty0, o0, hf0⟩ := rangeName_some.mp ((blank_range f3).trans (rangeName_some.mpr ⟨hne, ty, o, hfk⟩))
  exact ⟨f, f1, ty0, name, o0, hf0, hne⟩

theorem rangeUseOk_mono {t t' : Tree} (hl : Lk t) (hl' : Lk t') (hs : Same t t') (h : RangeUseOk t) : RangeUseOk t' := by
  intro p r' ref' s' k o m hr' hrk href' hrefk hfind hrange
  obtain ⟨r, r1, _, r3, _⟩ := hs.symm.node hr'
  obtain ⟨ref, e1, e2, e3, e4, e5⟩ := hs.symm.mem hl'.good hr' r1 href'
  have hrefk0 : ref.kind = .ref .structure := Same.ref_eq e3.symm hrefk
  obtain ⟨s2, g1, g2, g3, _⟩ := hl'.target e4 hrefk
  rw [hfind] at g3; cases g3
  obtain ⟨s, k1, _⟩ := hs.symm.node g2
  have hrk0 : ∃ m0, r.kind = .resource k o m0 := by
    rw [hrk] at r3
    cases hk : r.kind <;> rw [hk] at r3 <;> simp_all [Kind.blank]
  obtain ⟨m0, hrk0⟩ := hrk0
  refine h p r ref s k o m0 r1 hrk0 e1 hrefk0 ?_ (hasRange_mono hl' hs k1 g2 hrange)
  rw [Tree.target, e2, ← Tree.target, g1]
  exact (find_path hl.name (descend_nodot hl.good k1)).mpr k1

/-- C53. In an accepted schema no range name equals the name of a field of the structure, no field with a range is
optional, and structures with ranges are used by vectors only. -/
theorem C53_ranges {blocks : List PBlock} (hb : ∀ b ∈ blocks, PlainNames b) {t : Tree} (h : BuildAst blocks (.ok t)) :
    RangesOk t ∧ RangeUseOk t := by
  obtain ⟨s, _⟩ := buildAst_stages h
  have hlc := s.linkedC hb
  obtain ⟨h1, h2⟩ := (checkRanges_iff hlc.lk (by rw [hlc.kind]; rfl)).mp s.h3
  exact ⟨rangesOk_mono hlc.lk (s.lkT hb) (s.sameCT hb) h1, rangeUseOk_mono hlc.lk (s.lkT hb) (s.sameCT hb) h2⟩

/-- C53 (exactness). On the tree on which ranges are checked (all names resolved), the check raises exactly if one of the
conditions is violated. -/
theorem C53_exact {blocks : List PBlock} (hb : ∀ b ∈ blocks, PlainNames b) {r c : Tree} (h1 : buildResolved blocks = .ok r)
    (h2 : appendConstantRefs r = .ok c) : checkRanges c = .ok () ↔ RangesOk c ∧ RangeUseOk c := by
  have hlc := (appendConstantRefs_spec (buildResolved_linked hb h1).1 h2).1
  exact checkRanges_iff hlc.lk (by rw [hlc.kind]; rfl)

/-! ## C54 -/

theorem fitsIn_iff (t : BasicType) (v : Int) (w : Nat) : (∃ k, t.bitsRequired v = .ok k ∧ k ≤ w) ↔ FitsIn t.name v w := by
  unfold FitsIn
  cases hs : t.name.isSigned with
  | true => simp only [if_true]; exact C40_signed t hs v w
  | false => simp only [Bool.false_eq_true, if_false]; exact C40_unsigned t hs v w

theorem text_injective {a b : BasicName} (h : a.text = b.text) : a = b := by
  revert h; cases a <;> cases b <;> decide

theorem isConstantReference_iff {k : Kind} : k.isConstantReference = true ↔ k = .ref .constantValue ∨ k = .ref .invalidValue := by
  cases k with
  | ref rk => cases rk <;> simp [Kind.isConstantReference, RefKind.isConstant]
  | _ => simp [Kind.isConstantReference]

/-- The types of fields have been determined, and names of enumeration types are those of references. -/
def Typed (t : Tree) : Prop := ∀ q ty rg o, kindAt t q = some (.field ty rg o) →
  (∃ b, ty = .basic b ∧ b.width ≤ b.name.width) ∨ ∃ body b, ty = .enum ('@' :: body) b ∧ b.width ≤ b.name.width

theorem typed_of_stages {blocks : List PBlock} {t : Tree} (s : Stages blocks t) (hb : ∀ b ∈ blocks, PlainNames b) : Typed s.typed := by
  intro q ty rg o hk
  have hlc := s.linkedC hb
  obtain ⟨_, h2, h3, h4⟩ := updateFieldTypes_spec hlc.lk s.h4
  obtain ⟨n, hn, hnk⟩ := kindAt_some.mp hk
  obtain ⟨c, c1, _, c3, _⟩ := h2.symm.node hn
  rw [hnk] at c3
  have hck : ∃ ty0, c.kind = .field ty0 rg o := by
    cases hc : c.kind <;> rw [hc] at c3 <;> simp_all [Kind.untyped]
  obtain ⟨ty0, hck⟩ := hck
  have hok := hlc.kindOk q c c1
  rw [hck] at hok
  rcases hok with ⟨_, rfl | ⟨b, rfl, hw⟩⟩
  · obtain ⟨ref, e1, w, m, bt, e2, e3, e4, e5, _⟩ := h4 q c rg o c1 hck
    rw [hk] at e5
    simp only [Option.some.injEq, Kind.field.injEq, and_true] at e5
    right
    have hw := wellNamed_descend hlc.named (descend_child hlc.good c1 e1)
    have hm := hlc.kindOk _ m e3
    rw [e4] at hm
    cases hw with
    | ref => exact ⟨_, bt, e5, hm⟩
    | node _ h _ => exact absurd e2 (h _)
  · left
    have := h3 q (.field (.basic b) rg o) (kindAt_some.mpr ⟨c, c1, hck⟩) (by simp)
    rw [hk] at this
    simp only [Option.some.injEq, Kind.field.injEq, and_true] at this
    exact ⟨b, this, hw⟩

theorem typed_final {blocks : List PBlock} {t : Tree} (s : Stages blocks t) (hb : ∀ b ∈ blocks, PlainNames b) : Typed t := by
  intro q ty rg o hk
  obtain ⟨n, hn, hnk⟩ := kindAt_some.mp hk
  obtain ⟨z, z1, _, z3, _⟩ := (s.maxSpec hb).2.1.symm.node hn
  obtain ⟨y, y1, _, y3, _⟩ := (s.sizedSpec hb).2.1.symm.node z1
  have hz : z.kind = .field ty rg o := unlimited_field (by rw [z3, hnk]; rfl)
  have hy : ∃ o', y.kind = .field ty rg o' := by
    rw [hz] at y3
    cases hc : y.kind <;> rw [hc] at y3 <;> simp_all [Kind.unsized]
  obtain ⟨o', hy⟩ := hy
  exact typed_of_stages s hb q ty rg o' (kindAt_some.mpr ⟨y, y1, hy⟩)

theorem at_most_one {t : Tree} {P : Tree → Bool} : (t.children.filter P).length ≤ 1 → (t.children.map Tree.name).Nodup →
    ∀ a ∈ t.children, ∀ b ∈ t.children, P a = true → P b = true → a = b := by
  intro h _ a ha b hb hpa hpb
  have h1 : a ∈ t.children.filter P := List.mem_filter.mpr ⟨ha, hpa⟩
  have h2 : b ∈ t.children.filter P := List.mem_filter.mpr ⟨hb, hpb⟩
  match hl : t.children.filter P, h with
  | [], _ => rw [hl] at h1; cases h1
  | [x], _ =>
    rw [hl] at h1 h2
    simp only [List.mem_singleton] at h1 h2
    rw [h1, h2]

theorem length_le_one {t : Tree} {P : Tree → Bool} (hnd : (t.children.map Tree.name).Nodup)
    (h : ∀ a ∈ t.children, ∀ b ∈ t.children, P a = true → P b = true → a = b) : (t.children.filter P).length ≤ 1 := by
  have hnd' : (t.children.filter P).Nodup := (List.Nodup.of_map _ hnd).filter _
  match hl : t.children.filter P with
  | [] => simp
  | [x] => simp
  | x :: y :: l =>
    have hx : x ∈ t.children.filter P := by rw [hl]; simp
    have hy : y ∈ t.children.filter P := by rw [hl]; simp
    rw [List.mem_filter] at hx hy
    have := h x hx.1 y hy.1 hx.2 hy.2
    rw [hl, this] at hnd'
    simp at hnd'

theorem checkConstRef_iff {t : Tree} (hl : Lk t) {q : Path} {f ref : Tree} {ty : FieldType} {rg : Option Text} {o : Option Nat}
    (hty : Typed t) (hf : t.descend q = some f) (hfk : f.kind = .field ty rg o) (hr : ref ∈ f.children)
    (hrk : ref.kind = .ref .constantValue ∨ ref.kind = .ref .invalidValue) :
    checkConstRef t ty ref = .ok () ↔ ∃ n b ct v, t.find ref.target = .ok n ∧ n.kind = .constant ct v ∧ ty = .basic b ∧
      b.name = ct.name ∧ FitsIn b.name v b.width := by
  have hd := descend_child hl.good hf hr
  have : ∃ n ct v, t.find ref.target = .ok n ∧ n.kind = .constant ct v := by
    rcases hrk with h | h
    · obtain ⟨n, _, _, h3, ct, v, h4⟩ := hl.target hd h; exact ⟨n, ct, v, h3, h4⟩
    · obtain ⟨n, _, _, h3, ct, v, h4⟩ := hl.target hd h; exact ⟨n, ct, v, h3, h4⟩
  obtain ⟨n, ct, v, hn, hnk⟩ := this
  unfold checkConstRef
  simp only [hn, hnk, bind, Except.bind]
  rcases hty q ty rg o (kindAt_some.mpr ⟨f, hf, hfk⟩) with ⟨b, rfl, _⟩ | ⟨body, b, rfl, _⟩
  · simp only [FieldType.nameText, FieldType.width, pure, Except.pure]
    by_cases hname : ct.name = b.name
    · rw [if_neg (by rw [hname]; simp)]
      have hfit := fitsIn_iff ct v b.width
      constructor
      · intro h
        cases hbits : ct.bitsRequired v with
        | error e => simp only [hbits] at h; cases h
        | ok k =>
          simp only [hbits] at h
          split at h
          · cases h
          · rename_i hle
            refine ⟨n, b, ct, v, rfl, hnk, rfl, hname.symm, ?_⟩
            rw [← hname]
            exact hfit.mp ⟨k, hbits, by omega⟩
      · rintro ⟨n', b', ct', v', h1, h2, h3, h4, h5⟩
        cases h1
        rw [hnk] at h2; cases h2
        cases h3
        rw [← hname] at h5
        obtain ⟨k, hk, hle⟩ := hfit.mpr h5
        simp only [hk]
        rw [if_neg (by omega)]
    · rw [if_pos (fun h => hname (text_injective h))]
      constructor
      · intro h; cases h
      · rintro ⟨n', b', ct', v', h1, h2, h3, h4, h5⟩
        cases h1
        rw [hnk] at h2; cases h2
        cases h3
        exact absurd h4.symm hname
  · simp only [FieldType.nameText, pure, Except.pure]
    rw [if_pos (by cases ct.name <;> simp [BasicName.text])]
    constructor
    · intro h; cases h
    · rintro ⟨n', b', ct', v', h1, h2, h3, h4, h5⟩
      cases h3

theorem checkConstRefs_iff {t : Tree} (hl : Lk t) (hty : Typed t) : checkConstRefs t = .ok () ↔ FieldConstantsOk t := by
  unfold checkConstRefs
  rw [forM_ok]
  have hone : ∀ {f : Tree}, Good f → ((f.childrenLike fun k => k = .ref .invalidValue).length ≤ 1 ↔
      ∀ a ∈ f.children, ∀ b ∈ f.children, a.kind = .ref .invalidValue → b.kind = .ref .invalidValue → a = b) := by
    intro f hg
    constructor
    · intro h a ha b hb h1 h2
      exact at_most_one h hg.nodup a ha b hb (by simpa using h1) (by simpa using h2)
    · intro h
      exact length_le_one hg.nodup fun a ha b hb h1 h2 => h a ha b hb (by simpa using h1) (by simpa using h2)
  have key : ∀ {q : Path} {f : Tree} {ty rg o}, t.descend q = some f → f.kind = .field ty rg o → (checkConstField t (q, f) = .ok () ↔
      (∀ ref ∈ f.children, ref.kind = .ref .constantValue ∨ ref.kind = .ref .invalidValue →
        ∃ n b ct v, t.find ref.target = .ok n ∧ n.kind = .constant ct v ∧ ty = .basic b ∧ b.name = ct.name ∧ FitsIn b.name v b.width) ∧
      ∀ a ∈ f.children, ∀ b ∈ f.children, a.kind = .ref .invalidValue → b.kind = .ref .invalidValue → a = b) := by
    intro q f ty rg o hf hfk
    rw [← hone (descend_good hl.good hf)]
    unfold checkConstField
    simp only [hfk]
    constructor
    · intro h
      obtain ⟨_, h1, h2⟩ := bind_ok h
      split at h2
      · cases h2
      · rename_i hlen
        refine ⟨?_, by omega⟩
        intro ref hr hrk
        exact (checkConstRef_iff hl hty hf hfk hr hrk).mp (forM_ok.mp h1 ref (List.mem_filter.mpr ⟨hr, isConstantReference_iff.mpr hrk⟩))
    · rintro ⟨h1, h2⟩
      have : (f.childrenLike Kind.isConstantReference).forM (checkConstRef t ty) = .ok () := by
        refine forM_ok.mpr ?_
        intro ref hr
        obtain ⟨hr, hrk⟩ := List.mem_filter.mp hr
        have hrk := isConstantReference_iff.mp hrk
        exact (checkConstRef_iff hl hty hf hfk hr hrk).mpr (h1 ref hr hrk)
      rw [this]
      simp only [bind, Except.bind]
      rw [if_neg (by omega)]
      rfl
  constructor
  · intro h p f ty rg o hf hfk
    exact (key hf hfk).mp (h (p, f) ((mem_nodesLike hl.good).mpr ⟨hf, by rw [hfk]; rfl⟩))
  · rintro h ⟨p, f⟩ he
    obtain ⟨hf, hk⟩ := (mem_nodesLike hl.good).mp he
    obtain ⟨ty, rg, o, hfk⟩ := isField_iff.mp hk
    exact (key hf hfk).mpr (h p f ty rg o hf hfk)

/-- C54. In an accepted schema every constant to which a field refers has the field's type and fits into the field, and
every field has at most one constant for "no value". -/
theorem C54_constants {blocks : List PBlock} (hb : ∀ b ∈ blocks, PlainNames b) {t : Tree} (h : BuildAst blocks (.ok t)) :
    FieldConstantsOk t := by
  obtain ⟨s, h7, _⟩ := buildAst_stages h
  exact (checkConstRefs_iff (s.lkT hb) (typed_final s hb)).mp h7

/-! ## Explicit references -/

theorem checkExplicit_iff {t : Tree} (hl : Lk t) (hroot : t.kind ≠ .explicitReference) :
    checkExplicitReferences t = .ok () ↔ ExplicitReferencesOk t := by
  unfold checkExplicitReferences
  rw [forM_ok]
  have key : ∀ {p : Path} {r e : Tree}, t.descend p = some r → (checkExplicitReference t (p ++ [e.name], e) = .ok () ↔
      ∀ ref ∈ e.children, ref.kind = .ref .structure → ∃ x ∈ r.children, x.kind = .ref .structure ∧ x.target = ref.target) := by
    intro p r e hr
    unfold checkExplicitReference
    simp only [List.dropLast_concat, hr]
    rw [forM_ok]
    have hm : ∀ x, x ∈ (r.childrenLike fun k => k = .ref .structure).map Tree.target ↔
        ∃ y ∈ r.children, y.kind = .ref .structure ∧ y.target = x := by
      intro x
      simp only [Tree.childrenLike, List.mem_map, List.mem_filter, decide_eq_true_eq, and_assoc]
    have he : ∀ x, x ∈ (e.childrenLike fun k => k = .ref .structure) ↔ x ∈ e.children ∧ x.kind = .ref .structure := by
      intro x
      simp only [Tree.childrenLike, List.mem_filter, decide_eq_true_eq]
    constructor
    · intro h ref h1 h2
      have := h ref ((he ref).mpr ⟨h1, h2⟩)
      split at this
      · rename_i hx; exact (hm _).mp hx
      · cases this
    · intro h ref h1
      obtain ⟨h1, h2⟩ := (he ref).mp h1
      rw [if_pos ((hm _).mpr (h ref h1 h2))]
      rfl
  constructor
  · intro h p r e ref hr he hek
    exact (key hr).mp (h (p ++ [e.name], e) ((mem_nodesLike hl.good).mpr ⟨descend_child hl.good hr he, by simp [hek]⟩)) ref
  · rintro h ⟨p, e⟩ hm
    obtain ⟨hd, hk⟩ := (mem_nodesLike hl.good).mp hm
    simp only [decide_eq_true_eq] at hk
    rcases List.eq_nil_or_concat p with rfl | ⟨q, k, rfl⟩
    · simp only [Tree.descend, Option.some.injEq] at hd
      subst hd; exact absurd hk hroot
    · rw [List.concat_eq_append] at hd ⊢
      obtain ⟨r, hr, hrm, rfl⟩ := descend_parent hd
      exact (key hr).mpr fun ref h1 h2 => h q r e ref hr hrm hk h1 h2

theorem final_root {blocks : List PBlock} {t : Tree} (s : Stages blocks t) (hb : ∀ b ∈ blocks, PlainNames b) : t.kind = .root := by
  obtain ⟨n, h1, _, h3, _⟩ := (s.sameCT hb).node (q := []) (n := s.constants) rfl
  simp only [Tree.descend, Option.some.injEq] at h1
  subst h1
  rw [(s.linkedC hb).kind] at h3
  cases hk : t.kind <;> rw [hk] at h3 <;> simp_all [Kind.blank]

/-- C54 (exactness). If all passes up to the computation of sizes succeed, with the tree `t`, then the schema is accepted
exactly if the conditions on constants and on explicit references hold. -/
theorem C54_exact {blocks : List PBlock} (hb : ∀ b ∈ blocks, PlainNames b) {t : Tree} (s : Stages blocks t) :
    BuildAst blocks (.ok t) ↔ FieldConstantsOk t ∧ ExplicitReferencesOk t := by
  have k1 := checkConstRefs_iff (s.lkT hb) (typed_final s hb)
  have k2 := checkExplicit_iff (s.lkT hb) (by rw [final_root s hb]; simp)
  constructor
  · intro h
    obtain ⟨_, h7, h8⟩ := buildAst_stages h
    exact ⟨k1.mp h7, k2.mp h8⟩
  · rintro ⟨h7, h8⟩
    exact s.accepted (k1.mpr h7) (k2.mpr h8)

/-- C65. In an accepted schema the structure named by an explicit reference is one of the types of the resource to which it
belongs. -/
theorem C65_explicit_references {blocks : List PBlock} (hb : ∀ b ∈ blocks, PlainNames b) {t : Tree} (h : BuildAst blocks (.ok t)) :
    ExplicitReferencesOk t := by
  obtain ⟨s, _, h8⟩ := buildAst_stages h
  exact (checkExplicit_iff (s.lkT hb) (by rw [final_root s hb]; simp)).mp h8

/-! ## C55 -/

/-- In a tree as it is built, constants are referred to by fields only. -/
theorem constantRef_parent {t : Tree} (hl : Linked t) (hsh : Shaped t) {p : Path} {ref : Tree} (hr : t.descend p = some ref)
    (hk : ref.kind.isConstantReference = true) : ∃ q f ty rg o, t.descend q = some f ∧ f.kind = .field ty rg o ∧ ref ∈ f.children ∧ p = q ++ [ref.name] := by
  rcases List.eq_nil_or_concat p with rfl | ⟨q, k, rfl⟩
  · simp only [Tree.descend, Option.some.injEq] at hr
    subst hr
    rw [hl.kind] at hk; cases hk
  · rw [List.concat_eq_append] at hr
    obtain ⟨f, hf, hm, rfl⟩ := descend_parent hr
    refine ⟨q, f, ?_⟩
    have hkinds := (shaped_descend hsh hf).kinds
    have hmem : ref.kind ∈ childKinds f.children := by
      simp only [childKinds, List.mem_filter, List.mem_map]
      refine ⟨⟨ref, hm, rfl⟩, ?_⟩
      cases hrk : ref.kind <;> rw [hrk] at hk <;> simp_all [Gen.Kind.isConstantReference]
    have hcases := isConstantReference_iff.mp hk
    generalize hcs : childKinds f.children = ks at hkinds hmem
    cases hfk : f.kind with
    | field ty rg o => exact ⟨ty, rg, o, hf, rfl, hm, List.concat_eq_append⟩
    | resource k o m =>
      exfalso
      rw [hfk] at hkinds
      cases k <;> simp only [ChildrenOk] at hkinds
      · obtain ⟨n, rfl⟩ := hkinds
        simp only [List.mem_append, List.mem_replicate, List.mem_singleton] at hmem
        rcases hcases with h | h <;> rw [h] at hmem <;> simp at hmem
      · obtain ⟨n, m, b, rfl⟩ := hkinds
        simp only [List.mem_append, List.mem_replicate] at hmem
        rcases hcases with h | h <;> rw [h] at hmem <;> simp at hmem
      · obtain ⟨n, rfl⟩ := hkinds
        simp only [List.mem_append, List.mem_replicate, List.mem_singleton] at hmem
        rcases hcases with h | h <;> rw [h] at hmem <;> simp at hmem
      · obtain ⟨n, rfl⟩ := hkinds
        simp only [List.mem_replicate] at hmem
        rcases hcases with h | h <;> rw [h] at hmem <;> simp at hmem
      · obtain ⟨n, rfl⟩ := hkinds
        simp only [List.mem_append, List.mem_replicate, List.mem_singleton] at hmem
        rcases hcases with h | h <;> rw [h] at hmem <;> simp at hmem
      · obtain ⟨n, rfl⟩ := hkinds
        simp only [List.mem_replicate] at hmem
        rcases hcases with h | h <;> rw [h] at hmem <;> simp at hmem
    | root => rw [hfk] at hkinds; simp only [ChildrenOk] at hkinds; rw [hkinds] at hmem; cases hmem
    | constant _ _ => rw [hfk] at hkinds; simp only [ChildrenOk] at hkinds; rw [hkinds] at hmem; cases hmem
    | enumValue _ _ => rw [hfk] at hkinds; simp only [ChildrenOk] at hkinds; rw [hkinds] at hmem; cases hmem
    | ref _ => rw [hfk] at hkinds; simp only [ChildrenOk] at hkinds; rw [hkinds] at hmem; cases hmem
    | explicitReference =>
      rw [hfk] at hkinds; simp only [ChildrenOk] at hkinds; rw [hkinds] at hmem
      rcases hcases with h | h <;> rw [h] at hmem <;> simp at hmem
    | «namespace» =>
      rw [hfk] at hkinds
      have := hkinds _ hmem
      rcases hcases with h | h <;> rw [h] at this <;> cases this
    | enumeration _ =>
      rw [hfk] at hkinds
      have := hkinds _ hmem
      rcases hcases with h | h <;> rw [h] at this <;> cases this
    | «structure» _ =>
      rw [hfk] at hkinds
      have := hkinds _ hmem
      rcases hcases with h | h <;> rw [h] at this <;> cases this
    | archive =>
      rw [hfk] at hkinds
      have := hkinds _ hmem
      rcases hcases with h | h <;> rw [h] at this <;> cases this

/-- In the resolved tree: the constants to which no reference points are those to which no field refers. -/
theorem mem_unreferenced {t : Tree} (hl : Linked t) (hsh : Shaped t) {c : Path} :
    c ∈ unreferenced t ↔ (∃ n ty v, t.descend c = some n ∧ n.kind = .constant ty v) ∧ ¬ FieldRefersTo t c := by
  simp only [unreferenced, List.mem_filter, List.mem_map, Prod.exists, exists_and_right, exists_eq_right, decide_not,
    Bool.not_eq_true', decide_eq_false_iff_not, mem_nodesLike hl.good]
  refine and_congr ?_ (not_congr ?_)
  · constructor
    · rintro ⟨n, h1, h2⟩
      cases hk : n.kind with
      | constant ty v => exact ⟨n, ty, v, h1, hk⟩
      | _ => rw [hk] at h2; cases h2
    · rintro ⟨n, ty, v, h1, h2⟩; exact ⟨n, h1, by rw [h2]; rfl⟩
  · constructor
    · rintro ⟨p, ref, ⟨h1, h2⟩, h3⟩
      obtain ⟨q, f, ty, rg, o, g1, g2, g3, _⟩ := constantRef_parent hl hsh h1 h2
      exact ⟨q, f, ref, g1, ⟨ty, rg, o, g2⟩, g3, isConstantReference_iff.mp h2, h3⟩
    · rintro ⟨p, f, ref, h1, _, h3, h4, h5⟩
      exact ⟨p ++ [ref.name], ref, ⟨descend_child hl.good h1 h3, isConstantReference_iff.mpr h4⟩, h5⟩

theorem fieldRefersTo_mono {t t' : Tree} (hg : Good t) (hs : Same t t') {c : Path} (h : FieldRefersTo t c) : FieldRefersTo t' c := by
  obtain ⟨p, f, ref, h1, ⟨ty, rg, o, h2⟩, h3, h4, h5⟩ := h
  obtain ⟨f', f1, _, f3, _⟩ := hs.node h1
  obtain ⟨r', r1, r2, r3, _⟩ := hs.mem hg h1 f1 h3
  refine ⟨p, f', r', f1, isField_iff.mp ((blank_isField f3).trans (by rw [h2]; rfl)), r1, ?_, by rw [Tree.target, r2]; exact h5⟩
  rcases h4 with h | h
  · exact .inl (Same.ref_eq r3.symm h)
  · exact .inr (Same.ref_eq r3.symm h)

/-- C55. In the tree of an accepted schema, every archive refers exactly to those constants to which no field refers. (What an
archive refers to becomes part of its schema, see C49 and C57.) -/
theorem C55_unreferenced_constants {blocks : List PBlock} (hb : ∀ b ∈ blocks, PlainNames b) {t : Tree} (h : BuildAst blocks (.ok t))
    {a : Path} {ar : Tree} (ha : t.descend a = some ar) (hak : ar.kind = .archive) {c : Path} {n : Tree} {ty : BasicType} {v : Int}
    (hc : t.descend c = some n) (hck : n.kind = .constant ty v) : RefersTo ar c ↔ ¬ FieldRefersTo t c := by
  obtain ⟨s, _⟩ := buildAst_stages h
  obtain ⟨hl, hsh⟩ := s.linked hb
  obtain ⟨hlc, hgrow, hback⟩ := appendConstantRefs_spec hl s.h2
  have hsame := s.sameCT hb
  have hgt := (s.maxSpec hb).1
  -- the archive and the constant in the resolved tree
  obtain ⟨ar1, a1, _, a3, _⟩ := hsame.symm.node ha
  have ha1k : ar1.kind = .archive := by
    rw [hak] at a3
    cases hk : ar1.kind <;> rw [hk] at a3 <;> simp_all [Kind.blank]
  obtain ⟨n1, c1, _, c3, _⟩ := hsame.symm.node hc
  have hc1k : n1.kind = .constant ty v := by
    rw [hck] at c3
    cases hk : n1.kind <;> rw [hk] at c3 <;> simp_all [Kind.blank]
  have horig : ∀ {q m}, s.constants.descend q = some m → (∀ rk, m.kind ≠ .ref rk) → ∃ m0, s.resolved.descend q = some m0 ∧ m.kind = m0.kind := by
    intro q m hm hk
    rcases hback q m hm with ⟨m0, h1, h2⟩ | ⟨_, _, _, _, _, _, _, _, h3⟩
    · exact ⟨m0, h1, h2⟩
    · exact absurd h3 (hk _)
  obtain ⟨ar0, b1, b2⟩ := horig a1 (by rw [ha1k]; simp)
  obtain ⟨n0, d1, d2⟩ := horig c1 (by rw [hc1k]; simp)
  -- fields refer to the same constants in both trees
  have hfields : FieldRefersTo t c ↔ FieldRefersTo s.resolved c := by
    constructor
    · intro hf
      obtain ⟨p, f, ref, h1, ⟨fty, rg, o, h2⟩, h3, h4, h5⟩ := fieldRefersTo_mono hgt hsame.symm hf
      obtain ⟨f0, f1, f2⟩ := horig h1 (by rw [h2]; simp)
      obtain ⟨f', ext, g1, _, g3, g4, g5⟩ := hgrow p f0 f1
      rw [h1] at g1; cases g1
      rw [if_neg (by rw [← f2, h2]; simp)] at g5
      subst g5
      simp only [List.append_nil] at g4
      have hmem : (ref.name, ref.kind) ∈ info f0 := by rw [← g4]; exact List.mem_map.mpr ⟨ref, h3, rfl⟩
      obtain ⟨ref0, r1, r2⟩ := List.mem_map.mp hmem
      simp only [Prod.mk.injEq] at r2
      exact ⟨p, f0, ref0, f1, ⟨fty, rg, o, f2.symm.trans h2⟩, r1, by rw [r2.2]; exact h4, by rw [Tree.target, r2.1]; exact h5⟩
    · rintro ⟨p, f0, ref0, h1, ⟨fty, rg, o, h2⟩, h3, h4, h5⟩
      obtain ⟨f', ext, g1, _, g3, g4, g5⟩ := hgrow p f0 h1
      have hmem : (ref0.name, ref0.kind) ∈ info f' := by rw [g4]; exact List.mem_append_left _ (List.mem_map.mpr ⟨ref0, h3, rfl⟩)
      obtain ⟨ref, r1, r2⟩ := List.mem_map.mp hmem
      simp only [Prod.mk.injEq] at r2
      exact fieldRefersTo_mono hlc.good hsame
        ⟨p, f', ref, g1, ⟨fty, rg, o, g3.trans h2⟩, r1, by rw [r2.2]; exact h4, by rw [Tree.target, r2.1]; exact h5⟩
  rw [hfields]
  -- the references of the archive
  obtain ⟨ar', ext, e1, _, e3, e4, e5⟩ := hgrow a ar0 b1
  rw [a1] at e1; cases e1
  rw [if_pos (b2.symm.trans ha1k)] at e5
  have hmemc : c ∈ unreferenced s.resolved ↔ ¬ FieldRefersTo s.resolved c := by
    rw [mem_unreferenced hl hsh]
    exact ⟨fun h => h.2, fun h => ⟨⟨n0, ty, v, d1, d2.symm.trans hc1k⟩, h⟩⟩
  rw [← hmemc]
  have hnoat : ∀ x ∈ unreferenced s.resolved, '@' ∉ pathText x ∧ ∀ k ∈ x, '.' ∉ k := by
    intro x hx
    obtain ⟨⟨m, mty, mv, m1, m2⟩, _⟩ := (mem_unreferenced hl hsh).mp hx
    exact ⟨pathText_noat (descend_noat hl.named m1 (by rw [m2]; simp)), descend_nodot hl.good m1⟩
  constructor
  · rintro ⟨ref, h1, h2, h3⟩
    obtain ⟨ref1, r1, r2, r3, r4, r5⟩ := hsame.symm.mem hgt ha a1 h1
    have hr1k := Same.ref_eq r3.symm h2
    have hmem : (ref1.name, ref1.kind) ∈ info ar0 ++ ext := by rw [← e4]; exact List.mem_map.mpr ⟨ref1, r1, rfl⟩
    rcases List.mem_append.mp hmem with hm | hm
    · -- archives have no constants in the resolved tree
      obtain ⟨ref0, q1, q2⟩ := List.mem_map.mp hm
      simp only [Prod.mk.injEq] at q2
      obtain ⟨q, f, fty, rg, o, g1, g2, g3, g4⟩ := constantRef_parent hl hsh (descend_child hl.good b1 q1)
        (isConstantReference_iff.mpr (.inl (q2.2.trans hr1k)))
      have hq : q = a := (List.append_inj_left' g4 rfl).symm
      subst hq
      rw [b1] at g1; cases g1
      rw [← b2, ha1k] at g2; cases g2
    · rw [e5] at hm
      obtain ⟨x, hx, hx2⟩ := List.mem_map.mp hm
      simp only [Prod.mk.injEq] at hx2
      have : ref.target = pathText x := by
        rw [Tree.target, ← r2, ← hx2.1, dereferencify_referencify (hnoat x hx).1]
      rw [h3] at this
      have := pathText_inj (descend_nodot hgt hc) (hnoat x hx).2 this
      rw [this]; exact hx
  · intro hcu
    have hmem : (referencify (pathText c), Kind.ref .constantValue) ∈ info ar1 := by
      rw [e4, e5]
      exact List.mem_append_right _ (List.mem_map.mpr ⟨c, hcu, rfl⟩)
    obtain ⟨ref1, r1, r2⟩ := List.mem_map.mp hmem
    simp only [Prod.mk.injEq] at r2
    obtain ⟨ref, q1, q2, q3, _⟩ := hsame.mem hlc.good a1 ha r1
    refine ⟨ref, q1, Same.ref_eq q3.symm r2.2, ?_⟩
    rw [Tree.target, q2, r2.1, dereferencify_referencify (hnoat c hcu).1]

/-! ## C62 -/

/-- C62. In an accepted schema every field begins where the fields declared before it end, and the size of every structure is
the sum of the widths of its fields; every field has at most 64 bits, as many as its type allows. -/
theorem C62_layout {blocks : List PBlock} (hb : ∀ b ∈ blocks, PlainNames b) {t : Tree} (h : BuildAst blocks (.ok t)) {p : Path}
    {n : Tree} (hn : t.descend p = some n) :
    (∀ sz, n.kind = .structure sz → LaidOut n) ∧
    ∀ ty rg o, n.kind = .field ty rg o → ∃ b, (ty = .basic b ∨ ∃ e, ty = .enum e b) ∧ b.width ≤ b.name.width := by
  obtain ⟨s, _⟩ := buildAst_stages h
  constructor
  · intro sz hk
    obtain ⟨g1, g2, _⟩ := s.maxSpec hb
    have hz := (s.sizedSpec hb).2.2.1 p
    refine laidOutAt_congr (s.sizedSpec hb).1 g1 g2 ?_ ?_ hz n sz hn hk
    · obtain ⟨z, z1, _, z3, _⟩ := g2.symm.node hn
      rw [kindAt, kindAt, hn, z1, Option.map_some, Option.map_some, hk]
      rw [hk] at z3
      cases hzk : z.kind <;> rw [hzk] at z3 <;> simp_all [Kind.unlimited]
    · intro k
      have := congrArg (Option.map fun x : Text × Kind × List Text => x.2.1.outline) (g2 (p ++ [k]))
      have hu : ∀ x : Kind, x.unlimited.outline = x.outline := by intro x; cases x <;> rfl
      simpa only [skel, Option.map_map, Function.comp_def, hu, kindAt] using this
  · intro ty rg o hk
    rcases typed_final s hb p ty rg o (kindAt_some.mpr ⟨n, hn, hk⟩) with ⟨b, h1, h2⟩ | ⟨e, b, h1, h2⟩
    · exact ⟨b, .inl h1, h2⟩
    · exact ⟨b, .inr ⟨_, h1⟩, h2⟩

/-! ## C64 -/

theorem lk_typed {blocks : List PBlock} (hb : ∀ b ∈ blocks, PlainNames b) {y : Tree} (h : buildTyped blocks = .ok y) : Lk y := by
  obtain ⟨r, c, h1, h2, _, h4⟩ := buildTyped_ok h
  have hlc := (appendConstantRefs_spec (buildResolved_linked hb h1).1 h2).1
  obtain ⟨g1, g2, _⟩ := updateFieldTypes_spec hlc.lk h4
  exact hlc.lk.same (g2.mono blank_untyped) g1

/-- C64. `build_ast` always ends, with exactly one outcome: a tree or an exception. -/
theorem C64_total {blocks : List PBlock} (hb : ∀ b ∈ blocks, PlainNames b) : ∃! out, BuildAst blocks out := by
  have hex : ∃ out, BuildAst blocks out := by
    unfold BuildAst
    unfold buildAst
    cases h : buildTyped blocks with
    | error e => exact ⟨.error e, 0, rfl⟩
    | ok y =>
      obtain ⟨n, out, hn⟩ := computeSizes_total (lk_typed hb h)
      cases out with
      | error e => exact ⟨.error e, n, by simp only [hn]⟩
      | ok z => exact ⟨finishAst z, n, by simp only [hn]⟩
  obtain ⟨out, hout⟩ := hex
  refine ⟨out, hout, ?_⟩
  rintro out' ⟨m, hm⟩
  obtain ⟨n, hn⟩ := hout
  unfold buildAst at hm hn
  cases h : buildTyped blocks with
  | error e =>
    simp only [h, Option.some.injEq] at hm hn
    rw [← hm, ← hn]
  | ok y =>
    simp only [h] at hm hn
    cases h1 : computeSizes n y with
    | none => rw [h1] at hn; cases hn
    | some a =>
      cases h2 : computeSizes m y with
      | none => rw [h2] at hm; cases hm
      | some b =>
        have := computeSizes_unique h1 h2
        subst this
        rw [h1] at hn
        rw [h2] at hm
        rw [hm] at hn
        exact Option.some.inj hn

theorem depChildren_same {t t' : Tree} (hg : Good t) (hg' : Good t') (hs : Same t t') (p : Path) : depChildren t' p = depChildren t p := by
  unfold depChildren
  cases h : t.descend p with
  | none => rw [hs.none.mpr h]
  | some n =>
    obtain ⟨n', h1, _, _, h4⟩ := hs.node h
    rw [h1]
    have key : ∀ (u x : Tree), Good u → u.descend p = some x →
        x.children.map (fun c => (c.name, c.kind.blank)) = (x.children.map Tree.name).map fun k => (k, ((kindAt u (p ++ [k])).map Kind.blank).getD .root) := by
      intro u x hu hx
      rw [List.map_map]
      apply List.map_congr_left
      intro c hcm
      simp only [Function.comp, kindAt, descend_child hu hx hcm, Option.map_some, Option.getD_some]
    have hinfo : n'.children.map (fun c => (c.name, c.kind.blank)) = n.children.map (fun c => (c.name, c.kind.blank)) := by
      rw [key t' n' hg' h1, key t n hg h, h4]
      apply List.map_congr_left
      intro k _
      have := congrArg (Option.map fun x : Text × Kind × List Text => x.2.1) (hs (p ++ [k]))
      simp only [skel, Option.map_map, Function.comp_def] at this
      simp only [kindAt, Option.map_map, Function.comp_def, this]
    have fil : ∀ (x : Tree) (P : Kind → Bool) (_ : ∀ k, P k.blank = P k) (f : Text → Path),
        (x.childrenLike P).map (fun c => f c.name) = ((x.children.map (fun c => (c.name, c.kind.blank))).filter fun y => P y.2).map fun y => f y.1 := by
      intro x P hP f
      rw [Tree.childrenLike, List.filter_map, List.map_map]
      congr 1
      apply List.filter_congr
      intro c _
      simp only [Function.comp, hP]
    have p1 : ∀ k : Kind, (!k.blank.isReference) = !k.isReference := by intro k; cases k <;> rfl
    have p2 : ∀ k : Kind, k.blank.isTypeReference = k.isTypeReference := by intro k; cases k <;> rfl
    have hleft : ∀ x : Tree, (x.childrenLike fun k => !k.isReference).map (fun c => p ++ [c.name]) =
        ((x.children.map (fun c => (c.name, c.kind.blank))).filter fun y => !y.2.isReference).map fun y => p ++ [y.1] :=
      fun x => fil x (fun k => !k.isReference) p1 (fun k => p ++ [k])
    have hright : ∀ x : Tree, (x.childrenLike Kind.isTypeReference).map Tree.targetPath =
        ((x.children.map (fun c => (c.name, c.kind.blank))).filter fun y => y.2.isTypeReference).map fun y => (splitDot (dereferencify y.1)).tail :=
      fun x => fil x Kind.isTypeReference p2 (fun k => (splitDot (dereferencify k)).tail)
    simp only
    rw [hleft n', hright n', hleft n, hright n, hinfo]

/-- C64 (no cycles). In an accepted schema no definition depends on itself: `depChildren t p` are the nodes contained in the
node at `p`, and the types to which it refers. -/
theorem C64_acyclic {blocks : List PBlock} (hb : ∀ b ∈ blocks, PlainNames b) {t : Tree} (h : BuildAst blocks (.ok t)) {p : Path}
    {n : Tree} (hn : t.descend p = some n) (hk : ∀ rk, n.kind ≠ .ref rk) : ¬ OnCycle (depChildren t) p := by
  obtain ⟨s, _⟩ := buildAst_stages h
  obtain ⟨g1, g2, _, g4⟩ := s.sizedSpec hb
  have hs : Same s.typed t := (g2.mono blank_unsized).trans ((s.maxSpec hb).2.1.mono blank_unlimited)
  have hdep : depChildren t = depChildren s.typed := funext fun q => depChildren_same (s.typedSame hb).1 (s.maxSpec hb).1 hs q
  rw [hdep]
  obtain ⟨m, h1, _, h3, _⟩ := hs.symm.node hn
  exact g4 p (all_reachable (s.lkTyped hb) p m h1 fun rk hrk => hk rk (Same.ref_eq h3 hrk))

/-! ## A schema that is accepted -/

/-- Limits, ranges, constants used and unused, an enumeration, a multivector and a bound group. -/
def astSample : List PBlock :=
  [{ name := "n.m".toList
     constants := [⟨"K".toList, .u8, 7⟩, ⟨"L".toList, .i16, -3⟩, ⟨"Z".toList, .u8, 31⟩]
     structures := [⟨"S".toList, [⟨"f".toList, [.invalidValue "K".toList, .constRef "Z".toList], "u8".toList, some 5⟩,
        ⟨"g".toList, [], "E".toList, none⟩, ⟨"h".toList, [], "u32".toList, some 20⟩]⟩,
      ⟨"T".toList, [⟨"a".toList, [.range "r".toList], "u64".toList, none⟩]⟩]
     enumerations := [⟨"E".toList, .u8, some 1, [("A".toList, none), ("B".toList, none)]⟩]
     archives := [⟨"R".toList, [("b".toList, ["v".toList, "t".toList])],
       [⟨"v".toList, [.explicitReference "S".toList "f".toList "t".toList, .explicitReference "S".toList "h".toList "t".toList,
           .explicitReference "S".toList "h".toList "v".toList], .vector ".n.m.S".toList⟩,
        ⟨"t".toList, [.optional], .vector "T".toList⟩,
        ⟨"w".toList, [], .multivector 33 ["S".toList]⟩]⟩] }]

def astSampleTree : Tree :=
  match buildAst 300 astSample with
  | some (.ok t) => t
  | _ => .mk [] .root []

/-- It meets the hypotheses of the theorems, it is accepted, and the computed attributes are these. -/
theorem astSample_ok : (∀ b ∈ astSample, PlainNames b) ∧ BuildAst astSample (.ok astSampleTree) ∧
    ((astSampleTree.iter []).filterMap fun e => match e.2.kind with
      | .resource _ _ m => some (e.2.name, m)
      | .structure s => some (e.2.name, s)
      | .field _ _ o => some (e.2.name, o)
      | _ => none) = ([("S", some 26), ("f", some 0), ("g", some 5), ("h", some 6), ("T", some 64), ("a", some 0),
        ("v", some (2 ^ 20)), ("t", some (2 ^ 5)), ("w", none), ("b", none), ("IndexType33", some 33), ("value", some 0)].map
        fun x => (x.1.toList, x.2)) ∧
    ((astSampleTree.descend ["n".toList, "m".toList, "R".toList]).map fun a => (a.children.map Tree.name).map String.ofList) =
      some ["v", "t", "w", "b", "@@n@m@L"] := by
  refine ⟨?_, ⟨300, ?_⟩, by decide +kernel, by decide +kernel⟩
  · intro b hb
    simp only [astSample, List.mem_singleton] at hb
    subst hb
    refine ⟨by decide, by decide, by decide, by decide, ?_⟩
    intro a ha
    simp only [List.mem_singleton] at ha
    subst ha
    refine ⟨by decide, by decide, ?_⟩
    intro r hr
    simp only [List.mem_cons, List.not_mem_nil, or_false] at hr
    rcases hr with rfl | rfl | rfl
    · refine ⟨by decide, ?_⟩
      intro s f d h
      simp only [List.mem_cons, List.not_mem_nil, or_false, PResDeco.explicitReference.injEq] at h
      rcases h with ⟨rfl, rfl, rfl⟩ | ⟨rfl, rfl, rfl⟩ | ⟨rfl, rfl, rfl⟩ <;> decide
    · exact ⟨by decide, by simp⟩
    · exact ⟨by decide, by simp⟩
  · have h : (match buildAst 300 astSample with | some (.ok _) => true | _ => false) = true := by decide +kernel
    unfold astSampleTree
    generalize buildAst 300 astSample = x at h
    match x, h with
    | some (.ok t), _ => rfl

end Props
