import Verif.Lemmas.GenLinked

/-! # What the attribute-changing passes compute -/

namespace Gen
open Spec

/-- Dot-free, unique names and resolved references. -/
structure Lk (t : Tree) : Prop where
  good : Good t
  name : t.name = []
  refs : ∀ q r rk, t.descend q = some r → r.kind = .ref rk →
    ∃ p m, r.target = pathText p ∧ t.descend p = some m ∧ KindFits rk m.kind
  leaf : ∀ q r rk, t.descend q = some r → r.kind = .ref rk → r.children = []

theorem wellNamed_descend {t n : Tree} (h : WellNamed t) {q : Path} (hn : t.descend q = some n) : WellNamed n := by
  induction q generalizing t with
  | nil => simp only [Tree.descend, Option.some.injEq] at hn; exact hn ▸ h
  | cons k q ih =>
    simp only [Tree.descend] at hn
    cases hc : t.child k with
    | none => rw [hc] at hn; cases hn
    | some c =>
      rw [hc] at hn
      have hm := (child_some hc).1
      cases h with
      | ref => cases hm
      | node _ _ h3 => exact ih (h3 c hm) hn

theorem Linked.lk {t : Tree} (h : Linked t) : Lk t := ⟨h.good, h.name, h.refs, fun q r rk hr hk => by
  have := wellNamed_descend h.named hr
  cases this with
  | ref => rfl
  | node _ h2 _ => exact absurd hk (h2 rk)⟩

theorem blank_fits {rk : RefKind} {k k' : Kind} (h : k.blank = k'.blank) (hf : KindFits rk k) : KindFits rk k' := by
  cases rk <;> simp only [KindFits] at hf ⊢
  all_goals first
    | (obtain ⟨a, b, c, rfl⟩ := hf; cases k' <;> simp_all [Kind.blank])
    | (obtain ⟨a, b, rfl⟩ := hf; cases k' <;> simp_all [Kind.blank])
    | (obtain ⟨a, rfl⟩ := hf; cases k' <;> simp_all [Kind.blank])
    | (subst hf; cases k' <;> simp_all [Kind.blank])

theorem blank_ref {k : Kind} {rk : RefKind} : k.blank = .ref rk ↔ k = .ref rk := by
  cases k <;> simp [Kind.blank]

theorem SameBy.name {b : Kind → Kind} {t t' : Tree} (h : SameBy b t t') : t'.name = t.name := by
  obtain ⟨n, h1, h2, _⟩ := h.node (q := []) (n := t) rfl
  simp only [Tree.descend, Option.some.injEq] at h1
  rw [h1, h2]

theorem Lk.same {t t' : Tree} (h : Lk t) (hs : Same t t') (hg : Good t') : Lk t' := by
  refine ⟨hg, hs.name.trans h.name, ?_, fun q r rk hr hk => by
    obtain ⟨r0, h1, _, h3, h4⟩ := hs.symm.node hr
    rw [hk] at h3
    rw [h.leaf q r0 rk h1 (blank_ref.mp h3)] at h4
    simpa using h4.symm⟩
  intro q r rk hr hk
  obtain ⟨r0, h1, h2, h3, _⟩ := hs.symm.node hr
  rw [hk] at h3
  have h4 := blank_ref.mp h3
  obtain ⟨p, m, g1, g2, g3⟩ := h.refs q r0 rk h1 h4
  obtain ⟨m', m1, _, m2, _⟩ := hs.node g2
  refine ⟨p, m', ?_, m1, blank_fits m2.symm g3⟩
  rw [← g1, Tree.target, Tree.target, h2]

theorem Lk.target {t : Tree} (h : Lk t) {q : Path} {r : Tree} {rk : RefKind} (hr : t.descend q = some r) (hk : r.kind = .ref rk) :
    ∃ m, r.target = pathText r.targetPath ∧ t.descend r.targetPath = some m ∧ t.find r.target = .ok m ∧ KindFits rk m.kind := by
  obtain ⟨p, m, h1, h2, h3⟩ := h.refs q r rk hr hk
  have hd := descend_nodot h.good h2
  rw [targetPath_of hd h1]
  exact ⟨m, h1, h2, by rw [h1]; exact (find_path h.name hd).mpr h2, h3⟩

/-- A lookup by `find` is a lookup of the path. -/
theorem Lk.find {t : Tree} (h : Lk t) {q : Path} {r m : Tree} {rk : RefKind} (hr : t.descend q = some r) (hk : r.kind = .ref rk)
    (hf : t.find r.target = .ok m) : t.descend r.targetPath = some m := by
  obtain ⟨m', _, h2, h3, _⟩ := h.target hr hk
  rw [h3] at hf; cases hf; exact h2

/-! ## Passes over nodes -/

theorem foldlM_attr {b : Kind → Kind} {step : Tree → Path × Tree → M Tree} {S : Path × Tree → Kind → Prop} {t0 : Tree}
    {l : List (Path × Tree)}
    (hstep : ∀ r r' e, e ∈ l → Good r → SameBy b t0 r → kindAt r e.1 = some e.2.kind → step r e = .ok r' →
      Good r' ∧ SameBy b r r' ∧ ∃ k', (∀ q, kindAt r' q = if q = e.1 then some k' else kindAt r q) ∧ S e k') :
    ∀ {t t' : Tree}, (l.map (·.1)).Nodup → Good t → SameBy b t0 t → (∀ e ∈ l, kindAt t e.1 = some e.2.kind) → l.foldlM step t = .ok t' →
      Good t' ∧ SameBy b t t' ∧ (∀ q, q ∉ l.map (·.1) → kindAt t' q = kindAt t q) ∧ ∀ e ∈ l, ∃ k', kindAt t' e.1 = some k' ∧ S e k' := by
  induction l with
  | nil =>
    intro t t' _ hg _ _ h
    simp only [List.foldlM_nil, pure, Except.pure, Except.ok.injEq] at h
    subst h
    exact ⟨hg, .refl _, fun _ _ => rfl, by simp⟩
  | cons e l ih =>
    intro t t' hnd hg hs hk h
    simp only [List.foldlM_cons] at h
    obtain ⟨t1, h1, h⟩ := bind_ok h
    simp only [List.map_cons, List.nodup_cons] at hnd
    obtain ⟨a1, a2, k', a3, a4⟩ := hstep t t1 e (by simp) hg hs (hk e (by simp)) h1
    have hne : ∀ x ∈ l, x.1 ≠ e.1 := fun x hx he => hnd.1 (he ▸ List.mem_map.mpr ⟨x, hx, rfl⟩)
    obtain ⟨b1, b2, b3, b4⟩ := ih (fun r r' x hx => hstep r r' x (by simp [hx])) hnd.2 a1 (hs.trans a2)
      (fun x hx => by rw [a3, if_neg (hne x hx)]; exact hk x (by simp [hx])) h
    refine ⟨b1, a2.trans b2, ?_, ?_⟩
    · intro q hq
      simp only [List.map_cons, List.mem_cons, not_or] at hq
      rw [b3 q hq.2, a3, if_neg hq.1]
    · intro x hx
      rcases List.mem_cons.mp hx with rfl | hx
      · exact ⟨k', by rw [b3 _ hnd.1, a3, if_pos rfl], a4⟩
      · exact b4 x hx

/-! ## Field types -/

/-- The type of a field without basic type. -/
def EnumTyped (t : Tree) (e : Path × Tree) (k' : Kind) : Prop :=
  ∀ rg o, e.2.kind = .field .none rg o → ∃ ref ∈ e.2.children, ∃ w m bt, ref.kind = .ref (.enumeration w) ∧
    t.descend ref.targetPath = some m ∧ m.kind = .enumeration bt ∧ k' = .field (.enum ref.name bt) rg o ∧
    ∀ x, w = some x → x ≠ 0 → x = bt.width

theorem updateFieldType_spec {t r r' : Tree} {e : Path × Tree} (hl : Lk t) (he : t.descend e.1 = some e.2) (hg : Good r)
    (hs : SameBy Kind.untyped t r) (hk : kindAt r e.1 = some e.2.kind) (h : updateFieldType r e = .ok r') :
    Good r' ∧ SameBy Kind.untyped r r' ∧ ∃ k', (∀ q, kindAt r' q = if q = e.1 then some k' else kindAt r q) ∧
      (EnumTyped t e k' ∧ ((∀ rg o, e.2.kind ≠ .field .none rg o) → k' = e.2.kind)) := by
  have hsome : (r.descend e.1).isSome := by
    obtain ⟨n, h1, _⟩ := kindAt_some.mp hk; rw [h1]; rfl
  have hsame : Same t r := hs.mono blank_untyped
  unfold updateFieldType at h
  split at h
  · rename_i rg o hek
    split at h
    · cases h
    · rename_i ref rest hch
      have hmem : ref ∈ e.2.childrenLike Kind.isEnumerationReference := by rw [hch]; simp
      simp only [Tree.childrenLike, List.mem_filter] at hmem
      obtain ⟨n, hn, h⟩ := bind_ok h
      split at h
      · rename_i bt hnk
        obtain ⟨bt', hbt, h⟩ := bind_ok h
        have hbt' : bt' = bt := by
          unfold BasicType.create at hbt
          simp only [Option.getD_some] at hbt
          split at hbt
          · cases hbt
          · cases hbt; rfl
        subst hbt'
        simp only at h
        split at h
        · cases h
        obtain ⟨w, hw⟩ : ∃ w, ref.kind = .ref (.enumeration w) := by
          have := hmem.2
          cases hrk : ref.kind with
          | ref rk => cases rk <;> simp_all [Kind.isEnumerationReference]
          | _ => rw [hrk] at this; cases this
        -- where the reference points to
        have hrefd := descend_child hl.good he hmem.1
        obtain ⟨m, ht, hm, _, _⟩ := hl.target hrefd hw
        obtain ⟨m', hm', _, hmk, _⟩ := hsame.node hm
        have hfind : r.find ref.target = .ok m' := by
          rw [ht]
          exact (find_path (hs.name.trans hl.name) (descend_nodot hl.good hm)).mpr hm'
        rw [hfind] at hn; cases hn
        have hmk' : m.kind = .enumeration bt' := by
          rw [hnk] at hmk
          cases hmm : m.kind <;> rw [hmm] at hmk <;> simp [Kind.blank] at hmk
          rw [hmk]
        have key : (∀ x, w = some x → x ≠ 0 → x = bt'.width) → r' = r.setKind (.field (.enum ref.name bt') rg o) e.1 → 
            Good r' ∧ SameBy Kind.untyped r r' ∧ ∃ k', (∀ q, kindAt r' q = if q = e.1 then some k' else kindAt r q) ∧
              (EnumTyped t e k' ∧ ((∀ rg o, e.2.kind ≠ .field .none rg o) → k' = e.2.kind)) := by
          rintro hwx rfl
          refine ⟨(setKind_spec hg).1, setKind_same hg hk (by rw [hek]; rfl), _, setKind_kindAt hg hsome, ?_, ?_⟩
          · intro rg' o' hek'
            rw [hek] at hek'; cases hek'
            exact ⟨ref, hmem.1, w, m, bt', hw, hm, hmk', rfl, hwx⟩
          · intro hne; exact absurd hek (hne _ _)
        rw [hw] at h
        cases w with
        | none =>
          simp only [pure, Except.pure, Except.ok.injEq] at h
          exact key (by simp) h.symm
        | some x =>
          simp only at h
          split at h
          · cases h
          · rename_i hx
            simp only [pure, Except.pure, Except.ok.injEq] at h
            refine key ?_ h.symm
            intro y hy hy0
            cases hy
            simp only [not_and, not_not] at hx
            exact hx hy0
      · cases h
  · rename_i hne
    simp only [pure, Except.pure, Except.ok.injEq] at h
    subst h
    refine ⟨hg, .refl _, e.2.kind, ?_, ?_, fun _ => rfl⟩
    · intro q
      split
      · rename_i hq; rw [hq, hk]
      · rfl
    · intro rg o hek; exact absurd hek (hne rg o)

theorem updateFieldTypes_spec {t t' : Tree} (hl : Lk t) (h : updateFieldTypes t = .ok t') :
    Good t' ∧ SameBy Kind.untyped t t' ∧
    (∀ q k, kindAt t q = some k → (∀ rg o, k ≠ .field .none rg o) → kindAt t' q = some k) ∧
    (∀ q n rg o, t.descend q = some n → n.kind = .field .none rg o → ∃ ref ∈ n.children, ∃ w m bt, ref.kind = .ref (.enumeration w) ∧
      t.descend ref.targetPath = some m ∧ m.kind = .enumeration bt ∧ kindAt t' q = some (.field (.enum ref.name bt) rg o) ∧
      ∀ x, w = some x → x ≠ 0 → x = bt.width) := by
  have hmem : ∀ e ∈ t.nodesLike Kind.isField, t.descend e.1 = some e.2 ∧ e.2.kind.isField = true := by
    rintro ⟨p, n⟩ he; exact (mem_nodesLike hl.good).mp he
  obtain ⟨h1, h2, h3, h4⟩ := foldlM_attr (b := Kind.untyped) (t0 := t)
    (S := fun e k' => EnumTyped t e k' ∧ ((∀ rg o, e.2.kind ≠ .field .none rg o) → k' = e.2.kind))
    (fun r r' e he hg hs hk hh => updateFieldType_spec hl (hmem e he).1 hg hs hk hh)
    (nodesLike_nodup hl.good _) hl.good (.refl _)
    (fun e he => kindAt_some.mpr ⟨e.2, (hmem e he).1, rfl⟩) h
  refine ⟨h1, h2, ?_, ?_⟩
  · intro q k hk hne
    obtain ⟨n, hn, rfl⟩ := kindAt_some.mp hk
    by_cases hf : n.kind.isField = true
    · obtain ⟨k', g1, g2⟩ := h4 (q, n) ((mem_nodesLike hl.good).mpr ⟨hn, hf⟩)
      rw [g1, g2.2 hne]
    · rw [h3 q, hk]
      intro hm
      obtain ⟨⟨p, m⟩, g1, g2⟩ := List.mem_map.mp hm
      simp only at g2; subst g2
      obtain ⟨g3, g4⟩ := hmem _ g1
      simp only at g3 g4
      rw [hn] at g3; cases g3; exact hf g4
  · intro q n rg o hn hk
    obtain ⟨k', g1, g2⟩ := h4 (q, n) ((mem_nodesLike hl.good).mpr ⟨hn, by rw [hk]; rfl⟩)
    obtain ⟨ref, a1, w, m, bt, a2, a3, a4, rfl, a6⟩ := g2.1 rg o hk
    exact ⟨ref, a1, w, m, bt, a2, a3, a4, g1, a6⟩

end Gen
