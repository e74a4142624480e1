import Verif.Lemmas.GenAgainIndex

/-! # Adding the index types to the tree of a stored schema (for C106) -/

namespace Gen
open Spec Props

theorem info_mem {n c : Tree} (h : c ∈ n.children) : (c.name, c.kind) ∈ info n := List.mem_map.mpr ⟨c, h, rfl⟩

theorem mem_info {n : Tree} {x : Text × Kind} (h : x ∈ info n) : ∃ c ∈ n.children, c.name = x.1 ∧ c.kind = x.2 := by
  obtain ⟨c, hc, rfl⟩ := List.mem_map.mp h
  exact ⟨c, hc, rfl, rfl⟩

theorem appendBuiltin_like {t r : Tree} {p : Path} {w : Nat} {z x m rr n : Tree} (hi : IndexIn t p w z x m rr) (hl : Like r t) (hr : Ready r)
    (hn : r.descend p = some n) (hk : ∃ o mx, n.kind = .resource (.multivector w) o mx) (hno : indexRefs (info n) = []) :
    ∃ r', appendBuiltin r p w = .ok r' ∧ Like r' t ∧ ∃ e sz, r'.descend (builtinKeys p ++ [indexTypeName w]) = some e ∧ e.kind = .structure sz := by
  obtain ⟨o, mx, hk⟩ := hk
  obtain ⟨r1, h1, l1, n1, k1, e, d1, ⟨sz, c, hcm, hcn, hck⟩⟩ := ensure_like
    (f := fun n => do
      let builtin ← createStruct (indexTypeDef w)
      if (n.child builtin.name).isSome then pure n else n.insert builtin)
    (P := fun y => ∃ sz, ∃ c ∈ y.children, c.name = indexTypeName w ∧ c.kind = .structure sz) (z := z) (by
      intro y hy hyk
      simp only [indexType_accepted hi.small, bind, Except.bind]
      have hnm : (Tree.mk (indexTypeName w) (.structure none) [.mk "value".toList (indexField w) []]).name = indexTypeName w := rfl
      rw [hnm]
      cases hcd : y.child (indexTypeName w) with
      | some c =>
        obtain ⟨c1, c2⟩ := child_some hcd
        refine ⟨y, rfl, hy, rfl, rfl, ?_⟩
        have hlc := hy.track hi.plain hi.nodup c1 hi.type (c2.trans hi.typeName.symm)
        obtain ⟨sz, hsz⟩ := hi.typeKind
        have := hlc.kind
        rw [hsz] at this
        obtain ⟨sz', e⟩ := gist_structure this
        exact ⟨sz', c, c1, c2, e⟩
      | none =>
        have hins := insert_fresh_ok (x := y) (u := .mk (indexTypeName w) (.structure none) [.mk "value".toList (indexField w) []]) (child_none_fresh hcd)
        obtain ⟨g1, g2, g3⟩ := insert_like hy hins hi.type hi.typeName.symm hi.typeLike (by simp [Tree.kind])
        exact ⟨_, hins, g1, g2, g3, none, _, by simp [Tree.children]; exact .inr rfl, rfl, rfl⟩) hl hr.good.nodup hr.good hi.keys (by
      intro hb
      obtain ⟨_, _, hb'⟩ := builtinKeys_cons p
      rw [hb'] at hb; cases hb)
  have hg1 : Good r1 := ensure_good insert_builtin_good _ _ _ hr.good h1
  obtain ⟨n1, e1, a1, a2, a3, a4, a5⟩ := grows_ensure insert_builtin_appends hr.good h1 p n hn
  have a5 := a5 (by rw [hk]; simp)
  have hno1 : indexRefs (info n1) = [] := by rw [a4, indexRefs_append, hno, indexRefs_ns a5]; rfl
  have hwn := wellNamed_descend hr.named hn
  have hnref : ∀ rk, n.kind ≠ .ref rk := by rw [hk]; simp
  have hfresh : Like n1 m → indexRefName p w ∉ n1.children.map Tree.name := by
    intro hlm hmem
    obtain ⟨c, c1, c2⟩ := List.mem_map.mp hmem
    have hce : c.kind ≠ .explicitReference := by
      intro he
      have := info_mem c1
      rw [a4] at this
      rcases List.mem_append.mp this with hx | hx
      · obtain ⟨c', g1, g2, g3⟩ := mem_info hx
        have hw' : WellNamed c' := by
          cases hwn with
          | ref => cases g1
          | node _ _ hcs => exact hcs c' g1
        have : '@' ∉ c'.name := by
          cases hw' with
          | ref => rw [he] at g3; simp [Tree.kind] at g3
          | node h _ _ => exact h
        rw [g2, c2] at this
        exact this (by simp [indexRefName, referencify])
      · have := a5 _ hx
        rw [he] at this; cases this
    obtain ⟨d, d1, d2, d3⟩ := hlm.child c1
    have d2 := d2.resolve_left hce
    have g1 := child_of_mem hi.names d1
    have g2 := child_of_mem hi.names hi.ref
    rw [← d2, c2, ← hi.refName, g2] at g1
    cases g1
    have hkc := d3.kind
    rw [hi.refKind] at hkc
    have hkc := gist_ref_eq hkc (by simp)
    have : c.name ∈ indexRefs (info n1) := by
      unfold indexRefs
      exact List.mem_map.mpr ⟨(c.name, c.kind), List.mem_filter.mpr ⟨info_mem c1, by simpa using hkc⟩, rfl⟩
    rw [hno1] at this; cases this
  obtain ⟨r2, h2, l2, n2, k2⟩ := modify_like (f := fun n => n.insert (.mk (indexRefName p w) (.ref .builtinStructure) [])) (n := n1) (z := m)
    (Q := fun d => ∀ rk, d.kind ≠ .ref rk) (by
      intro d hd v he
      obtain ⟨rk, e, _⟩ := gist_ref he
      exact hd _ e) (by
      intro hlm
      have hins := insert_fresh_ok (x := n1) (u := .mk (indexRefName p w) (.ref .builtinStructure) []) (hfresh hlm)
      obtain ⟨g1, g2, g3⟩ := insert_like hlm hins hi.ref hi.refName.symm (like_leaf (by rw [hi.refKind]; rfl) rfl) (by simp [Tree.kind])
      exact ⟨_, hins, g1, g2, g3⟩) l1 hi.way a1
  have hmk : mkRef .builtinStructure (pathText (builtinKeys p ++ [(indexTypeDef w).name])) = .ok (.mk (indexRefName p w) (.ref .builtinStructure) []) := mkRef_eq _ _
  refine ⟨r2, ?_, l2, ?_⟩
  · unfold appendBuiltin
    rw [h1]
    simp only [hmk, bind, Except.bind]
    exact h2
  · have hd : r1.descend (builtinKeys p ++ [indexTypeName w]) = some c := by rw [← hcn]; exact descend_child hg1 d1 hcm
    obtain ⟨c', _, b1, _, b3, _⟩ := grows_insertAt hg1 h2 _ c hd
    exact ⟨c', sz, b1, b3.trans hck⟩

/-- The class of a new node. -/
def NewKind (n : Tree) : Prop := n.kind = .namespace ∨ n.kind = .ref .builtinStructure ∨ (∃ w, n.kind = indexField w) ∨ n.kind = .structure none

theorem NewNode.newKind {n : Tree} (h : NewNode n) : NewKind n := by
  rcases h with h | h | h | ⟨_, h, _⟩
  · exact .inl h
  · exact .inr (.inl h)
  · exact .inr (.inr (.inl h))
  · exact .inr (.inr (.inr h))

theorem NewKind.congr {n n' : Tree} (h : NewKind n) (hk : n'.kind = n.kind) : NewKind n' := by
  unfold NewKind at h ⊢
  rw [hk]; exact h

/-- The index types of several multivectors. -/
theorem foldlM_like {t t0 : Tree} {l : List (Path × Nat)} (hin : ∀ e ∈ l, ∃ z x m rr, IndexIn t e.1 e.2 z x m rr) : ∀ {r : Tree}, (l.map (·.1)).Nodup →
    (∀ e ∈ l, ∃ n o m, r.descend e.1 = some n ∧ n.kind = .resource (.multivector e.2) o m) →
    Indexed t0 (l.map (·.1)) r → Like r t → Ready r →
    ∃ r', l.foldlM (fun r e => appendBuiltin r e.1 e.2) r = .ok r' ∧ Like r' t ∧ Ready r' ∧ Back NewKind r r' ∧
      (∀ q n, r.descend q = some n → ∃ n', r'.descend q = some n' ∧ n'.kind = n.kind) ∧
      ∀ e ∈ l, ∃ y sz, r'.descend (builtinKeys e.1 ++ [indexTypeName e.2]) = some y ∧ y.kind = .structure sz := by
  induction l with
  | nil =>
    intro r _ _ _ hl hr
    exact ⟨r, rfl, hl, hr, fun q n' h => .inl ⟨n', h⟩, fun q n h => ⟨n, h, rfl⟩, by simp⟩
  | cons e l ih =>
    intro r hnd hmv hix hl hr
    rw [List.map_cons, List.nodup_cons] at hnd
    obtain ⟨z, x, m, rr, hi⟩ := hin e (by simp)
    obtain ⟨n, o, mx, hn, hk⟩ := hmv e (by simp)
    have hno := hix.refs _ _ _ _ _ hn hk
    rw [if_pos (by simp)] at hno
    obtain ⟨r1, h1, l1, y, sz, y1, y2⟩ := appendBuiltin_like hi hl hr hn ⟨o, mx, hk⟩ hno
    obtain ⟨i1, kp1, b1⟩ := appendBuiltin_indexed hix hnd.1 (hmv e (by simp)) h1
    have hr1 := appendBuiltin_ready hr (descend_noat hr.named hn (by rw [hk]; simp)) h1
    obtain ⟨r2, f1, f2, f3, f4, f5, f6⟩ := ih (fun e he => hin e (by simp [he])) hnd.2 (by
      intro e' he'
      obtain ⟨n, o, m, g1, g2⟩ := hmv e' (by simp [he'])
      obtain ⟨n', g3, g4⟩ := kp1 _ _ g1
      exact ⟨n', o, m, g3, g4.trans g2⟩) i1 l1 hr1
    refine ⟨r2, ?_, f2, f3, ?_, ?_, ?_⟩
    · rw [List.foldlM_cons, h1]; exact f1
    · intro q n' hq
      rcases f4 q n' hq with ⟨n1, hn1⟩ | hn
      · rcases b1 q n1 hn1 with hn | hn
        · exact .inl hn
        · obtain ⟨n2, g1, g2⟩ := f5 _ _ hn1
          rw [hq] at g1; cases g1
          exact .inr (hn.newKind.congr g2)
      · exact .inr hn
    · intro q n hq
      obtain ⟨n1, g1, g2⟩ := kp1 _ _ hq
      obtain ⟨n2, g3, g4⟩ := f5 _ _ g1
      exact ⟨n2, g3, g4.trans g2⟩
    · intro e' he'
      rcases List.mem_cons.mp he' with rfl | he'
      · obtain ⟨y', g1, g2⟩ := f5 _ _ y1
        exact ⟨y', sz, g1, g2.trans y2⟩
      · exact f6 e' he'

end Gen
