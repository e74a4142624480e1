import Verif.Lemmas.GenAgainRoot

/-! # Likeness is kept by inserting what the counterpart has (for C106) -/

namespace Gen
open Spec Props

/-- The way from `y` down to `z`, with no explicit references beside it; `Q` holds of everything below `y` on the way. -/
def Track (Q : Tree → Prop) : Tree → List Text → Tree → Prop
  | y, [], z => y = z
  | y, k :: ks, z => (∀ d ∈ y.children, d.kind ≠ .explicitReference) ∧ (y.children.map Tree.name).Nodup ∧
      ∃ d ∈ y.children, d.name = k ∧ Q d ∧ Track Q d ks z

theorem mem_setChild {x c' e : Tree} (h : e ∈ (x.setChild c').children) : e = c' ∨ e ∈ x.children := by
  cases x with
  | mk n k cs =>
    simp only [Tree.setChild, Tree.children, List.mem_map] at h
    obtain ⟨c, hc, rfl⟩ := h
    split
    · exact .inl rfl
    · exact .inr hc

theorem setChild_head (x c' : Tree) : (x.setChild c').name = x.name ∧ (x.setChild c').kind = x.kind := by
  cases x; exact ⟨rfl, rfl⟩

theorem setChild_like {x y c' d : Tree} (h : Like x y) (hd : d ∈ y.children) (hn : c'.kind = .explicitReference ∨ c'.name = d.name) (hl : Like c' d)
    (hk : ∀ w, c'.kind ≠ .ref (.enumeration (some w))) : Like (x.setChild c') y := by
  refine .intro (by rw [(setChild_head x c').2]; exact h.kind) ?_ ?_
  · intro c hc w hw
    rcases mem_setChild hc with rfl | hc
    · exact absurd hw (hk w)
    · exact h.widths c hc w hw
  · intro c hc
    rcases mem_setChild hc with rfl | hc
    · exact ⟨d, hd, hn, hl⟩
    · exact h.child hc

theorem insert_like {x y u x' d : Tree} (h : Like x y) (hi : x.insert u = .ok x') (hd : d ∈ y.children) (hn : u.name = d.name) (hl : Like u d)
    (hk : ∀ w, u.kind ≠ .ref (.enumeration (some w))) : Like x' y ∧ x'.name = x.name ∧ x'.kind = x.kind := by
  obtain ⟨_, rfl⟩ := insert_ok hi
  refine ⟨.intro h.kind ?_ ?_, rfl, rfl⟩
  · intro c hc w hw
    simp only [Tree.children, List.mem_append, List.mem_singleton] at hc
    rcases hc with hc | rfl
    · exact h.widths c hc w hw
    · exact absurd hw (hk w)
  · intro c hc
    simp only [Tree.children, List.mem_append, List.mem_singleton] at hc
    rcases hc with hc | rfl
    · exact h.child hc
    · exact ⟨d, hd, .inr hn, hl⟩

theorem insert_fresh_ok {x u : Tree} (h : u.name ∉ x.children.map Tree.name) : x.insert u = .ok (.mk x.name x.kind (x.children ++ [u])) := by
  cases x with
  | mk n k cs => simp only [Tree.insert, Tree.children] at h ⊢; rw [if_neg h]; rfl

theorem child_none_fresh {x : Tree} {k : Text} (h : x.child k = none) : k ∉ x.children.map Tree.name := by
  intro hm
  obtain ⟨c, hc, e⟩ := List.mem_map.mp hm
  unfold Tree.child at h
  have := List.find?_eq_none.mp h c hc
  simp [e] at this

/-- The counterpart of a child. -/
theorem Like.track {x y c d : Tree} (h : Like x y) (he : ∀ d ∈ y.children, d.kind ≠ .explicitReference) (hnd : (y.children.map Tree.name).Nodup)
    (hc : c ∈ x.children) (hd : d ∈ y.children) (hn : c.name = d.name) : Like c d := by
  obtain ⟨d', h1, h2, h3⟩ := h.child hc
  have : c.name = d'.name := by
    refine h2.resolve_left fun hx => ?_
    exact he d' h1 ((gist_explicit h3.kind).mp hx)
  have g1 := child_of_mem hnd h1
  have g2 := child_of_mem hnd hd
  rw [← this, hn, g2] at g1
  cases g1
  exact h3

section
variable {f : Tree → M Tree} {z : Tree} {P : Tree → Prop}
  (hf : ∀ x, Like x z → x.kind = .namespace → ∃ x', f x = .ok x' ∧ Like x' z ∧ x'.name = x.name ∧ x'.kind = x.kind ∧ P x')
include hf

theorem nested_like {ks : List Text} : ∀ {k : Text} {y : Tree}, y.name = k → y.kind = .namespace → '.' ∉ k → k ≠ [] →
    Track (fun d => d.kind = .namespace ∧ '.' ∉ d.name ∧ d.name ≠ []) y ks z →
    ∃ x, nestedNamespaces f k ks = .ok x ∧ Like x y ∧ x.name = k ∧ x.kind = .namespace ∧ ∃ e, x.descend ks = some e ∧ P e := by
  induction ks with
  | nil =>
    intro k y hn hk h1 h2 ht
    simp only [Track] at ht
    subst ht
    have hcr : Tree.create k .namespace = .ok (.mk k .namespace []) := by
      unfold Tree.create; rw [if_neg h1, if_neg h2]; rfl
    obtain ⟨x', e1, e2, e3, e4, e5⟩ := hf (.mk k .namespace []) (like_leaf (by rw [hk]; rfl) rfl) rfl
    refine ⟨x', ?_, e2, e3, e4, x', rfl, e5⟩
    unfold nestedNamespaces
    rw [hcr]; exact e1
  | cons k' ks ih =>
    intro k y hn hk h1 h2 ht
    obtain ⟨t1, t2, d, d1, d2, d3, d4⟩ := ht
    obtain ⟨x, e1, e2, e3, e4, e, e5, e6⟩ := ih d2 d3.1 (d2 ▸ d3.2.1) (d2 ▸ d3.2.2) d4
    have hcr : Tree.create k .namespace = .ok (.mk k .namespace []) := by
      unfold Tree.create; rw [if_neg h1, if_neg h2]; rfl
    have hins : (Tree.mk k .namespace []).insert x = .ok (.mk k .namespace [x]) := insert_fresh_ok (by simp [Tree.children])
    refine ⟨.mk k .namespace [x], ?_, ?_, rfl, rfl, e, ?_, e6⟩
    · unfold nestedNamespaces
      rw [e1, hcr]; exact hins
    · exact (insert_like (x := .mk k .namespace []) (like_leaf (by rw [hk]; rfl) rfl) hins d1 (e3.trans d2.symm) e2 (by rw [e4]; simp)).1
    · unfold Tree.descend
      have : (Tree.mk k .namespace [x]).child k' = some x := by rw [← e3]; exact child_of_mem (by simp [Tree.children]) (by simp [Tree.children])
      rw [this]; exact e5

theorem ensure_like {ks : List Text} : ∀ {x y : Tree}, Like x y → (x.children.map Tree.name).Nodup → Good x →
    Track (fun d => d.kind = .namespace ∧ '.' ∉ d.name ∧ d.name ≠ []) y ks z → (ks = [] → y.kind = .namespace) →
    ∃ x', x.ensureNamespace f ks = .ok x' ∧ Like x' y ∧ x'.name = x.name ∧ x'.kind = x.kind ∧ ∃ e, x'.descend ks = some e ∧ P e := by
  induction ks with
  | nil =>
    intro x y hl _ _ ht hk
    simp only [Track] at ht
    subst ht
    have hx : x.kind = .namespace := by
      have := gist_plain hl.kind (by rw [hk rfl]; rfl)
      rw [this, hk rfl]
    obtain ⟨x', e1, e2, e3, e4, e5⟩ := hf x hl hx
    refine ⟨x', ?_, e2, e3, e4, x', rfl, e5⟩
    unfold Tree.ensureNamespace
    rw [if_pos hx]; exact e1
  | cons k ks ih =>
    intro x y hl hnd hg ht _
    obtain ⟨t1, t2, d, d1, d2, d3, d4⟩ := ht
    unfold Tree.ensureNamespace
    cases hcd : x.child k with
    | none =>
      obtain ⟨c, e1, e2, e3, e4, e, e5, e6⟩ := nested_like hf d2 d3.1 (d2 ▸ d3.2.1) (d2 ▸ d3.2.2) d4
      have hins := insert_fresh_ok (x := x) (u := c) (by rw [e3]; exact child_none_fresh hcd)
      obtain ⟨g1, g2, g3⟩ := insert_like hl hins d1 (e3.trans d2.symm) e2 (by rw [e4]; simp)
      refine ⟨_, ?_, g1, g2, g3, e, ?_, e6⟩
      · simp only [e1]; exact hins
      · unfold Tree.descend
        have : (Tree.mk x.name x.kind (x.children ++ [c])).child k = some c := by
          rw [← e3]
          refine child_of_mem ?_ (by simp [Tree.children])
          simp only [Tree.children, List.map_append, List.map_cons, List.map_nil]
          rw [List.nodup_append]
          refine ⟨hnd, by simp, ?_⟩
          intro a ha b hb
          simp only [List.mem_singleton] at hb
          rw [hb, e3]
          rintro rfl
          exact child_none_fresh hcd ha
        rw [this]; exact e5
    | some c =>
      obtain ⟨hm, hname⟩ := child_some hcd
      have hlc := hl.track t1 t2 hm d1 (hname.trans d2.symm)
      have hgc := hg.children _ hm
      obtain ⟨c', e1, e2, e3, e4, e, e5, e6⟩ := ih hlc hgc.nodup hgc d4 (fun _ => d3.1)
      have hck : c'.kind = .namespace := by
        rw [e4]
        have := gist_plain hlc.kind (by rw [d3.1]; rfl)
        rw [this, d3.1]
      refine ⟨x.setChild c', ?_, setChild_like hl d1 (.inr (by rw [e3, hname, d2])) e2 (by rw [hck]; simp), (setChild_head _ _).1, (setChild_head _ _).2, e, ?_, e6⟩
      · simp only [e1]; rfl
      · unfold Tree.descend
        rw [child_setChild hcd (e3.trans hname), if_pos rfl]
        exact e5

end

theorem modify_like {f : Tree → M Tree} {z n : Tree} {Q : Tree → Prop} (hq : ∀ d, Q d → ∀ w, d.kind.gist ≠ Kind.gist (.ref (.enumeration w)))
    (hf : Like n z → ∃ n', f n = .ok n' ∧ Like n' z ∧ n'.name = n.name ∧ n'.kind = n.kind) {p : List Text} : ∀ {x y : Tree}, Like x y →
    Track Q y p z → x.descend p = some n → ∃ x', x.modifyAt f p = .ok x' ∧ Like x' y ∧ x'.name = x.name ∧ x'.kind = x.kind := by
  induction p with
  | nil =>
    intro x y hl ht hn
    simp only [Track] at ht
    subst ht
    simp only [Tree.descend, Option.some.injEq] at hn
    subst hn
    exact hf hl
  | cons k ks ih =>
    intro x y hl ht hn
    obtain ⟨t1, t2, d, d1, d2, d3, d4⟩ := ht
    unfold Tree.descend at hn
    cases hcd : x.child k with
    | none => rw [hcd] at hn; cases hn
    | some c =>
      rw [hcd] at hn
      obtain ⟨hm, hname⟩ := child_some hcd
      have hlc := hl.track t1 t2 hm d1 (hname.trans d2.symm)
      obtain ⟨c', e1, e2, e3, e4⟩ := ih hlc d4 hn
      refine ⟨x.setChild c', ?_, setChild_like hl d1 (.inr (by rw [e3, hname, d2])) e2 ?_, (setChild_head _ _).1, (setChild_head _ _).2⟩
      · unfold Tree.modifyAt
        rw [hcd]; simp only [e1]; rfl
      · intro w hw
        rw [e4] at hw
        exact hq d d3 (some w) (by rw [← hlc.kind, hw])

end Gen
