import Verif.Lemmas.GenTree

/-! # C46: sibling names are unique and paths unambiguous -/

namespace Props
open Gen Spec

/-- Inserting a node whose name is taken raises `SymbolRedefinition`, and leaves no other way: with a free name it
becomes the last child and nothing else changes. -/
theorem C46_insert (t u : Tree) :
    (u.name ∈ t.children.map Tree.name → t.insert u = .error (.symbolRedefinition u.name)) ∧
    (u.name ∉ t.children.map Tree.name →
      ∃ t', t.insert u = .ok t' ∧ t'.name = t.name ∧ t'.kind = t.kind ∧ t'.children = t.children ++ [u]) := by
  cases t with
  | mk n k cs =>
    simp only [Tree.insert, Tree.children]
    constructor
    · intro h; rw [if_pos h]; rfl
    · intro h; rw [if_neg h]; exact ⟨_, rfl, rfl, rfl, rfl⟩

/-- In every tree that arises by creation, insertion, erasure and renaming, siblings have different names. -/
theorem C46_siblings {t : Tree} (h : Grown t) {pos : List Nat} {n : Tree} (hn : treeAt t pos = some n) :
    (n.children.map Tree.name).Nodup := (treeAt_good (grown_good h) hn).nodup

/-- Looking up the path of any node returns that node. -/
theorem C46_find_path {t : Tree} (h : Grown t) {pos : List Nat} {n : Tree} (hn : treeAt t pos = some n) :
    t.find (pathAt t pos) = .ok n := by
  have hg := grown_good h
  unfold pathAt
  rw [find_eq (splitDot_path hg.name (namesAt_nodot hg pos))]
  exact ⟨rfl, descend_namesAt hg hn⟩

/-- Distinct nodes have distinct paths. -/
theorem C46_path_injective {t : Tree} (h : Grown t) {p q : List Nat} {m n : Tree} (hp : treeAt t p = some m)
    (hq : treeAt t q = some n) (he : pathAt t p = pathAt t q) : p = q := by
  have hg := grown_good h
  refine namesAt_inj hg hp hq ?_
  have h1 := splitDot_path hg.name (namesAt_nodot hg p)
  have h2 := splitDot_path hg.name (namesAt_nodot hg q)
  unfold pathAt at he
  rw [he, h2] at h1
  injection h1 with _ h1
  exact h1.symm

/-- A lookup only finds nodes of that path; without such a node it raises `RuntimeError`. -/
theorem C46_find_sound (t : Tree) (path : Text) :
    (∃ pos n, treeAt t pos = some n ∧ pathAt t pos = path ∧ t.find path = .ok n) ∨ t.find path = .error .runtimeError := by
  cases hs : splitDot path with
  | nil => exact absurd hs (splitDot_ne_nil path)
  | cons k ks =>
    by_cases hk : t.name = k
    · cases hd : t.descend ks with
      | none => right; simp [Tree.find, hs, hk, hd, throw, throwThe, MonadExceptOf.throw]
      | some n =>
        left
        obtain ⟨pos, h1, h2⟩ := descend_treeAt hd
        refine ⟨pos, n, h1, ?_, (find_eq hs).mpr ⟨hk, hd⟩⟩
        unfold pathAt
        rw [h2, hk]
        exact splitDot_join path k ks hs
    · right; simp [Tree.find, hs, hk, throw, throwThe, MonadExceptOf.throw]

/-- A node inserted at the top is found under its name, and everything found before is still found. -/
theorem C46_insert_found {t u t' : Tree} (ht : Grown t) (hu : Grown u) (h : t.insert u = .ok t') :
    t'.find (t.name ++ '.' :: u.name) = .ok u ∧
    ∀ path n, t.find path = .ok n → n ≠ t → t'.find path = .ok n := by
  have hg := grown_good ht
  have hgu := grown_good hu
  have hg' := good_insert hg hgu h
  obtain ⟨hfree, rfl⟩ := insert_ok h
  constructor
  · have := splitDot_path (w := t.name) (p := [u.name]) hg.name (by simpa using hgu.name)
    simp only [List.flatMap_cons, List.flatMap_nil, List.append_nil] at this
    rw [find_eq this]
    refine ⟨rfl, ?_⟩
    have hc := child_of_mem hg'.nodup (c := u) (by simp [Tree.children])
    simp only [Tree.descend, hc]
  · intro path n hn hne
    cases hs : splitDot path with
    | nil => exact absurd hs (splitDot_ne_nil path)
    | cons k ks =>
      rw [find_eq hs] at hn ⊢
      refine ⟨hn.1, ?_⟩
      cases ks with
      | nil => simp only [Tree.descend, Option.some.injEq] at hn; exact absurd hn.2.symm hne
      | cons j js =>
        have hn2 := hn.2
        simp only [Tree.descend] at hn2 ⊢
        cases hc : t.child j with
        | none => rw [hc] at hn2; cases hn2
        | some c =>
          rw [hc] at hn2
          obtain ⟨hm, rfl⟩ := child_some hc
          rw [child_of_mem hg'.nodup (c := c) (by simp [Tree.children] at hm ⊢; left; exact hm)]
          exact hn2

/-- A tree `.n.S` with two fields, one of which was renamed. -/
private def sampleTree : Tree :=
  .mk [] .root [.mk "n".toList .namespace [.mk "S".toList (.structure none)
    [.mk "a".toList (.field .none none none) [], .mk "z".toList (.field .none none none) []]]]

/-- The hypotheses are met: the sample tree is grown, and the lookup theorem applies to the second field. -/
example : Grown sampleTree ∧ treeAt sampleTree [0, 0, 1] = some (.mk "z".toList (.field .none none none) []) ∧
    pathAt sampleTree [0, 0, 1] = ".n.S.z".toList := by
  refine ⟨?_, rfl, by decide +kernel⟩
  have hn : Grown (.mk "n".toList .namespace []) := .node (name := "n".toList) (kind := .namespace) (by rfl)
  have hs : Grown (.mk "S".toList (.structure none) []) := .node (name := "S".toList) (kind := .structure none) (by rfl)
  have ha : Grown (.mk "a".toList (.field .none none none) []) :=
    .node (name := "a".toList) (kind := .field .none none none) (by rfl)
  have hb : Grown (.mk "b".toList (.field .none none none) []) :=
    .node (name := "b".toList) (kind := .field .none none none) (by rfl)
  have h1 := Grown.insert (p := []) (t' := .mk [] .root [.mk "n".toList .namespace []]) .root hn (by rfl)
  have h2 := Grown.insert (p := ["n".toList])
    (t' := .mk [] .root [.mk "n".toList .namespace [.mk "S".toList (.structure none) []]]) h1 hs (by rfl)
  have h3 := Grown.insert (p := ["n".toList, "S".toList])
    (t' := .mk [] .root [.mk "n".toList .namespace [.mk "S".toList (.structure none)
      [.mk "a".toList (.field .none none none) []]]]) h2 ha (by rfl)
  have h4 := Grown.insert (p := ["n".toList, "S".toList])
    (t' := .mk [] .root [.mk "n".toList .namespace [.mk "S".toList (.structure none)
      [.mk "a".toList (.field .none none none) [], .mk "b".toList (.field .none none none) []]]]) h3 hb (by rfl)
  exact Grown.rename (p := ["n".toList, "S".toList]) (old := "b".toList) (new := "z".toList) h4 (by decide) (by rfl)

end Props
