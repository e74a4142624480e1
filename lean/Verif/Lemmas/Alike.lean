import Verif.Spec.Alike
import Verif.Props.Archive

/-! # Opening one directory with two classes that are alike -/

namespace Props
open Py Spec Model

/-- Two attempts that do not give different results. -/
def Compatible (a b : String × M Loaded) : Prop := a.1 = b.1 ∧ ∀ x y, a.2 = .ok x → b.2 = .ok y → x = y

theorem ins_compatible {a b : String × M Loaded} {l l' : List (String × M Loaded)} (h : Compatible a b) (hl : List.Forall₂ Compatible l l') :
    List.Forall₂ Compatible (sortByName.ins a l) (sortByName.ins b l') := by
  induction hl with
  | nil => exact .cons h .nil
  | @cons c d l l' hcd hl ih =>
    simp only [sortByName.ins]
    rw [h.1, hcd.1]
    split
    · exact .cons h (.cons hcd hl)
    · exact .cons hcd ih

theorem sort_compatible {l l' : List (String × M Loaded)} (hl : List.Forall₂ Compatible l l') :
    List.Forall₂ Compatible (sortByName l) (sortByName l') := by
  unfold sortByName
  induction hl with
  | nil => exact .nil
  | cons h _ ih => exact ins_compatible h ih

theorem loadAll_compatible {l l' : List (String × M Loaded)} (hl : List.Forall₂ Compatible l l') {r r' : List (String × Loaded)}
    (h : loadAll l = .ok r) (h' : loadAll l' = .ok r') : r = r' := by
  induction hl generalizing r r' with
  | nil =>
    simp only [loadAll, pure, Except.pure, Except.ok.injEq] at h h'
    rw [← h, ← h']
  | @cons c d l l' hcd _ ih =>
    obtain ⟨cn, cr⟩ := c
    obtain ⟨dn, dr⟩ := d
    simp only [loadAll] at h h'
    obtain ⟨x, h1, h2⟩ := bind_ok_iff.mp h
    obtain ⟨xs, h3, h4⟩ := bind_ok_iff.mp h2
    obtain ⟨y, g1, g2⟩ := bind_ok_iff.mp h'
    obtain ⟨ys, g3, g4⟩ := bind_ok_iff.mp g2
    simp only [pure, Except.pure, Except.ok.injEq] at h4 g4
    rw [← h4, ← g4, hcd.2 x y h1 g1, ih h3 g3, show cn = dn from hcd.1]

theorem leaf_compatible {k : StorageKind} {node : Node} {name : String} {s s' : Sig} (h : Leaf s) (h' : Leaf s')
    {x y : Loaded} (hx : openResource k node name s = .ok x) (hy : openResource k node name s' = .ok y)
    (hc : openContainer k node name s = openContainer k node name s') : x = y := by
  rw [openResource_leaf h] at hx
  rw [openResource_leaf h', ← hc] at hy
  obtain ⟨b, h1, h2⟩ := bind_ok_iff.mp hx
  obtain ⟨b', g1, g2⟩ := bind_ok_iff.mp hy
  have key : ∀ (u v : String) (o o' : Bool), checkSchema k node name u o = .ok true → checkSchema k node name v o' = .ok false → False := by
    intro u v o o' h1 h2
    obtain ⟨m1, m2⟩ := checkSchema_true_iff.mp h1
    have := (checkSchema_false_iff.mp h2).2
    unfold SchemaAbsent at this
    rw [m2] at this
    rcases this with h | ⟨_, h⟩
    · cases h
    · simp only [Option.some.injEq, Node.file.injEq] at h
      exact encodeUtf8_ne_nil m1 h
  cases b <;> cases b'
  · simp [pure, Except.pure] at h2 g2; rw [← h2, ← g2]
  · exact (key _ _ _ _ g1 h1).elim
  · exact (key _ _ _ _ h1 g1).elim
  · simp only [if_true] at h2 g2
    rw [h2] at g2; cases g2; rfl

mutual
theorem alike_open {k : StorageKind} {node : Node} {name : String} : ∀ {s s' : Sig}, Alike s s' → ∀ {x y : Loaded},
    openResource k node name s = .ok x → openResource k node name s' = .ok y → x = y
  | _, _, .instance, _, _, hx, hy => by exact leaf_compatible (by trivial) (by trivial) hx hy rfl
  | _, _, .vector, _, _, hx, hy => by exact leaf_compatible (by trivial) (by trivial) hx hy rfl
  | _, _, .multivector, _, _, hx, hy => by exact leaf_compatible (by trivial) (by trivial) hx hy rfl
  | _, _, .rawData, _, _, hx, hy => by exact leaf_compatible (by trivial) (by trivial) hx hy rfl
  | .sub n a rs u o, .sub _ a' rs' u' _, .sub h, x, y, hx, hy => by
    simp only [openResource] at hx hy
    obtain ⟨f, h1, h2⟩ := bind_ok_iff.mp hx
    obtain ⟨f', g1, g2⟩ := bind_ok_iff.mp hy
    rw [h1] at g1; cases g1
    cases f with
    | none => simp [pure, Except.pure] at h2 g2; rw [← h2, ← g2]
    | bytes b => cases h2
    | storage child =>
      obtain ⟨l, h3, h4⟩ := bind_ok_iff.mp h2
      obtain ⟨l', g3, g4⟩ := bind_ok_iff.mp g2
      have := loadAll_compatible (sort_compatible (alikeAll_open h)) h3 g3
      subst this
      have hlen : rs.length = rs'.length := alikeAll_length h
      rw [hlen, g4] at h4
      cases h4; rfl
theorem alikeAll_open {k : StorageKind} {node : Node} : ∀ {rs rs' : List (String × Sig)}, AlikeAll rs rs' →
    List.Forall₂ Compatible (openResources k node rs) (openResources k node rs')
  | _, _, .nil => .nil
  | _, _, .cons h hs => .cons ⟨rfl, fun _ _ hx hy => alike_open h hx hy⟩ (alikeAll_open hs)
theorem alikeAll_length : ∀ {rs rs' : List (String × Sig)}, AlikeAll rs rs' → rs.length = rs'.length
  | _, _, .nil => rfl
  | _, _, .cons _ hs => by simp [alikeAll_length hs]
end

end Props
