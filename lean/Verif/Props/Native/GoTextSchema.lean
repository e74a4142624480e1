import Verif.Props.Native.GoTextSamples
import Verif.Props.Gen.NativeClasses

/-!
# C109: structures of a schema have plain names in Go
-/

namespace Props
open Py Spec Gen Model.Native

/-- C109 (names). The names that Go writes for the structures of an accepted schema are plain texts, as `C109_text` and `C109_structure`
demand. -/
theorem C109_names {s : Text} {t : Gen.Tree} (h : Compile s (.ok t)) {p : Path} {n : Gen.Tree} {sz : Option Nat} (hn : t.descend p = some n)
    (hk : n.kind = .structure sz) {g : GoStruct} (hg : goStructure n = .ok g) :
    PlainText n.name ∧ (∀ f ∈ g.members, PlainText f.name) ∧ ∀ x, goCase n.name = some x → ElementNames ⟨x, g.size, g.members⟩ := by
  have hc := compile_compiled h
  have ids : ∀ {q : Path} {m : Gen.Tree}, t.descend q = some m → (∀ rk, m.kind ≠ .ref rk) → m.kind ≠ .root → ∀ c ∈ m.name, IdChar c := by
    intro q m hm hr hroot
    rcases List.eq_nil_or_concat q with rfl | ⟨a, k, rfl⟩
    · simp only [Gen.Tree.descend, Option.some.injEq] at hm
      subst hm
      exact absurd hc.rootKind hroot
    · rw [List.concat_eq_append] at hm
      rw [descend_last hm]
      exact (hc.names hm hr k (by simp)).2
  have h1 := ids hn (by rw [hk]; simp) (by rw [hk]; simp)
  have h2 : ∀ f ∈ g.members, PlainText f.name := by
    intro f hf
    unfold goStructure at hg
    cases e1 : n.kind.sizeInBytes with
    | error e => rw [e1] at hg; cases hg
    | ok size =>
      cases e2 : n.fields.mapM goMember with
      | error e => rw [e1, e2] at hg; cases hg
      | ok ms =>
        rw [e1, e2] at hg
        cases hg
        obtain ⟨c, hcm, hce⟩ := Gen.mapM_mem e2 f hf
        obtain ⟨hcm, hck⟩ := List.mem_filter.mp hcm
        have hcd := descend_child hc.lk.good hn hcm
        have hname : f.name = c.name := by
          unfold goMember at hce
          simp only [bind, Except.bind] at hce
          repeat' split at hce
          all_goals first | (cases hce; done) | (cases hce; rfl)
        rw [hname]
        refine ident_plain (ids hcd ?_ ?_)
        · intro rk hrk; rw [hrk] at hck; cases hck
        · intro hrk; rw [hrk] at hck; cases hck
  exact ⟨ident_plain h1, h2, fun x hx => ⟨goCase_plain h1 hx, h2⟩⟩

end Props
