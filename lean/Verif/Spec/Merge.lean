import Verif.Model.Gen.Build

/-!
# What merging namespaces means
-/

namespace Spec
open Gen

mutual
/-- A definition without namespaces below it. (Namespaces below a definition arise if a namespace block is nested in the
path of a definition; they are not part of the definition.) -/
def definitionOf : Tree → Tree
  | .mk n k cs => .mk n k (definitionsIn cs)
/-- The definitions among the children of a node: what is not a namespace, in order. -/
def definitionsIn : List Tree → List Tree
  | [] => []
  | c :: cs => if c.kind = .namespace then definitionsIn cs else definitionOf c :: definitionsIn cs
end

/-- `ds` are the results of the constructor calls `cs`. -/
def Created (cs : List (M Tree)) (ds : List Tree) : Prop := List.Forall₂ (fun c d => c = .ok d) cs ds

end Spec

namespace Spec
open Gen

/-- The definition nodes of a namespace block in textual group order: constants, structures, enumerations, archives. -/
def definitionNodes (b : PBlock) : List Tree :=
  (b.constants.map createConstant ++ b.structures.map createStruct ++ b.enumerations.map createEnum ++
    b.archives.map createArchive).filterMap Except.toOption

/-- Every definition of the block can be created: none has an invalid width, value, or duplicate member. -/
def Valid (b : PBlock) : Prop :=
  (∀ c ∈ b.constants, ∃ t, createConstant c = .ok t) ∧ (∀ s ∈ b.structures, ∃ t, createStruct s = .ok t) ∧
  (∀ e ∈ b.enumerations, ∃ t, createEnum e = .ok t) ∧ (∀ a ∈ b.archives, ∃ t, createArchive a = .ok t)

/-- The definitions that all blocks of a given name contribute. -/
def contributions (blocks : List PBlock) (name : Text) : List Tree :=
  (blocks.filter fun b => b.name = name).flatMap definitionNodes

end Spec
