import Verif.Model.Gen.Tree

/-!
# What a node of a syntax tree and its path are, without referring to lookups

A node is identified by its position: which child to take at every step. Its path is built from the names on the way.
-/

namespace Spec
open Gen

/-- The node at a position. -/
def treeAt : Tree → List Nat → Option Tree
  | t, [] => some t
  | t, i :: is => match t.children[i]? with
    | some c => treeAt c is
    | none => none

/-- The names on the way from below the top to the position. -/
def namesAt : Tree → List Nat → List Text
  | _, [] => []
  | t, i :: is => match t.children[i]? with
    | some c => c.name :: namesAt c is
    | none => []

/-- The path of the node at a position: the name of the top, then for every step a dot and a name. -/
def pathAt (t : Tree) (pos : List Nat) : Text := t.name ++ (namesAt t pos).flatMap fun n => '.' :: n

/-- Names contain no dot, and siblings have different names. -/
inductive Good : Tree → Prop
  | mk {n k cs} : '.' ∉ n → (cs.map Tree.name).Nodup → (∀ c ∈ cs, Good c) → Good (.mk n k cs)

/-- Trees that arise by creating nodes and by inserting, erasing and renaming nodes anywhere. -/
inductive Grown : Tree → Prop
  | node {name kind t} : Tree.create name kind = .ok t → Grown t
  | root : Grown Tree.root
  | insert {t u p t'} : Grown t → Grown u → t.modifyAt (fun n => n.insert u) p = .ok t' → Grown t'
  | erase {t k p t'} : Grown t → t.modifyAt (fun n => n.erase k) p = .ok t' → Grown t'
  | rename {t old new p t'} : Grown t → '.' ∉ new → t.modifyAt (fun n => n.renameChild old new) p = .ok t' → Grown t'

end Spec
