import Verif.Model.TarStorage

/-!
# Tar files of a directory tree
-/

namespace Spec
open Py Model

/-- The file or directory reached by following names. -/
def nodeAt : Node → List String → Option Node
  | node, [] => some node
  | node, n :: ns => match node.entry n with
    | some child => nodeAt child ns
    | none => none

/-- A name a directory entry can have. -/
def PlainName (n : String) : Prop := n ≠ "" ∧ n ≠ "." ∧ '/' ∉ n.toList

/-- A directory tree: all entries, at all levels, have plain names. -/
def PlainTree (root : Node) : Prop :=
  ∀ p e n x, nodeAt root p = some (.dir e) → e n = some x → PlainName n

/-- A path as text: `a/b/c`. -/
def pathText (p : List String) : List Char := List.intercalate ['/'] (p.map String.toList)

/-- `members`, with contents in `tarMap`, is a listing of the tree below `root`: every member is a file or directory of
the tree under its path, with or without a leading `./`, regular files with their contents, or it is the entry `.` of the
root itself; and every file and directory occurs. Order and repetitions are arbitrary. -/
structure TarOf (tarMap : Bytes) (members : List Member) (root : Node) : Prop where
  isDir : ∃ e, root = .dir e
  plain : PlainTree root
  sound : ∀ m ∈ members, (m.kind = .dir ∧ m.name = ['.']) ∨ ∃ p, p ≠ [] ∧
    (m.name = pathText p ∨ m.name = '.' :: '/' :: pathText p) ∧
    ((m.kind = .reg ∧ nodeAt root p = some (.file ((tarMap.drop m.offset).take m.size))) ∨
     (m.kind = .dir ∧ ∃ e, nodeAt root p = some (.dir e)))
  complete : ∀ p x, p ≠ [] → nodeAt root p = some x → ∃ m ∈ members,
    m.name = pathText p ∨ m.name = '.' :: '/' :: pathText p

end Spec
