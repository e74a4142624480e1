import Verif.Model.Builder

/-!
# Histories of calls on an archive builder

A caller may catch the exceptions a call raises and go on, so a history continues after a failed call.
-/

namespace Spec
open Py Model

/-- A call a user can make on an archive builder. -/
inductive Call where
  | set (name : String) (value : Value)
  | finish
  deriving DecidableEq, Repr

/-- Performing one call. -/
def runCall (A : ArchiveType) (path : String) : Call → BM Unit
  | .set name value => setResource A path name value
  | .finish => finish

/-- The builder after a list of calls, whatever their outcomes. -/
def runCalls (A : ArchiveType) (path : String) : List Call → BState → BState
  | [], s => s
  | c :: cs, s => runCalls A path cs (runCall A path c s).2

/-- The calls with their outcomes: what the caller sees. -/
def outcomes (A : ArchiveType) (path : String) : List Call → BState → List (Call × M Unit)
  | [], _ => []
  | c :: cs, s => (c, (runCall A path c s).1) :: outcomes A path cs (runCall A path c s).2

/-- The builder right after its construction. -/
def newBuilder (A : ArchiveType) (path : String) : BState := (builderInit A path BState.initial).2

/-- The names of the files that belong to a resource: data and schema, for a multivector also the index and
its schema. -/
def ownedFiles (name : String) : Sig → List String
  | .multivector .. => [name, name ++ ".schema", name ++ "_index", name ++ "_index.schema"]
  | _ => [name, name ++ ".schema"]

/-- No two resources of the archive class have a name, or a file, in common. -/
def NoClash (A : ArchiveType) : Prop :=
  (A.resources.map (·.1)).Nodup ∧
  ∀ p ∈ A.resources, ∀ q ∈ A.resources, p.1 ≠ q.1 → ∀ n ∈ ownedFiles p.1 p.2, n ∉ ownedFiles q.1 q.2

/-- The dictionary has exactly the given keys. -/
def ExactKeys (keys : List String) (d : Dict) : Prop := ∀ k, k ∈ keys ↔ k ∈ d.map (·.1)

/-- Every dictionary in the value has exactly the fields of its structure, and every multivector element names
a declared structure. -/
def ValueExact : Sig → Value → Prop
  | .instance t _ _, .dict d => ExactKeys t.fieldKeys d
  | .vector t _ _, .list l => ∀ d ∈ l, ExactKeys t.fieldKeys d
  | .multivector _ ts _ _, .buckets l => ∀ b ∈ l, ∀ o ∈ b, ∃ t ∈ ts, t.name = o.name ∧ ExactKeys t.fieldKeys o.attributes
  | _, _ => True

end Spec
