import Verif.Spec.Normal

/-!
# What readers and writers of an archive have to agree on
-/

namespace Spec
open Gen

/-- Where a field is and how it is read. -/
structure FieldLayout where
  name : Text
  offset : Option Nat
  width : Nat
  signed : Bool
  deriving DecidableEq

def fieldLayout (f : Tree) : Option FieldLayout :=
  match f.kind with
  | .field (.basic b) _ o => some ⟨f.name, o, b.width, b.name.isSigned⟩
  | .field (.enum _ b) _ o => some ⟨f.name, o, b.width, b.name.isSigned⟩
  | _ => none

/-- What a resource consists of: its class (with the width of the index of a multivector), whether it may be missing, the
structures and the archive it consists of. -/
structure ResourceLayout where
  name : Text
  kind : ResKind
  optional : Bool
  structures : List Text
  archives : List Text
  deriving DecidableEq

def resourceLayout (r : Tree) : Option ResourceLayout :=
  match r.kind with
  | .resource .bound _ _ => none
  | .resource k o _ => some ⟨r.name, k, o, (childrenOf r (.ref .structure)).map Tree.target, (childrenOf r (.ref .archive)).map Tree.target⟩
  | _ => none

/-- What a definition means. -/
inductive Meaning where
  | structure (name : Text) (sizeInBits : Option Nat) (fields : List FieldLayout)
  | enumeration (name : Text) (type : BasicName) (width : Nat) (values : List (Text × Option Int))
  | constant (name : Text) (type : BasicName) (value : Int)
  | archive (name : Text) (resources : List ResourceLayout) (groups : List (Text × List Text))
  deriving DecidableEq

/-- The meaning of the definition at a node. -/
def meaning (n : Tree) : Option Meaning :=
  match n.kind with
  | .structure size => some (.structure n.name size (n.children.filterMap fieldLayout))
  | .enumeration b => some (.enumeration n.name b.name b.width (n.children.filterMap enumValueRecord))
  | .constant b v => some (.constant n.name b.name v)
  | .archive => some (.archive n.name (n.children.filterMap resourceLayout) (n.children.filterMap boundRecord))
  | _ => none

/-- The node at a path is in a namespace called `_builtin`. -/
def InBuiltin (p : Path) : Prop := "_builtin".toList ∈ p.dropLast

instance (p : Path) : Decidable (InBuiltin p) := by unfold InBuiltin; infer_instance

end Spec
