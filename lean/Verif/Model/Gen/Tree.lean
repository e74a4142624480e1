import Verif.Model.Gen.Traversal

/-!
# Model of the syntax tree: `tree/nodes/node.py` and the node classes

Python nodes are mutable objects with parent pointers. Here a tree is a value; a node of a tree is identified by the
names on the way from the root to it (`Path`, without the name of the root itself); that this is unambiguous is C46.
Documentation strings are not modelled.
-/

namespace Gen

/-- The reference classes of `tree/nodes/references.py:43-100`; `EnumerationReference` has a width. -/
inductive RefKind where
  | resource
  | vector
  | field
  | structure
  | builtinStructure
  | archive
  | constantValue
  | invalidValue
  | enumeration (width : Option Nat)
  deriving DecidableEq, Repr

/-- references.py:64-100: the subclasses of `TypeReference`. -/
def RefKind.isType : RefKind → Bool
  | .structure | .builtinStructure | .archive | .constantValue | .invalidValue | .enumeration _ => true
  | _ => false

/-- references.py:80-88: the subclasses of `ConstantReference`. -/
def RefKind.isConstant : RefKind → Bool
  | .constantValue | .invalidValue => true
  | _ => false

/-- `field.type` (field.py:21-38 and builder.py:137-147): a basic type; an enumeration type (`EnumType` with the name of
the reference); or `None` as long as references are not resolved. -/
inductive FieldType where
  | basic (t : BasicType)
  | enum (name : Text) (t : BasicType)
  | none
  deriving DecidableEq, Repr

/-- The resource classes of `tree/nodes/resources`. -/
inductive ResKind where
  | vector
  | multivector (width : Nat)
  | instance
  | rawData
  | archive
  | bound
  deriving DecidableEq, Repr

/-- The node classes with the attributes the modelled code uses. -/
inductive Kind where
  | root
  | namespace
  | constant (type : BasicType) (value : Int)
  | enumeration (type : BasicType)
  | enumValue (value : Int) (autoGenerated : Bool)
  | structure (sizeInBits : Option Nat)
  | field (type : FieldType) (range : Option Text) (offset : Option Nat)
  | archive
  | resource (kind : ResKind) (isOptional : Bool) (maxSize : Option Nat)
  | explicitReference
  | ref (kind : RefKind)
  deriving DecidableEq, Repr

/-- node.py:34-40: a node: `_name`, class and attributes, `_children` (an ordered dictionary: the keys are the names of
the children). -/
inductive Tree where
  | mk (name : Text) (kind : Kind) (children : List Tree)

def Tree.name : Tree → Text
  | .mk n _ _ => n
def Tree.kind : Tree → Kind
  | .mk _ k _ => k
/-- node.py:49-54 `children`. -/
def Tree.children : Tree → List Tree
  | .mk _ _ cs => cs

/-- `isinstance(n, Namespace)`. -/
def Tree.isNamespace (t : Tree) : Bool := t.kind = .namespace

/-- node.py:34-40 `__init__` with its assertions. -/
def Tree.create (name : Text) (kind : Kind) : M Tree :=
  if '.' ∈ name then throw .assertionError
  else if name = [] then throw .assertionError
  else pure (.mk name kind [])

/-- root.py:5-7: the root has an empty name. -/
def Tree.root : Tree := .mk [] .root []

/-- Names from the root down to a node, without the name of the root. -/
abbrev Path := List Text

/-- node.py:20-25 `splitpath`: `path.split('.')`. -/
def splitDot : Text → List Text
  | [] => [[]]
  | c :: t =>
    if c = '.' then [] :: splitDot t
    else match splitDot t with
      | [] => [[c]]
      | w :: ws => (c :: w) :: ws

/-- node.py:78-85 `path` of a node in a tree whose root has the empty name. -/
def pathText (p : Path) : Text := p.flatMap fun n => '.' :: n

/-- The entry of `_children` under a name. -/
def Tree.child (t : Tree) (key : Text) : Option Tree := t.children.find? fun c => c.name = key

/-- node.py:133-134: `for key in keys[1:]: target = target._children[key]`. -/
def Tree.descend : Tree → List Text → Option Tree
  | t, [] => some t
  | t, k :: ks => match t.child k with
    | some c => c.descend ks
    | none => none

/-- node.py:118-138 `find` (and :139-147 `get`, which returns `None` instead of raising). -/
def Tree.find (t : Tree) (path : Text) : M Tree :=
  match splitDot path with
  | [] => throw .runtimeError
  | k :: ks =>
    if t.name ≠ k then throw .runtimeError
    else match t.descend ks with
      | some n => pure n
      | none => throw .runtimeError

/-- node.py:206-224 `insert` of one node. Reparenting cannot be expressed with values and is not modelled. -/
def Tree.insert (t : Tree) (node : Tree) : M Tree :=
  match t with
  | .mk n k cs => if node.name ∈ cs.map Tree.name then throw (.symbolRedefinition node.name) else pure (.mk n k (cs ++ [node]))

/-- node.py:206-224 `insert` of several nodes. -/
def Tree.insertAll (t : Tree) (nodes : List Tree) : M Tree := nodes.foldlM Tree.insert t

/-- node.py:226-231 `erase` and :258-266 `detach`. -/
def Tree.erase (t : Tree) (key : Text) : M Tree :=
  match t with
  | .mk n k cs => if key ∈ cs.map Tree.name then pure (.mk n k (cs.filter fun c => c.name ≠ key)) else throw .keyError

/-- node.py:101-116 `set_name` of the child called `old`, with the reindexing of the parent. -/
def Tree.renameChild (t : Tree) (old new : Text) : M Tree :=
  match t with
  | .mk n k cs =>
    if old = new then pure t
    else if new ∈ cs.map Tree.name then throw .runtimeError
    else pure (.mk n k (cs.map fun c => if c.name = old then .mk new c.kind c.children else c))

/-- Replaces the child of the same name. -/
def Tree.setChild (t : Tree) (c' : Tree) : Tree :=
  match t with
  | .mk n k cs => .mk n k (cs.map fun c => if c.name = c'.name then c' else c)

/-- Calls a method on the node at a path. -/
def Tree.modifyAt (f : Tree → M Tree) : Tree → List Text → M Tree
  | t, [] => f t
  | t, k :: ks => match t.child k with
    | some c => do pure (t.setChild (← c.modifyAt f ks))
    | none => throw .keyError

mutual
/-- node.py:242-250 `iterate`: pre-order, with the path of every node. -/
def Tree.iter (pre : Path) : Tree → List (Path × Tree)
  | .mk n k cs => (pre, .mk n k cs) :: iterList pre cs
/-- node.py:248-250. -/
def iterList (pre : Path) : List Tree → List (Path × Tree)
  | [] => []
  | c :: cs => c.iter (pre ++ [c.name]) ++ iterList pre cs
end

/-! ## References -/

/-- references.py:34-36 `_referencify`. -/
def referencify (name : Text) : Text := '@' :: name.map fun c => if c = '.' then '@' else c

/-- references.py:38-40 `_dereferencify`. -/
def dereferencify (name : Text) : Text := (name.drop 1).map fun c => if c = '@' then '.' else c

/-- references.py:16-18 `target`. -/
def Tree.target (t : Tree) : Text := dereferencify t.name

/-- references.py:30-32 `is_qualified`. -/
def isQualified (name : Text) : Bool := name.take 2 = ['@', '@']

/-- references.py:13-14: a new reference node. -/
def mkRef (kind : RefKind) (name : Text) : M Tree := Tree.create (referencify name) (.ref kind)

end Gen
