import Verif.Spec.Accepted
import Verif.Model.Gen.Grammar

/-!
# Definitions as records

What the definition at a node of a syntax tree says, in the form in which the grammar delivers definitions: all names of
types, constants and resources are full paths, widths and values are explicit, values of enumerations that were generated
are left out.
-/

namespace Spec
open Gen

/-- The children of a class. -/
def childrenOf (n : Tree) (k : Kind) : List Tree := n.children.filter fun c => c.kind = k

/-- The range of a field, its constants, and the constant that means "no value". -/
def fieldDecorations (f : Tree) (range : Option Text) : List PFieldDeco :=
  range.toList.map .range ++ (childrenOf f (.ref .constantValue)).map (fun r => .constRef r.target) ++
    (childrenOf f (.ref .invalidValue)).map (fun r => .invalidValue r.target)

/-- A field: its type is a basic type or (the path of) an enumeration. -/
def fieldRecord (f : Tree) : Option PField :=
  match f.kind with
  | .field (.basic b) range _ => some { name := f.name, decorations := fieldDecorations f range, type := b.name.text, width := some b.width }
  | .field (.enum ref b) range _ => some { name := f.name, decorations := fieldDecorations f range, type := dereferencify ref, width := some b.width }
  | _ => none

def structureRecord (n : Tree) : PStruct := { name := n.name, fields := n.children.filterMap fieldRecord }

def enumValueRecord (v : Tree) : Option (Text × Option Int) :=
  match v.kind with
  | .enumValue x false => some (v.name, some x)
  | _ => none

def enumerationRecord (n : Tree) (b : BasicType) : PEnum :=
  { name := n.name, type := b.name, width := some b.width, values := n.children.filterMap enumValueRecord }

/-- An explicit reference: the structure, the name of the field, the resource. -/
def explicitRecord (e : Tree) : Option PResDeco :=
  match childrenOf e (.ref .structure), childrenOf e (.ref .field), childrenOf e (.ref .resource) with
  | [s], [f], [d] => some (.explicitReference s.target (f.targetPath.getLastD []) d.target)
  | _, _, _ => none

/-- The type of a resource; the structures a multivector consists of do not include its index type. -/
def resourceTypeRecord (r : Tree) : Option PResType :=
  let types := (childrenOf r (.ref .structure)).map Tree.target
  match r.kind, types with
  | .resource .vector _ _, [t] => some (.vector t)
  | .resource .instance _ _, [t] => some (.object t)
  | .resource (.multivector w) _ _, ts => some (.multivector w ts)
  | .resource .rawData _ _, _ => some .rawData
  | .resource .archive _ _, _ => match childrenOf r (.ref .archive) with
    | [a] => some (.archive a.target)
    | _ => none
  | _, _ => none

def isOptionalResource : Kind → Bool
  | .resource _ o _ => o
  | _ => false

def resourceRecord (r : Tree) : Option PResource :=
  match resourceTypeRecord r with
  | some ty => some {
      name := r.name
      decorations := (childrenOf r .explicitReference).filterMap explicitRecord ++ (if isOptionalResource r.kind then [.optional] else [])
      type := ty }
  | none => none

/-- A group of bound resources. -/
def boundRecord (b : Tree) : Option (Text × List Text) :=
  match b.kind with
  | .resource .bound _ _ => some (b.name, (childrenOf b (.ref .resource)).map Tree.target)
  | _ => none

def archiveRecord (n : Tree) : PArchive :=
  { name := n.name, bounds := n.children.filterMap boundRecord, resources := n.children.filterMap resourceRecord }

/-- The record of a definition. -/
def definitionRecord (n : Tree) : Option PEntry :=
  match n.kind with
  | .structure _ => some (.struct (structureRecord n))
  | .enumeration b => some (.enumeration (enumerationRecord n b))
  | .constant b v => some (.constant { name := n.name, type := b.name, value := v })
  | .archive => some (.archive (archiveRecord n))
  | _ => none

/-- Definitions contain no namespaces. -/
def Flat (t : Tree) : Prop :=
  ∀ q k n, t.descend (q ++ [k]) = some n → n.kind = .namespace → q = [] ∨ ∃ m, t.descend q = some m ∧ m.kind = .namespace

/-- No reference that was written in the source leads into a namespace called `_builtin`. -/
def NoBuiltin (t : Tree) : Prop :=
  ∀ q r rk, t.descend q = some r → r.kind = .ref rk → rk ≠ .builtinStructure → "_builtin".toList ∉ r.targetPath

end Spec
