import Verif.Spec.Meaning
import Verif.Spec.Lexical
import Verif.Model.Gen.Python

/-!
# The classes a schema stands for

What the runtime library is to see of a schema: structures with their computed layout and archives with their resources, in
terms of the runtime's own types (`Model.StructType`, `Model.ArchiveType`).
-/

namespace Spec
open Gen

/-- The name of the class of a definition: the namespaces and the name, joined with underscores. -/
def pythonName (p : Path) : Text := joinTexts ['_'] p

/-- A field of a structure: its name, its width and whether it is signed. -/
def declaredField (f : Tree) : Option Model.FieldDecl :=
  match f.kind with
  | .field (.basic b) _ _ => some ⟨String.ofList f.name, b.width, b.name.isSigned⟩
  | .field (.enum _ b) _ _ => some ⟨String.ofList f.name, b.width, b.name.isSigned⟩
  | _ => none

/-- A field and the numpy type of its values. -/
def declaredDtype (f : Tree) : Option (Text × Option Dtype) :=
  match f.kind with
  | .field (.basic b) _ _ => some (f.name, some b.name.dtype)
  | .field (.enum _ b) _ _ => some (f.name, some b.name.dtype)
  | _ => none

/-- The class of the structure `n` at `p`: its fields follow one another without gaps (`Model.mkStruct`). -/
def structureClass (p : Path) (n : Tree) : Model.StructType :=
  Model.mkStruct (String.ofList (pythonName p)) (n.children.filterMap declaredField)

/-- The class of the structure at `p`. -/
def StructureAt (t : Tree) (p : Path) (s : Model.StructType) : Prop :=
  ∃ n size, t.descend p = some n ∧ n.kind = .structure size ∧ s = structureClass p n

/-- The classes of several structures. -/
inductive StructuresAt (t : Tree) : List Tree → List Model.StructType → Prop
  | nil : StructuresAt t [] []
  | cons {ref refs s ss} : StructureAt t ref.targetPath s → StructuresAt t refs ss → StructuresAt t (ref :: refs) (s :: ss)

mutual
/-- The signature of the resource `r` at `q`: its types, its schema and whether it is optional. -/
inductive ResourceAt (t : Tree) : Path → Tree → Model.Sig → Prop
  | instance {q r o m ref s x} : r.kind = .resource .instance o m → childrenOf r (.ref .structure) = [ref] → StructureAt t ref.targetPath s →
      Schema t q (.ok x) → ResourceAt t q r (.instance s (String.ofList x) o)
  | vector {q r o m ref s x} : r.kind = .resource .vector o m → childrenOf r (.ref .structure) = [ref] → StructureAt t ref.targetPath s →
      Schema t q (.ok x) → ResourceAt t q r (.vector s (String.ofList x) o)
  | multivector {q r w o m index i ss x} : r.kind = .resource (.multivector w) o m → childrenOf r (.ref .builtinStructure) = [index] →
      StructureAt t index.targetPath i → StructuresAt t (childrenOf r (.ref .structure)) ss →
      Schema t q (.ok x) → ResourceAt t q r (.multivector i ss (String.ofList x) o)
  | rawData {q r o m x} : r.kind = .resource .rawData o m → Schema t q (.ok x) → ResourceAt t q r (.rawData (String.ofList x) o)
  | archive {q r o m ref a x} : r.kind = .resource .archive o m → childrenOf r (.ref .archive) = [ref] → ArchiveAt t ref.targetPath a →
      Schema t q (.ok x) → ResourceAt t q r (.sub a.name a.schema a.resources (String.ofList x) o)
/-- The signatures of some resources of the archive at `p`, by name. -/
inductive ResourcesAt (t : Tree) : Path → List Tree → List (String × Model.Sig) → Prop
  | nil {p} : ResourcesAt t p [] []
  | cons {p r rs s ss} : ResourceAt t (p ++ [r.name]) r s → ResourcesAt t p rs ss →
      ResourcesAt t p (r :: rs) ((String.ofList r.name, s) :: ss)
/-- The class of the archive at `p`: its resources are the declared ones, other than groups of bound resources, after the
signature of the archive (`Model.mkArchive`). -/
inductive ArchiveAt (t : Tree) : Path → Model.ArchiveType → Prop
  | mk {p n x rs} : t.descend p = some n → n.kind = .archive → Schema t p (.ok x) →
      ResourcesAt t p (n.children.filter fun r => (resourceLayout r).isSome) rs →
      ArchiveAt t p (Model.mkArchive (String.ofList n.name) (String.ofList x) rs)
end

/-- `c` is the name of a class for the definition at `p`. -/
def ClassAt (t : Tree) (p : Path) (c : Text) : Prop :=
  ∃ n, t.descend p = some n ∧
    ((∃ size, n.kind = .structure size) ∧ c = pythonName p ∨ n.kind = .archive ∧ (c = pythonName p ∨ c = pythonName p ++ "Builder".toList))

/-- What a schema has to satisfy besides being accepted, so that its Python module works. -/
structure Importable (t : Tree) : Prop where
  /-- The names of outermost namespaces begin with a letter. -/
  letters : ∀ k n, t.descend [k] = some n → ∃ c ∈ k.head?, IdStart c ∧ c ≠ '_'
  /-- Different definitions have different class names. -/
  classes : ∀ p q c, ClassAt t p c → ClassAt t q c → p = q
  /-- Resources of an archive differ in more than case, and do not begin with an underscore. -/
  resources : ∀ p n, t.descend p = some n → n.kind = .archive → ∀ r ∈ n.children, (resourceLayout r).isSome → r.name.head? ≠ some '_' ∧
    ∀ r' ∈ n.children, (resourceLayout r').isSome → r.name.map Char.toUpper = r'.name.map Char.toUpper → r = r'

/-- What numpy understands by a type name: `?`, `b`, `B`, or `i` or `u` with a number of bytes. -/
def numpyDtype : Text → Option Dtype
  | ['?'] => some .bool
  | ['b'] => some (.int true 1)
  | ['B'] => some (.int false 1)
  | ['i', c] => if c ∈ ['1', '2', '4', '8'] then some (.int true (c.toNat - 48)) else none
  | ['u', c] => if c ∈ ['1', '2', '4', '8'] then some (.int false (c.toNat - 48)) else none
  | _ => none

end Spec
