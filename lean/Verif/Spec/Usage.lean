import Verif.Spec.Module
import Verif.Props.EndToEnd

/-!
# Using a generated archive class, in terms of the schema

Which values a user may set for a resource, as the schema declares it (`DictFits`, `BucketsFit` and the bounds are those of the
round trips C12, C13, C14, C17).
-/

namespace Spec
open Gen Model Props

/-- The declared fields of the structure at `p`. -/
def FieldsAt (t : Tree) (p : Path) (fs : List FieldDecl) : Prop :=
  ∃ n size, t.descend p = some n ∧ n.kind = .structure size ∧ fs = n.children.filterMap declaredField

/-- The names of the classes and the fields of several structures. -/
inductive TypesAt (t : Tree) : List Tree → List (String × List FieldDecl) → Prop
  | nil : TypesAt t [] []
  | cons {ref refs fs decls} : FieldsAt t ref.targetPath fs → TypesAt t refs decls →
      TypesAt t (ref :: refs) ((String.ofList (pythonName ref.targetPath), fs) :: decls)

/-- The number of bytes a structure takes. -/
def byteSize (fs : List FieldDecl) : Nat := ((fs.map (·.width)).sum + 7) / 8

/-- The value may be set for the resource `r`: dictionaries have exactly the declared fields, objects name declared structures, raw
data are bytes, and the sizes do not outgrow what headers and indexes can count. Fields have to have at least one bit. -/
inductive Suits (t : Tree) (r : Tree) : Value → Prop
  | instance {o m ref fs d} : r.kind = .resource .instance o m → childrenOf r (.ref .structure) = [ref] → FieldsAt t ref.targetPath fs →
      (∀ f ∈ fs, f.width ≠ 0) → DictFits fs d → byteSize fs < 2 ^ 64 → Suits t r (.dict d)
  | vector {o m ref fs ds} : r.kind = .resource .vector o m → childrenOf r (.ref .structure) = [ref] → FieldsAt t ref.targetPath fs →
      (∀ f ∈ fs, f.width ≠ 0) → (∀ d ∈ ds, DictFits fs d) → byteSize fs * ds.length < 2 ^ 63 → Suits t r (.list ds)
  | multivector {w o m decls value} : r.kind = .resource (.multivector w) o m → w ≠ 0 → TypesAt t (childrenOf r (.ref .structure)) decls →
      decls.length ≤ 256 → (∀ p ∈ decls, ∀ f ∈ p.2, f.width ≠ 0) → BucketsFit decls value → bucketsSize decls value < 2 ^ w →
      (w + 7) / 8 * (value.length + 1) < 2 ^ 63 → Suits t r (.buckets value)
  | rawData {o m b} : r.kind = .resource .rawData o m → b.length < 2 ^ 63 → Suits t r (.bytes b)

/-- The resources of an archive other than groups of bound resources. -/
def resourcesOf (n : Tree) : List Tree := n.children.filter fun r => (resourceLayout r).isSome

/-- The file name of the index of a multivector is not the name of another resource. -/
def NoIndexClash (n : Tree) : Prop :=
  ∀ r ∈ resourcesOf n, ∀ w o m, r.kind = .resource (.multivector w) o m → ∀ r' ∈ resourcesOf n, r'.name ≠ r.name ++ "_index".toList

/-- What happened to the resource `r`: it was set to a suitable value; or it is optional and was never touched; or it is a
sub-archive, which is optional and missing, or opens from its directory with its own class. -/
inductive Supplied (t : Tree) (A : ArchiveType) (path : String) (calls : List Call) (k : StorageKind) (node : Node) (r : Tree) : Prop
  | set {before value after} : calls = before ++ .set (String.ofList r.name) value :: after → NotYetSet A path before (String.ofList r.name) →
      Suits t r value → Supplied t A path calls k node r
  | unset {kind m} : r.kind = .resource kind true m → kind ≠ .archive → (∀ v, Call.set (String.ofList r.name) v ∉ calls) →
      Supplied t A path calls k node r
  | subMissing {m} : r.kind = .resource .archive true m → node.entry (String.ofList r.name) = none → Supplied t A path calls k node r
  | sub {o m ref B e loaded} : r.kind = .resource .archive o m → childrenOf r (.ref .archive) = [ref] → ArchiveAt t ref.targetPath B →
      node.entry (String.ofList r.name) = some (.dir e) → openArchive B k (.dir e) = .ok loaded → Supplied t A path calls k node r

end Spec
