import Verif.Spec.Bits
import Verif.Model.Archive

/-!
# When should an archive open?

A direct description in terms of directory entries, without reference to the functions that open archives.
Of the model it only uses the types (`Node`, `Sig`, `StorageKind`).
-/

namespace Spec
open Py Model

/-- The directory has a regular file of that name with that contents; file storages cannot map empty
files. -/
def HasFile (k : StorageKind) (node : Node) (name : String) (b : Bytes) : Prop :=
  node.entry name = some (.file b) ∧ (k = .files → b ≠ [])

/-- A frame whose header claims a whole number, below 2⁶³, of elements of `size` bytes. -/
def VectorFrame (size : Nat) (b : Bytes) : Prop :=
  16 ≤ b.length ∧ 0 < size ∧ unsignedAt b 0 64 % size = 0 ∧ unsignedAt b 0 64 / size < 2 ^ 63

/-- The data of a resource is there and has a well-formed frame. Of the data of a multivector only its
existence is required (and not even that if the resource is optional). -/
def DataOk (k : StorageKind) (node : Node) (name : String) : Sig → Prop
  | .instance _ _ _ => ∃ b, HasFile k node name b ∧ 16 ≤ b.length
  | .vector t _ _ => ∃ b, HasFile k node name b ∧ VectorFrame t.sizeInBytes b
  | .multivector it _ _ o => (∃ b, HasFile k node (name ++ "_index") b ∧ VectorFrame it.sizeInBytes b) ∧
      ((∃ b, HasFile k node name b) ∨ (∃ e, node.entry name = some (.dir e)) ∨ (o = true ∧ node.entry name = none))
  | .rawData _ _ => ∃ b, HasFile k node name b ∧ 16 ≤ b.length ∧ unsignedAt b 0 64 < 2 ^ 63
  | .sub .. => False

/-- No schema is stored for the resource (an empty tar member counts as none). -/
def SchemaAbsent (k : StorageKind) (node : Node) (name : String) : Prop :=
  node.entry (name ++ ".schema") = none ∨ (k = .tar ∧ node.entry (name ++ ".schema") = some (.file []))

/-- The resource is not a sub-archive. -/
def Leaf : Sig → Prop
  | .sub .. => False
  | _ => True

/-- The stored schema is the expected one, byte for byte. -/
def SchemaMatches (node : Node) (name schema : String) : Prop :=
  schema ≠ "" ∧ node.entry (name ++ ".schema") = some (.file (encodeUtf8 schema))

/-- A resource is acceptable: an optional one without schema; one with matching schema and well-formed data;
a missing optional sub-archive; or a sub-archive all of whose resources are acceptable. -/
inductive ResOk (k : StorageKind) : Node → String → Sig → Prop
  | absent {node name sig} : Leaf sig → sig.isOptional = true → SchemaAbsent k node name → ResOk k node name sig
  | present {node name sig} : Leaf sig → SchemaMatches node name sig.schema → DataOk k node name sig →
      ResOk k node name sig
  | subAbsent {node name n asch rs sch} : node.entry name = none → ResOk k node name (.sub n asch rs sch true)
  | sub {node name n asch rs sch o} {e : String → Option Node} : node.entry name = some (.dir e) →
      (∀ p ∈ rs, ResOk k (.dir e) p.1 p.2) → ResOk k node name (.sub n asch rs sch o)

/-- `Inside node rs node' name sig`: the resource `name` with signature `sig`, stored in the directory `node'`,
belongs to the archive with resources `rs` stored in `node`, directly or through existing sub-archives. -/
inductive Inside : Node → List (String × Sig) → Node → String → Sig → Prop
  | here {node rs name sig} : (name, sig) ∈ rs → Inside node rs node name sig
  | there {node rs n m asch rs' sch o node' name sig} {e : String → Option Node} :
      (n, Sig.sub m asch rs' sch o) ∈ rs → node.entry n = some (.dir e) → Inside (.dir e) rs' node' name sig →
      Inside node rs node' name sig

/-- Like `Inside`, and every other resource on the way is acceptable. -/
inductive OnlyBad (k : StorageKind) : Node → List (String × Sig) → Node → String → Sig → Prop
  | here {node rs name sig} : (name, sig) ∈ rs → (∀ p ∈ rs, p = (name, sig) ∨ ResOk k node p.1 p.2) →
      OnlyBad k node rs node name sig
  | there {node rs n m asch rs' sch o node' name sig} {e : String → Option Node} :
      (n, Sig.sub m asch rs' sch o) ∈ rs →
      (∀ p ∈ rs, p = (n, Sig.sub m asch rs' sch o) ∨ ResOk k node p.1 p.2) →
      node.entry n = some (.dir e) → OnlyBad k (.dir e) rs' node' name sig → OnlyBad k node rs node' name sig

/-- The file claims to hold no payload (`size`: no complete element). -/
def ClaimsFewer (k : StorageKind) (node : Node) (name : String) (bytes : Nat) : Prop :=
  ∃ b, HasFile k node name b ∧ unsignedAt b 0 64 < bytes

/-- The cases in which the attribute of an acceptable resource is `None`: it is optional and has no schema
(a sub-archive: no directory), or it is a vector or raw data without elements, or a multivector without
buckets (at most one index element), or a sub-archive class without resources. -/
def ReadsAsNone (k : StorageKind) (node : Node) (name : String) : Sig → Prop
  | .instance _ _ o => o = true ∧ SchemaAbsent k node name
  | .vector t _ o => (o = true ∧ SchemaAbsent k node name) ∨ ClaimsFewer k node name t.sizeInBytes
  | .multivector it _ _ o => (o = true ∧ SchemaAbsent k node name) ∨
      ClaimsFewer k node (name ++ "_index") (2 * it.sizeInBytes)
  | .rawData _ o => (o = true ∧ SchemaAbsent k node name) ∨ ClaimsFewer k node name 1
  | .sub _ _ rs _ _ => node.entry name = none ∨ rs = []

/-- Length of a regular file (0 if there is none). -/
def fileLength (node : Node) (name : String) : Nat :=
  match node.entry name with
  | some (.file b) => b.length
  | _ => 0

open Classical in
mutual
/-- The size an archive should report for a resource: the length of its data file, nothing for resources that
read as `None`, the sum over its resources for a sub-archive. -/
noncomputable def dataSize (k : StorageKind) (node : Node) (name : String) : Sig → Nat
  | .sub _ _ rs _ _ =>
    match node.entry name with
    | some (.dir e) => dataSizes k (.dir e) rs
    | _ => 0
  | sig => if ReadsAsNone k node name sig then 0 else fileLength node name
/-- Sum over the resources of an archive. -/
noncomputable def dataSizes (k : StorageKind) (node : Node) : List (String × Sig) → Nat
  | [] => 0
  | (name, sig) :: rest => dataSize k node name sig + dataSizes k node rest
end

end Spec
