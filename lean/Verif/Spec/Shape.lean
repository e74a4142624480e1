import Verif.Spec.Resolve
import Verif.Model.Gen.Passes

/-!
# Which nodes have which children

Namespaces may stand below anything (a block `namespace n.S` after the definition of `n.S`); they are disregarded.
-/

namespace Spec
open Gen

/-- Constants, enumerations, structures and archives. -/
def Kind.isDefinition : Kind → Bool
  | .constant .. | .enumeration _ | .structure _ | .archive => true
  | _ => false

def Kind.isEnumValue : Kind → Bool
  | .enumValue .. => true
  | _ => false

/-- Attributes before sizes are computed, and widths that fit their types. -/
def KindOk : Kind → Prop
  | .field t _ o => o = none ∧ (t = .none ∨ ∃ b, t = .basic b ∧ b.width ≤ b.name.width)
  | .enumeration b => b.width ≤ b.name.width
  | .constant b _ => b.width = b.name.width
  | .structure s => s = none
  | .resource _ _ m => m = none
  | _ => True

/-- The classes of the children a node may have, in order, before constants are added to archives. -/
def ChildrenOk : Kind → List Kind → Prop
  | .root, ks => ks = []
  | .namespace, ks => ∀ k ∈ ks, Kind.isDefinition k = true
  | .constant .., ks => ks = []
  | .enumeration _, ks => ∀ k ∈ ks, Kind.isEnumValue k = true
  | .enumValue .., ks => ks = []
  | .structure _, ks => ∀ k ∈ ks, Gen.Kind.isField k = true
  | .field (.basic _) _ _, ks => ∀ k ∈ ks, Gen.Kind.isConstantReference k = true
  | .field _ _ _, ks => ∃ cs w, ks = cs ++ [.ref (.enumeration w)] ∧ ∀ k ∈ cs, Gen.Kind.isConstantReference k = true
  | .archive, ks => ∀ k ∈ ks, Gen.Kind.isResource k = true
  | .resource .vector _ _, ks => ∃ n, ks = List.replicate n .explicitReference ++ [.ref .structure]
  | .resource .instance _ _, ks => ∃ n, ks = List.replicate n .explicitReference ++ [.ref .structure]
  | .resource (.multivector _) _ _, ks => ∃ n m b, ks = List.replicate n .explicitReference ++
      List.replicate m (.ref .structure) ++ List.replicate b (.ref .builtinStructure)
  | .resource .rawData _ _, ks => ∃ n, ks = List.replicate n .explicitReference
  | .resource .archive _ _, ks => ∃ n, ks = List.replicate n .explicitReference ++ [.ref .archive]
  | .resource .bound _ _, ks => ∃ n, ks = List.replicate n (.ref .resource)
  | .explicitReference, ks => ks = [.ref .resource, .ref .field, .ref .structure]
  | .ref _, ks => ks = []

/-- The classes of the children other than namespaces. -/
def childKinds (cs : List Tree) : List Kind := (cs.map Tree.kind).filter (· ≠ .namespace)

/-- Every node has the children its class demands. -/
inductive Shaped : Tree → Prop
  | mk {n k cs} : KindOk k → ChildrenOk k (childKinds cs) → (∀ c ∈ cs, Shaped c) → Shaped (.mk n k cs)

theorem Shaped.kindOk {t : Tree} (h : Shaped t) : KindOk t.kind := by cases h; assumption
theorem Shaped.kinds {t : Tree} (h : Shaped t) : ChildrenOk t.kind (childKinds t.children) := by cases h; assumption
theorem Shaped.children {t : Tree} (h : Shaped t) : ∀ c ∈ t.children, Shaped c := by cases h; assumption

end Spec
