import Verif.Model.Gen.Build

/-!
# Model of `tree/resolver.py`

A node is given by its path, so the parent of the node at `p` is the node at `p.dropLast`. Lookups are made in the tree
before resolution, whereas the code looks up in the tree in which earlier references have already been renamed; no lookup
can see the difference, because names that are looked up contain no `@` (C48_lookup_unaffected).
-/

namespace Gen

/-- resolver.py:48-58: the node classes a reference may point to. -/
def RefKind.accepts : RefKind → Kind → Bool
  | .structure, .structure _ => true
  | .archive, .archive => true
  | .resource, .resource .. => true
  | .field, .field .. => true
  | .builtinStructure, .structure _ => true
  | .vector, .resource .vector _ _ => true
  | .constantValue, .constant .. => true
  | .invalidValue, .constant .. => true
  | .enumeration _, .enumeration _ => true
  | _, _ => false

/-- `isinstance(n, Namespace)` for the node at a path. -/
def isNamespaceAt (root : Tree) (p : Path) : Bool :=
  match root.descend p with
  | some n => n.isNamespace
  | none => false

/-- resolver.py:14-25 `_resolve_in_parent_scope` for a reference whose parent is at `p`. `scope` is `p.take j`, at the
beginning `j = p.length`; the result is the path of the symbol. -/
def resolveInParentScope (root : Tree) (p : Path) (keys : List Text) : Nat → Option Path
  | 0 => none
  | j + 1 =>
    if isNamespaceAt root (p.take j) then none
    else if (root.descend (p.take j ++ keys)).isSome then some (p.take j ++ keys)
    else resolveInParentScope root p keys j

/-- node.py:69-76 `first_parent_like(Namespace)` of a reference whose parent is at `p`; at the beginning
`j = p.length`. -/
def firstNamespace (root : Tree) (p : Path) : Nat → Option Path
  | 0 => if isNamespaceAt root [] then some [] else none
  | j + 1 => if isNamespaceAt root (p.take (j + 1)) then some (p.take (j + 1)) else firstNamespace root p j

/-- resolver.py:28-35 `_resolve_in_parent_namespace`. -/
def resolveInParentNamespace (root : Tree) (p : Path) (keys : List Text) : M (Option Path) :=
  match firstNamespace root p p.length with
  | none => throw .assertionError
  | some ns => pure (if (root.descend (ns ++ keys)).isSome then some (ns ++ keys) else none)

/-- resolver.py:38-44 and 69-75: the new name of a reference (references.py:20-24 `update_reference`). -/
def resolveName (root : Tree) (p : Path) (name : Text) : M Text := do
  let target := dereferencify name
  if isQualified name then
    match root.find target with
    | .ok _ => pure name
    | .error _ => throw (.missingSymbol target)
  else
    match resolveInParentScope root p (splitDot target) p.length with
    | some q => pure (referencify (pathText q))
    | none => match ← resolveInParentNamespace root p (splitDot target) with
      | some q => pure (referencify (pathText q))
      | none => throw (.missingSymbol target)

/-- resolver.py:64-74, one reference with the given siblings: resolution, renaming (node.py:101-116) and the check of the
target's type (resolver.py:47-61). -/
def resolveRef (root : Tree) (p : Path) (kind : RefKind) (name : Text) (siblings : List Text) : M Text := do
  let name' ← resolveName root p name
  if name' ≠ name ∧ name' ∈ siblings then throw .runtimeError
  let target ← root.find (dereferencify name')
  if kind.accepts target.kind then pure name' else throw (.incorrectReferenceType name')

mutual
/-- resolver.py:64-74 for a node below the node at `p`, and then for the nodes below it. -/
def resolveTree (root : Tree) (p : Path) (siblings : List Text) : Tree → M Tree
  | .mk n k cs => do
    let n' ← match k with
      | .ref rk => resolveRef root p rk n siblings
      | _ => pure n
    let cs' ← resolveList root (p ++ [n]) [] cs
    pure (.mk n' k cs')
/-- The children of the node at `p`, of which `done` are resolved. -/
def resolveList (root : Tree) (p : Path) (done : List Tree) : List Tree → M (List Tree)
  | [] => pure done
  | c :: cs => do
    let c' ← resolveTree root p ((done ++ cs).map Tree.name) c
    resolveList root p (done ++ [c']) cs
end

/-- resolver.py:64-74 `resolve_references`. -/
def resolveReferences (root : Tree) : M Tree :=
  match root with
  | .mk n k cs => do pure (.mk n k (← resolveList (.mk n k cs) [] [] cs))

end Gen
