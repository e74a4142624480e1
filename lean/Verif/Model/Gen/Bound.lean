import Verif.Model.Gen.Passes

/-!
# Model of `tree/syntax_tree.py`: implicitly bound resources

A node is given by its path; Python compares nodes by identity.
-/

namespace Gen

/-- `isinstance(n, BoundResource)`. -/
def Kind.isBound : Kind → Bool
  | .resource .bound _ _ => true
  | _ => false

/-- references.py:26-28 `node`: the node a reference points to. -/
def nodeOf (root : Tree) (ref : Tree) : M Path := do
  let _ ← root.find ref.target
  pure ref.targetPath

/-- syntax_tree.py:97 and :111: one of the references of the group points to the node at `p` (the list is built first). -/
def listsNode (root : Tree) (p : Path) (group : Tree) : M Bool := do
  let nodes ← (group.childrenLike Kind.isResourceReference).mapM (nodeOf root)
  pure (nodes.any fun q => q = p)

/-- syntax_tree.py:90-95 and :103-108: the bound groups of the archive of the node at `p`, or nothing if the node is not a
resource or has no parent. -/
def groupsAround (root : Tree) (p : Path) : M (List Tree) :=
  match root.descend p with
  | none => pure []
  | some n =>
    if ¬ n.kind.isResource ∨ p = [] then pure []
    else match root.descend p.dropLast with
      | none => pure []
      | some parent => if parent.kind ≠ .archive then throw .assertionError else pure (parent.childrenLike Kind.isBound)

/-- syntax_tree.py:96-99, the loop with its early return. -/
def anyLists (root : Tree) (p : Path) : List Tree → M Bool
  | [] => pure false
  | g :: gs => do if ← listsNode root p g then pure true else anyLists root p gs

/-- syntax_tree.py:88-99 `is_bound_implicitly`. -/
def isBoundImplicitly (root : Tree) (p : Path) : M Bool := do anyLists root p (← groupsAround root p)

/-- syntax_tree.py:109-113, the loop. -/
def allLists (root : Tree) (p : Path) : List Tree → M (List Tree)
  | [] => pure []
  | g :: gs => do
    let here ← listsNode root p g
    let rest ← allLists root p gs
    pure (if here then g :: rest else rest)

/-- syntax_tree.py:101-113 `binding_resources`, as paths. -/
def bindingResources (root : Tree) (p : Path) : M (List Path) := do
  let gs ← allLists root p (← groupsAround root p)
  pure (gs.map fun g => p.dropLast ++ [g.name])

/-- syntax_tree.py:115-119 `binding_resources_or_self`. -/
def bindingResourcesOrSelf (root : Tree) (p : Path) : M (List Path) := do
  if ← isBoundImplicitly root p then bindingResources root p else pure [p]

end Gen
