import Verif.Model.Gen.Resolve

/-!
# Model of `tree/builder.py`: what happens after references are resolved

`iterate` is a generator over the live tree; since the passes change attributes only, or children of nodes that the loop
does not iterate over (builder.py:128-130 makes lists first), the list of all nodes at the beginning is the same.
-/

namespace Gen

/-! ## Nodes and attributes -/

/-- node.py:56-60 `children_like` for a class given by a test. -/
def Tree.childrenLike (t : Tree) (p : Kind → Bool) : List Tree := t.children.filter fun c => p c.kind

/-- `isinstance(n, Field)`. -/
def Kind.isField : Kind → Bool
  | .field .. => true
  | _ => false
/-- `isinstance(n, Structure)`. -/
def Kind.isStructure : Kind → Bool
  | .structure _ => true
  | _ => false
/-- `isinstance(n, ResourceBase)`. -/
def Kind.isResource : Kind → Bool
  | .resource .. => true
  | _ => false
/-- `isinstance(n, Vector)`. -/
def Kind.isVector : Kind → Bool
  | .resource .vector _ _ => true
  | _ => false
/-- `isinstance(n, Constant)`. -/
def Kind.isConstant : Kind → Bool
  | .constant .. => true
  | _ => false
/-- `isinstance(n, ConstantReference)`. -/
def Kind.isConstantReference : Kind → Bool
  | .ref k => k.isConstant
  | _ => false
/-- `isinstance(n, TypeReference)`. -/
def Kind.isTypeReference : Kind → Bool
  | .ref k => k.isType
  | _ => false
/-- `isinstance(n, Reference)`. -/
def Kind.isReference : Kind → Bool
  | .ref _ => true
  | _ => false
/-- `isinstance(n, ResourceReference)`. -/
def Kind.isResourceReference : Kind → Bool
  | .ref .resource | .ref .vector => true
  | _ => false
/-- `isinstance(n, EnumerationReference)`. -/
def Kind.isEnumerationReference : Kind → Bool
  | .ref (.enumeration _) => true
  | _ => false

/-- The nodes of a class with their paths, in the order of `iterate(cls)` (node.py:242-250). -/
def Tree.nodesLike (t : Tree) (p : Kind → Bool) : List (Path × Tree) := (t.iter []).filter fun e => p e.2.kind

/-- Assignment to an attribute of the node at a path: the node gets these attributes. -/
def Tree.setKind (k : Kind) : Tree → Path → Tree
  | .mk n _ cs, [] => .mk n k cs
  | t, key :: ks => match t.child key with
    | some c => t.setChild (c.setKind k ks)
    | none => t

/-- basictype.py:36-38, enumtype.py:15-16 `field.type.width`; `None` has no attributes. -/
def FieldType.width : FieldType → M Nat
  | .basic t => pure t.width
  | .enum _ t => pure t.width
  | .none => throw .attributeError

/-- basictype.py:32-34, enumtype.py:10-12 `field.type.name`. -/
def FieldType.nameText : FieldType → M Text
  | .basic t => pure t.name.text
  | .enum n _ => pure n
  | .none => throw .attributeError

/-- field.py:40-45 `range`, as used in conditions: an absent or empty name counts as none. -/
def Kind.rangeName : Kind → Option Text
  | .field _ (some (c :: cs)) _ => some (c :: cs)
  | _ => none

/-- structure.py:44-46 `fields`. -/
def Tree.fields (t : Tree) : List Tree := t.childrenLike Kind.isField

/-- structure.py:24-26 `has_range`. -/
def Tree.hasRange (t : Tree) : Bool := t.fields.any fun f => f.kind.rangeName.isSome

/-- The path of the node a resolved reference points to. -/
def Tree.targetPath (r : Tree) : Path := (splitDot r.target).tail

/-! ## Constants -/

/-- builder.py:127-134 `_append_constant_references`. -/
def appendConstantRefs (root : Tree) : M Tree :=
  let constants := (root.nodesLike Kind.isConstant).map fun e => pathText e.1
  let references := (root.nodesLike Kind.isConstantReference).map fun e => e.2.target
  let archives := root.nodesLike fun k => k = .archive
  archives.foldlM (fun r a => r.modifyAt (fun n =>
    insertEach n ((constants.filter fun c => c ∉ references).map (mkRef .constantValue))) a.1) root

/-! ## Ranges -/

/-- builder.py:177-186, one field. -/
def checkRangeField (root : Tree) (e : Path × Tree) : M Unit :=
  match e.2.kind.rangeName with
  | none => pure ()
  | some name => match root.descend e.1.dropLast with
    | none => throw .attributeError
    | some parent =>
      if parent.fields.any fun s => s.name = name then throw (.invalidRangeName name)
      else if (e.2.childrenLike fun k => k = .ref .invalidValue) ≠ [] then throw (.optionalRange name)
      else pure ()

/-- builder.py:189-192, one reference. -/
def checkRangeReference (root : Tree) (e : Path × Tree) : M Unit := do
  let n ← root.find e.2.target
  if n.kind.isStructure ∧ n.hasRange then
    match root.descend e.1.dropLast with
    | none => pure ()
    | some parent =>
      if parent.kind.isResource ∧ ¬ parent.kind.isVector then throw (.invalidRangeReference e.2.target) else pure ()

/-- builder.py:175-192 `_check_ranges`. -/
def checkRanges (root : Tree) : M Unit := do
  (root.nodesLike Kind.isField).forM (checkRangeField root)
  (root.nodesLike fun k => k = .ref .structure).forM (checkRangeReference root)

/-! ## Field types -/

/-- builder.py:139-147, one field. -/
def updateFieldType (root : Tree) (e : Path × Tree) : M Tree :=
  match e.2.kind with
  | .field .none range offset =>
    match e.2.childrenLike Kind.isEnumerationReference with
    | [] => throw .attributeError
    | ref :: _ => do
      let n ← root.find ref.target
      match n.kind with
      | .enumeration t => do
        let bt ← BasicType.create t.name (some t.width)
        if basicOfText ref.name ≠ none then throw .assertionError
        match ref.kind with
        | .ref (.enumeration (some w)) =>
          if w ≠ 0 ∧ w ≠ t.width then throw (.invalidEnumWidth ref.name)
          else pure (root.setKind (.field (.enum ref.name bt) range offset) e.1)
        | _ => pure (root.setKind (.field (.enum ref.name bt) range offset) e.1)
      | _ => throw .attributeError
  | _ => pure root

/-- builder.py:137-147 `_update_field_type_references`. -/
def updateFieldTypes (root : Tree) : M Tree := (root.nodesLike Kind.isField).foldlM updateFieldType root

/-! ## Structure sizes -/

/-- traversal.py:12-15 `children`, with nodes given by their paths. After resolution every target exists. -/
def depChildren (root : Tree) (p : Path) : List Path :=
  match root.descend p with
  | none => []
  | some n => ((n.childrenLike fun k => !k.isReference).map fun c => p ++ [c.name]) ++
      (n.childrenLike Kind.isTypeReference).map Tree.targetPath

/-- builder.py:157-162: the loop over the children of the structure at `p`. -/
def setOffsets (p : Path) : Tree → List Tree → Nat → M (Tree × Nat)
  | root, [], offset => pure (root, offset)
  | root, c :: cs, offset => match c.kind with
    | .field t range _ => do
      let w ← t.width
      setOffsets p (root.setKind (.field t range (some offset)) (p ++ [c.name])) cs (offset + w)
    | _ => setOffsets p root cs offset

/-- builder.py:153-163, one node of the dependency order. -/
def computeSize (root : Tree) (p : Path) : M Tree :=
  match root.descend p with
  | none => pure root
  | some n => match n.kind with
    | .structure _ => do
      let r ← setOffsets p root n.children 0
      pure (r.1.setKind (.structure (some r.2)) p)
    | _ => pure root

/-- builder.py:150-163 `_compute_structure_sizes`. The traversal takes at most `n` steps; `none` means that it takes more.
(The loop body runs between the steps of the traversal, but it does not change what the traversal sees.) -/
def computeSizes (n : Nat) (root : Tree) : Option (M Tree) :=
  match Dfs.run (depChildren root) n (Dfs.init []) with
  | none => none
  | some (.error e) => some (.error e)
  | some (.ok events) => some ((dependencyOrder events).foldlM computeSize root)

/-! ## Resource sizes -/

/-- explicit_reference.py:24-40 `destination`, `field`, `structure`: the only child of a class. -/
def Tree.onlyChild (t : Tree) (p : Kind → Bool) : M Tree :=
  match t.childrenLike p with
  | [r] => pure r
  | _ => throw .assertionError

/-- builder.py:168-173, one explicit reference. -/
def limitResource (root : Tree) (e : Path × Tree) : M Tree := do
  let f ← e.2.onlyChild fun k => k = .ref .field
  let fnode ← root.find f.target
  match fnode.kind with
  | .field t _ _ => do
    let w ← t.width
    if w = 64 then pure root
    else do
      let d ← e.2.onlyChild Kind.isResourceReference
      let dnode ← root.find d.target
      match dnode.kind with
      | .resource k o m =>
        let limit := match m with
          | none => 2 ^ w
          | some m => if m > 2 ^ w then 2 ^ w else m
        pure (root.setKind (.resource k o (some limit)) d.targetPath)
      | _ => throw .attributeError
  | _ => throw .attributeError

/-- builder.py:165-173 `_compute_max_resource_size`. -/
def computeMaxSizes (root : Tree) : M Tree :=
  (root.nodesLike fun k => k = .explicitReference).foldlM limitResource root

/-! ## Constant references -/

/-- builder.py:197-202, one reference of a field of the given type. -/
def checkConstRef (root : Tree) (t : FieldType) (ref : Tree) : M Unit := do
  let n ← root.find ref.target
  match n.kind with
  | .constant ct v => do
    if ct.name.text ≠ (← t.nameText) then throw (.invalidConstReference ref.target)
    let bits ← ct.bitsRequired v
    if bits > (← t.width) then throw (.invalidConstValueReference ref.target)
    pure ()
  | _ => throw .attributeError

/-- builder.py:196-205, one field. -/
def checkConstField (root : Tree) (e : Path × Tree) : M Unit :=
  match e.2.kind with
  | .field t _ _ => do
    (e.2.childrenLike Kind.isConstantReference).forM (checkConstRef root t)
    if (e.2.childrenLike fun k => k = .ref .invalidValue).length > 1 then throw (.duplicateInvalidValueReference e.2.name)
    pure ()
  | _ => pure ()

/-- builder.py:194-205 `_check_const_refs`. -/
def checkConstRefs (root : Tree) : M Unit := (root.nodesLike Kind.isField).forM (checkConstField root)

/-! ## Explicit references -/

/-- builder.py:209-211, one explicit reference. -/
def checkExplicitReference (root : Tree) (e : Path × Tree) : M Unit :=
  match root.descend e.1.dropLast with
  | none => throw .attributeError
  | some parent => (e.2.childrenLike fun k => k = .ref .structure).forM fun ref =>
      if ref.target ∈ (parent.childrenLike fun k => k = .ref .structure).map Tree.target then pure ()
      else throw .invalidStructInExplicitReference

/-- builder.py:207-211 `_check_explicit_references`. -/
def checkExplicitReferences (root : Tree) : M Unit :=
  (root.nodesLike fun k => k = .explicitReference).forM (checkExplicitReference root)

/-! ## The syntax tree -/

/-- builder.py:216-219: up to the computation of sizes. -/
def buildResolved (blocks : List PBlock) : M Tree := do
  resolveReferences (← appendBuiltins (← buildNodeTree blocks))

/-- builder.py:219-222. -/
def buildTyped (blocks : List PBlock) : M Tree := do
  let root ← appendConstantRefs (← buildResolved blocks)
  checkRanges root
  updateFieldTypes root

/-- builder.py:223-226. -/
def finishAst (root : Tree) : M Tree := do
  let root ← computeMaxSizes root
  checkConstRefs root
  checkExplicitReferences root
  pure root

/-- builder.py:213-226 `build_ast` after parsing; the traversal takes at most `n` steps. -/
def buildAst (n : Nat) (blocks : List PBlock) : Option (M Tree) :=
  match buildTyped blocks with
  | .error e => some (.error e)
  | .ok root => match computeSizes n root with
    | none => none
    | some (.error e) => some (.error e)
    | some (.ok root) => some (finishAst root)

/-- builder.py:213-226 `build_ast` ends: it returns this tree, or it raises. -/
def BuildAst (blocks : List PBlock) (out : M Tree) : Prop := ∃ n, buildAst n blocks = some out

end Gen
