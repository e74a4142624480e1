import Verif.Model.Gen.Parsed

/-!
# Model of `tree/builder.py`: from parsed definitions to the syntax tree
-/

namespace Gen

/-! ## Nodes from parse results -/

/-- `node.insert` of the results of several constructor calls, one after the other. -/
def insertEach (t : Tree) : List (M Tree) → M Tree
  | [] => pure t
  | c :: cs => do insertEach (← t.insert (← c)) cs

/-- constant.py:6-16. -/
def createConstant (c : PConstant) : M Tree := do
  let r ← Constant.create c.name c.type c.value
  Tree.create r.name (.constant r.type r.value)

/-- enumeration.py:15-49. -/
def createEnum (e : PEnum) : M Tree := do
  let t ← Tree.create e.name (.enumeration ⟨e.type, 0⟩)
  let r ← Enumeration.create e.name e.type e.width e.values
  let values ← r.values.mapM fun v => Tree.create v.name (.enumValue v.value v.autoGenerated)
  pure (.mk t.name (.enumeration r.type) values)

/-- field.py:15-19: the references of the decorations. -/
def fieldRefs : List PFieldDeco → List (M Tree)
  | [] => []
  | .constRef n :: ds => mkRef .constantValue n :: fieldRefs ds
  | .invalidValue n :: ds => mkRef .invalidValue n :: fieldRefs ds
  | .range _ :: ds => fieldRefs ds

/-- field.py:40-45 `range`: the first range decoration. -/
def fieldRange : List PFieldDeco → Option Text
  | [] => none
  | .range n :: _ => some n
  | _ :: ds => fieldRange ds

/-- field.py:7-38 `__init__` and `create`. -/
def createField (f : PField) : M Tree := do
  let t ← Tree.create f.name (.field .none (fieldRange f.decorations) none)
  let t ← insertEach t (fieldRefs f.decorations)
  match basicOfText f.type with
  | none => t.insert (← mkRef (.enumeration f.width) f.type)
  | some b => do
    let bt ← BasicType.create b f.width
    pure (.mk t.name (.field (.basic bt) (fieldRange f.decorations) none) t.children)

/-- structure.py:16-22 `create`. -/
def createStruct (s : PStruct) : M Tree := do
  insertEach (← Tree.create s.name (.structure none)) (s.fields.map createField)

/-- `t.replace('.', '_')`. -/
def dotsToUnderscores (t : Text) : Text := t.map fun c => if c = '.' then '_' else c

/-- explicit_reference.py:9-21 `create`. -/
def createExplicitReference (sourceType sourceField destination : Text) : M Tree := do
  let field := sourceType ++ '.' :: sourceField
  let t ← Tree.create ("er_".toList ++ dotsToUnderscores field ++ '_' :: dotsToUnderscores destination) .explicitReference
  insertEach t [mkRef .resource destination, mkRef .field field, mkRef .structure sourceType]

/-- base.py:14-18: the explicit references of a resource. -/
def resourceRefs : List PResDeco → List (M Tree)
  | [] => []
  | .explicitReference s f d :: ds => createExplicitReference s f d :: resourceRefs ds
  | .optional :: ds => resourceRefs ds

/-- The resource class, archive.py:6-19. -/
def PResType.kind : PResType → ResKind
  | .vector _ => .vector
  | .multivector w _ => .multivector w
  | .object _ => .instance
  | .rawData => .rawData
  | .archive _ => .archive

/-- `create_references` of the resource classes (vector.py:16-17, multivector.py:21-22, instance.py:16-17, rawdata.py:12-13,
archive.py:22-23). -/
def typeRefs : PResType → List (M Tree)
  | .vector t => [mkRef .structure t]
  | .multivector _ ts => ts.map (mkRef .structure)
  | .object t => [mkRef .structure t]
  | .rawData => []
  | .archive n => [mkRef .archive n]

/-- archive.py:6-25 `_create_resource` with base.py:9-18. -/
def createResource (r : PResource) : M Tree := do
  let t ← Tree.create r.name (.resource r.type.kind (.optional ∈ r.decorations) none)
  insertEach t (resourceRefs r.decorations ++ typeRefs r.type)

/-- archive.py:39-44 and bound_resource.py:5-17: a group of implicitly bound resources. -/
def createBound (b : Text × List Text) : M Tree := do
  insertEach (← Tree.create b.1 (.resource .bound false none)) (b.2.map (mkRef .resource))

/-- nodes/archive.py:33-45 `create`. -/
def createArchive (a : PArchive) : M Tree := do
  insertEach (← Tree.create a.name .archive) (a.resources.map createResource ++ a.bounds.map createBound)

/-! ## Namespaces -/

/-- builder.py:98-108: the definitions of a namespace block, group by group. -/
def blockDefs (b : PBlock) : List (M Tree) :=
  b.constants.map createConstant ++ b.structures.map createStruct ++ b.enumerations.map createEnum ++
    b.archives.map createArchive

/-- builder.py:94-110, one iteration: the names of the nested namespaces and the innermost one with its definitions. -/
def createBlock (b : PBlock) : M (List Text × Tree) := do
  let keys := splitDot b.name
  let names ← keys.mapM fun k => Tree.create k .namespace
  match names.getLast? with
  | none => throw .assertionError
  | some target => pure (keys, ← insertEach target (blockDefs b))

/-- builder.py:31-41 `_create_nested_namespaces`; the last one is changed by `f`. -/
def nestedNamespaces (f : Tree → M Tree) : Text → List Text → M Tree
  | k, [] => do f (← Tree.create k .namespace)
  | k, k' :: ks => do
    let c ← nestedNamespaces f k' ks
    (← Tree.create k .namespace).insert c

/-- builder.py:44-58 `_ensure_namespace` and then `f` on the namespace found or created. -/
def Tree.ensureNamespace (f : Tree → M Tree) : Tree → List Text → M Tree
  | t, [] => if t.kind = .namespace then f t else throw .assertionError
  | t, k :: ks => match t.child k with
    | some c => do pure (t.setChild (← c.ensureNamespace f ks))
    | none => do t.insert (← nestedNamespaces f k ks)

/-- builder.py:71-79 `_merge_roots`. The innermost namespace of a block (:63-70) is its target, because definitions are
not namespaces. -/
def mergeRoots (result : Tree) : List (List Text × Tree) → M Tree
  | [] => pure result
  | (keys, target) :: rest => do
    mergeRoots (← result.ensureNamespace (fun n => n.insertAll target.children) keys) rest

/-- builder.py:82-112 `_build_node_tree` after parsing. -/
def buildNodeTree (blocks : List PBlock) : M Tree := do
  mergeRoots Tree.root (← blocks.mapM createBlock)

/-! ## Multivector index types -/

/-- multivector.py:38-51 `builtins`. The width is a number here, so that for width 0 `if properties.width` in field.py:27 is
false and the field gets the full width of 64 bits. -/
def indexTypeDef (width : Nat) : PStruct :=
  { name := "IndexType".toList ++ natText width
    fields := [{ name := "value".toList, decorations := [.range "range".toList], type := "u64".toList,
                 width := if width = 0 then none else some width }] }

/-- Where the builtin types of the resource at `p` go: builder.py:118. -/
def builtinKeys (p : Path) : List Text := p.dropLast.dropLast ++ ["_builtin".toList, "multivector".toList]

/-- builder.py:117-124, one iteration of the loop of `_append_builtin_structures`, for the multivector at `p`. -/
def appendBuiltin (root : Tree) (p : Path) (width : Nat) : M Tree := do
  let root ← root.ensureNamespace (fun n => do
    let builtin ← createStruct (indexTypeDef width)
    if (n.child builtin.name).isSome then pure n else n.insert builtin) (builtinKeys p)
  let ref ← mkRef .builtinStructure (pathText (builtinKeys p ++ [(indexTypeDef width).name]))
  root.modifyAt (fun n => n.insert ref) p

/-- The multivectors of a tree with their paths and widths, in pre-order. -/
def multivectors (root : Tree) : List (Path × Nat) :=
  (root.iter []).filterMap fun e => match e.2.kind with
    | .resource (.multivector w) _ _ => some (e.1, w)
    | _ => none

/-- builder.py:115-124 `_append_builtin_structures`. -/
def appendBuiltins (root : Tree) : M Tree :=
  (multivectors root).foldlM (fun r e => appendBuiltin r e.1 e.2) root

end Gen
