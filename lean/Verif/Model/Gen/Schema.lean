import Verif.Model.Gen.Passes

/-!
# Model of the normalised schema: `generators/flatdata.py`, `templates/flatdata/*.jinja2` and `SyntaxTree.schema`

Jinja blocks on lines of their own leave no traces (`trim_blocks`, `lstrip_blocks`); the texts below are what remains.
-/

namespace Gen

/-! ## Pieces -/

/-- flatdata.py:30-31 `_field_type`: `replace("@@", ".").replace("@", ".")`. -/
def fieldTypeText : Text → Text
  | '@' :: '@' :: t => '.' :: fieldTypeText t
  | c :: t => (if c = '@' then '.' else c) :: fieldTypeText t
  | [] => []

/-- `', '.join(parts)`. -/
def commaSeparated : List Text → Text
  | [] => []
  | [w] => w
  | w :: ws => w ++ ", ".toList ++ commaSeparated ws

/-- syntax_tree.py:74-79 `namespaces`, by name, of the node at `p`: the nodes above it that are namespaces. -/
def namespacesOf (root : Tree) (p : Path) : List Text :=
  (List.range p.length).filterMap fun i => if isNamespaceAt root (p.take i) then (p.take i).getLast? else none

/-- flatdata.py:23-28 `_is_builtin` of the node at `p`. -/
def isBuiltin (root : Tree) (p : Path) : Bool := "_builtin".toList ∈ namespacesOf root p

/-- references.py:26-28 `node` and node.py:78-91 `path_with(".")`: the path of the node a reference points to. -/
def refPath (root : Tree) (ref : Tree) : M Path := do
  let _ ← root.find ref.target
  pure ref.targetPath

/-! ## Structures, enumerations, constants -/

/-- templates/flatdata/structure.jinja2:4-14, one field. -/
def printField (f : Tree) : M Text :=
  match f.kind with
  | .field ty range _ => do
    let name ← ty.nameText
    let width ← ty.width
    let rangeLine := match range with
      | some (c :: cs) => "    @range( ".toList ++ (c :: cs) ++ " )\n".toList
      | _ => []
    let constLines := (f.childrenLike fun k => k = .ref .constantValue).flatMap fun r =>
      "    @const( ".toList ++ r.target ++ " )\n".toList
    let optionalLine := match f.childrenLike fun k => k = .ref .invalidValue with
      | r :: _ => "    @optional( ".toList ++ r.target ++ " )\n".toList
      | [] => []
    pure (rangeLine ++ constLines ++ optionalLine ++ "    ".toList ++ f.name ++ " : ".toList ++ fieldTypeText name ++
      " : ".toList ++ natText width ++ ";\n".toList)
  | _ => throw .attributeError

/-- templates/flatdata/structure.jinja2. -/
def printStructure (n : Tree) : M Text := do
  let fields ← n.fields.mapM printField
  pure ("struct ".toList ++ n.name ++ "\n{\n".toList ++ fields.flatten ++ "}\n".toList)

/-- templates/flatdata/enumeration.jinja2:4-6, one value; generated values are left out (generators/__init__.py:60). -/
def printEnumValue (v : Tree) : Text :=
  match v.kind with
  | .enumValue x false => "    ".toList ++ v.name ++ " = ".toList ++ intText x ++ ",\n".toList
  | _ => []

/-- templates/flatdata/enumeration.jinja2. -/
def printEnumeration (n : Tree) (t : BasicType) : Text :=
  "enum ".toList ++ n.name ++ " : ".toList ++ t.name.text ++ " : ".toList ++ natText t.width ++ "\n{\n".toList ++
    n.children.flatMap printEnumValue ++ "}\n".toList

/-- templates/flatdata/constant.jinja2. -/
def printConstant (n : Tree) (t : BasicType) (v : Int) : Text :=
  "const ".toList ++ t.name.text ++ " ".toList ++ n.name ++ " = ".toList ++ intText v ++ ";\n".toList

/-! ## Archives -/

/-- base.py:40-42 `referenced_structures`. -/
def referencedStructures (r : Tree) : List Tree :=
  (r.childrenLike fun k => k = .ref .builtinStructure) ++ r.childrenLike fun k => k = .ref .structure

/-- flatdata.py:35-36 `_to_type_params`. -/
def typeParams (root : Tree) (refs : List Tree) : M Text := do
  let paths ← refs.mapM (refPath root)
  pure (commaSeparated ((paths.filter fun p => !isBuiltin root p).map pathText))

/-- templates/flatdata/resource.jinja2. -/
def printResourceType (root : Tree) (r : Tree) : M Text := do
  let params ← typeParams root (referencedStructures r)
  match r.kind with
  | .resource .instance _ _ => pure params
  | .resource .vector _ _ => pure ("vector< ".toList ++ params ++ " >".toList)
  | .resource (.multivector w) _ _ => pure ("multivector< ".toList ++ natText w ++ ", ".toList ++ params ++ " >".toList)
  | .resource .rawData _ _ => pure "raw_data".toList
  | .resource .archive _ _ => do
    let a ← r.onlyChild fun k => k = .ref .archive
    pure ("archive ".toList ++ pathText (← refPath root a))
  | _ => throw .attributeError

/-- templates/flatdata/archive.jinja2:13-15, one explicit reference. -/
def printExplicitReference (root : Tree) (e : Tree) : M Text := do
  let s ← refPath root (← e.onlyChild fun k => k = .ref .structure)
  let f ← refPath root (← e.onlyChild fun k => k = .ref .field)
  let d ← refPath root (← e.onlyChild Kind.isResourceReference)
  pure ("    @explicit_reference( ".toList ++ pathText s ++ ".".toList ++ f.getLastD [] ++ ", ".toList ++ pathText d ++
    " )\n".toList)

/-- templates/flatdata/archive.jinja2:12-20, one resource. -/
def printResource (root : Tree) (r : Tree) : M Text := do
  let refs ← (r.childrenLike fun k => k = .explicitReference).mapM (printExplicitReference root)
  let optionalLine := match r.kind with
    | .resource _ true _ => "    @optional\n".toList
    | _ => []
  let type ← printResourceType root r
  pure (refs.flatten ++ optionalLine ++ "    ".toList ++ r.name ++ " : ".toList ++ type ++ ";\n".toList)

/-- templates/flatdata/archive.jinja2:4-8, one group of bound resources. -/
def printBound (root : Tree) (b : Tree) : M Text := do
  let paths ← b.children.mapM (refPath root)
  pure ("@bound_implicitly( ".toList ++ b.name ++ " : ".toList ++ commaSeparated (paths.map pathText) ++ " )\n".toList)

/-- `isinstance(n, BoundResource)`. -/
def Kind.isBoundResource : Kind → Bool
  | .resource .bound _ _ => true
  | _ => false

/-- templates/flatdata/archive.jinja2 (nodes/archive.py:47-49 `resources`). -/
def printArchive (root : Tree) (n : Tree) : M Text := do
  let bounds ← (n.childrenLike Kind.isBoundResource).mapM (printBound root)
  let resources ← (n.childrenLike fun k => k.isResource && !k.isBoundResource).mapM (printResource root)
  pure (bounds.flatten ++ "archive ".toList ++ n.name ++ "\n{\n".toList ++ resources.flatten ++ "}\n".toList)

/-! ## Definitions -/

/-- templates/flatdata/flatdata.jinja2:8-16. References are looked up in the tree `root`. -/
def printDefinition (root : Tree) (n : Tree) : M Text :=
  match n.kind with
  | .structure _ => printStructure n
  | .enumeration t => pure (printEnumeration n t)
  | .archive => printArchive root n
  | .constant t v => pure (printConstant n t v)
  | _ => pure []

/-- templates/flatdata/namespace.jinja2 and flatdata.jinja2:7-17: one definition in its namespaces. -/
def printInNamespaces (namespaces : List Text) (definition : Text) : Text :=
  (namespaces.flatMap fun n => "namespace ".toList ++ n ++ " {\n".toList) ++ definition ++
    (namespaces.flatMap fun _ => "}\n".toList) ++ "\n".toList

/-- flatdata.py:19-20 `supported_nodes`. -/
def Kind.isSupported : Kind → Bool
  | .structure _ | .archive | .constant .. | .enumeration _ => true
  | _ => false

/-! ## Schemas of single nodes -/

/-- node.py:191-204 `extract_subtree` as seen by the traversal (traversal.py:12-15). The nodes of the extracted tree are
copies of the nodes on the way to the node at `q` (`(true, p)`) and, below the copy of the node itself, nodes of the
original tree (`(false, p)`), whose references lead to nodes of the original tree. -/
def extractChildren (root : Tree) (q : Path) (v : Bool × Path) : List (Bool × Path) :=
  if v.1 = true ∧ v.2 ≠ q then [(true, q.take (v.2.length + 1))] else (depChildren root v.2).map fun p => (false, p)

/-- The node of the extracted tree: copies above the node at `q` have one child only. -/
def extractNode (root : Tree) (q : Path) (v : Bool × Path) : Option Tree :=
  match root.descend v.2 with
  | none => none
  | some n =>
    if v.1 = true ∧ v.2 ≠ q then
      some (.mk n.name n.kind (n.children.filter fun c => some c.name = (q.drop v.2.length).head?))
    else some n

/-- generators/__init__.py:64-65 and templates/flatdata/flatdata.jinja2:6-7: the definitions to be printed. -/
def supportedNodes (root : Tree) (q : Path) (order : List (Bool × Path)) : List (Path × Tree) :=
  order.filterMap fun v => match extractNode root q v with
    | some n => if n.kind.isSupported && !isBuiltin root v.2 then some (v.2, n) else none
    | none => none

/-- generators/__init__.py:38-66 `render` with the flatdata template, for a given order of the nodes. -/
def renderFlatdata (root : Tree) (q : Path) (order : List (Bool × Path)) : M Text := do
  let parts ← (supportedNodes root q order).mapM fun e => do
    pure (printInNamespaces (namespacesOf root e.1) (← printDefinition root e.2))
  pure parts.flatten

/-- syntax_tree.py:65-72 `schema` of the node at `q`; the traversal takes at most `n` steps. -/
def schemaN (root : Tree) (q : Path) (n : Nat) : Option (M Text) :=
  match Dfs.run (extractChildren root q) n (Dfs.init (true, [])) with
  | none => none
  | some (.error e) => some (.error e)
  | some (.ok events) => some (renderFlatdata root q (dependencyOrder events))

/-- syntax_tree.py:65-72 `schema(node)` ends: it returns this text, or it raises. -/
def Schema (root : Tree) (q : Path) (out : M Text) : Prop := ∃ n, schemaN root q n = some out

end Gen
