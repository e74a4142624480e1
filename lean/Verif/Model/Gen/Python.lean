import Verif.Model.Gen.Schema
import Verif.Model.Gen.Literals
import Verif.Model.Builder
import Verif.Spec.Literal
import Verif.Spec.Lexical

/-!
# Model of the Python generator: `generators/python.py` and `templates/py/python.jinja2`

What the template writes is modelled as a list of class statements, with string literals as they are written. Numbers,
booleans, dictionary displays and the names of containers are not spelled out. Documentation is not modelled (comments are
left out, documentation strings are empty).

The second half says what Python does with these statements when the module is imported.
-/

namespace Gen

/-! ## Statements -/

/-- The right hand side of `initializer=` (python.jinja2:49). -/
inductive PyInit where
  | none
  | name (n : Text)
  | list (ns : List Text)
  deriving DecidableEq, Repr

/-- The right hand side of `container=` (python.jinja2:48). -/
inductive PyContainer where
  | instance
  | vector
  | multivector
  | rawData
  | archive
  deriving DecidableEq, Repr

/-- One entry of `_FIELDS` (python.jinja2:22). -/
structure PyField where
  key : Text
  offset : Nat
  width : Nat
  isSigned : Bool
  dtype : Text
  deriving DecidableEq, Repr

/-- One entry of `_RESOURCES` (python.jinja2:41-52). -/
structure PyResource where
  key : Text
  container : PyContainer
  init : PyInit
  schemaVar : Text
  isOptional : Bool
  deriving DecidableEq, Repr

/-- A class statement. -/
inductive PyStmt where
  /-- python.jinja2:11-29. `schema` is the literal assigned to `_SCHEMA`. -/
  | structure (cls schema name : Text) (sizeInBits sizeInBytes : Nat) (fields : List PyField) (keys : List Text)
  /-- python.jinja2:33-57 and, for a builder, :62-86. `vars` are the assignments of string literals to variables. -/
  | archive (builder : Bool) (cls : Text) (vars : List (Text × Text)) (name : Text) (resources : List PyResource)
  deriving DecidableEq, Repr

/-! ## Generation -/

/-- python.py:23-25 `_decorate_archive_type`; python.jinja2:11, :33, :62: the name of the class of the node at `p`. -/
def className (root : Tree) (p : Path) : Text := joinTexts ['_'] (namespacesOf root p) ++ '_' :: p.getLastD []

/-- python.py:63-73: the values of `type_map`. -/
def BasicName.dtypeText : BasicName → Text
  | .bool => "?".toList
  | .i8 => "b".toList
  | .u8 => "B".toList
  | .u16 => "u2".toList
  | .i16 => "i2".toList
  | .u32 => "u4".toList
  | .i32 => "i4".toList
  | .u64 => "u8".toList
  | .i64 => "i8".toList

/-- python.py:62-76 `to_dtype`. The first enumeration reference among the children of a field is its `type_reference`
(field.py:21-27); without it the attribute is missing. -/
def toDtype (root : Tree) (f : Tree) (ty : FieldType) : M Text :=
  match ty with
  | .basic b => pure b.name.dtypeText
  | .none => throw .attributeError
  | .enum n _ =>
    match basicOfText n with
    | some b => pure b.dtypeText
    | none =>
      match f.childrenLike Kind.isEnumerationReference with
      | [] => throw .attributeError
      | ref :: _ => do
        let e ← root.find ref.target
        match e.kind with
        | .enumeration b => pure b.name.dtypeText
        | _ => throw .attributeError

/-- basictype.py:40-42 and enumtype.py:18-20 `field.type.is_signed`. -/
def FieldType.isSigned : FieldType → M Bool
  | .basic t => pure t.name.isSigned
  | .enum _ t => pure t.name.isSigned
  | .none => throw .attributeError

/-- python.jinja2:18-22, one field. (A missing offset would be written as `None`; it counts as an error here.) -/
def pyField (root : Tree) (f : Tree) : M PyField :=
  match f.kind with
  | .field ty _ offset => do
    let width ← ty.width
    let signed ← ty.isSigned
    let dtype ← toDtype root f ty
    match offset with
    | some o => pure ⟨f.name, o, width, signed, dtype⟩
    | none => throw .typeError
  | _ => throw .attributeError

/-- python.jinja2:9-30 `structure_definition`, structure.py:40-42 `size_in_bytes`. `schema` is what `tree.schema(struct)`
returns. -/
def pyStructure (root : Tree) (p : Path) (n : Tree) (schema : M Text) : M PyStmt :=
  match n.kind with
  | .structure (some bits) => do
    let s ← schema
    let fields ← n.fields.mapM (pyField root)
    pure (.structure (className root p) (pyRawLiteral s) (className root p) bits ((bits + 7) / 8) fields (n.fields.map Tree.name))
  | _ => throw .typeError

/-- `str.upper` of an identifier. -/
def upperText (t : Text) : Text := t.map Char.toUpper

/-- python.jinja2:36: the variable for the schema of a resource. -/
def schemaVariable (r : Text) : Text := '_' :: upperText r ++ "_SCHEMA".toList

/-- python.jinja2:37: the variable for the documentation of a resource. -/
def docVariable (r : Text) : Text := '_' :: upperText r ++ "_DOC".toList

/-- python.py:34-45 `to_container`; bound resources are left out by the template. -/
def toContainer : Kind → M PyContainer
  | .resource .instance _ _ => pure .instance
  | .resource .vector _ _ => pure .vector
  | .resource (.multivector _) _ _ => pure .multivector
  | .resource .rawData _ _ => pure .rawData
  | .resource .archive _ _ => pure .archive
  | _ => throw .attributeError

/-- `_decorate_archive_type(tree, ref.node)`. -/
def refClass (root : Tree) (ref : Tree) : M Text := do
  pure (className root (← refPath root ref))

/-- python.py:47-60 `to_initializer`. -/
def toInitializer (root : Tree) (r : Tree) : M PyInit :=
  match r.kind with
  | .resource .instance _ _ => match referencedStructures r with
    | s :: _ => do pure (.name (← refClass root s))
    | [] => throw .indexError
  | .resource .vector _ _ => match referencedStructures r with
    | s :: _ => do pure (.name (← refClass root s))
    | [] => throw .indexError
  | .resource (.multivector _) _ _ => do pure (.list (← (referencedStructures r).mapM (refClass root)))
  | .resource .archive _ _ => match r.children with
    | c :: _ => if c.kind.isReference then do pure (.name (← refClass root c)) else throw .attributeError
    | [] => throw .indexError
  | .resource .rawData _ _ => pure .none
  | _ => throw .attributeError

/-- base.py:24-26 `optional`. -/
def Kind.isOptional : Kind → Bool
  | .resource _ o _ => o
  | _ => false

/-- python.jinja2:48-52, one resource. -/
def pyResource (root : Tree) (r : Tree) : M PyResource := do
  let c ← toContainer r.kind
  let i ← toInitializer root r
  pure ⟨r.name, c, i, schemaVariable r.name, r.kind.isOptional⟩

/-- python.jinja2:35 and :47: `archive.resources if not resource|is_bound_resource`. -/
def Tree.plainResources (n : Tree) : List Tree := n.childrenLike fun k => k.isResource && !k.isBoundResource

/-- python.jinja2:32-58 `archive_definition` and :60-87 `archive_builder_definition`, which differ in the name of the class and in
the base class. `schema` is what `tree.schema` returns. -/
def pyArchive (root : Tree) (builder : Bool) (p : Path) (n : Tree) (schema : Path → M Text) : M PyStmt := do
  let s ← schema p
  let vars ← n.plainResources.mapM fun r => do
    let x ← schema (p ++ [r.name])
    pure [(schemaVariable r.name, pyLiteral x), (docVariable r.name, pyLiteral [])]
  let resources ← n.plainResources.mapM (pyResource root)
  pure (.archive builder (className root p ++ if builder then "Builder".toList else [])
    (("_SCHEMA".toList, pyLiteral s) :: vars.flatten) n.name
    (⟨n.name ++ ".archive".toList, .rawData, .none, "_SCHEMA".toList, false⟩ :: resources))

/-- python.jinja2:89-96: the statements for one node. -/
def pyNode (root : Tree) (schema : Path → M Text) (e : Path × Tree) : M (List PyStmt) :=
  match e.2.kind with
  | .structure _ => do pure [← pyStructure root e.1 e.2 (schema e.1)]
  | .archive => do pure [← pyArchive root false e.1 e.2 schema, ← pyArchive root true e.1 e.2 schema]
  | _ => pure []

/-- python.py:19-20 `supported_nodes` and generators/__init__.py:64-65: structures and archives in dependency order. -/
def pyNodes (root : Tree) (order : List Path) : List (Path × Tree) :=
  order.filterMap fun p => match root.descend p with
    | some n => if n.kind.isStructure || n.kind = .archive then some (p, n) else none
    | none => none

/-- The nodes whose schema the template asks for. -/
def schemaPaths (e : Path × Tree) : List Path := e.1 :: e.2.plainResources.map fun r => e.1 ++ [r.name]

/-- generators/__init__.py:38-66 `render` with the Python template; all traversals take at most `n` steps. -/
def pyModuleN (root : Tree) (n : Nat) : Option (M (List PyStmt)) :=
  match Dfs.run (depChildren root) n (Dfs.init []) with
  | none => none
  | some (.error e) => some (.error e)
  | some (.ok events) =>
    let nodes := pyNodes root (dependencyOrder events)
    if (nodes.flatMap schemaPaths).all fun q => (schemaN root q n).isSome then
      some (do pure (← nodes.mapM (pyNode root fun q => (schemaN root q n).getD (throw .runtimeError))).flatten)
    else none

/-- generators/__init__.py:38-66 `render` with the Python template ends: it writes these statements, or it raises. -/
def PyModule (root : Tree) (out : M (List PyStmt)) : Prop := ∃ n, pyModuleN root n = some out

/-! ## Execution

The Python reference says: 4.2.2 names in a class body are looked up in the class body, then globally; 6.2.1 names that begin
with two underscores and do not end with two are mangled in a class body; 6.2.7 in dictionary displays the last value for a key
wins. -/

/-- What a global name of the module can stand for. -/
inductive PyVal where
  /-- A subclass of `Structure`, with `_SIZE_IN_BITS`, `_SCHEMA` and the dtypes of `_FIELDS`. -/
  | structure (t : Model.StructType) (sizeInBits : Nat) (schema : Text) (dtypes : List (Text × Text))
  | archive (t : Model.ArchiveType)
  | builder (t : Model.ArchiveType)

/-- Private name mangling in the body of the class `cls`. -/
def mangle (cls name : Text) : Text :=
  let stripped := cls.dropWhile (· = '_')
  if name.take 2 = ['_', '_'] ∧ name.reverse.take 2 ≠ ['_', '_'] ∧ stripped ≠ [] then '_' :: stripped ++ name else name

/-- The value of a triple-quoted string literal at the end of a line. -/
def evalLiteral (l : Text) : Option Text :=
  match Spec.pyTriple (l ++ ['\n']) with
  | some (v, ['\n']) => some v
  | _ => none

/-- The variables of a class body after the assignments, latest first. -/
def evalVars (cls : Text) : List (Text × Text) → List (Text × Text) → Option (List (Text × Text))
  | [], body => some body
  | (name, l) :: rest, body => match evalLiteral l with
    | some v => evalVars cls rest ((mangle cls name, v) :: body)
    | none => none

/-- A name in the body of the class `cls` that is to stand for a global one: `none` if it is undefined, or if it is a variable of
the body (which holds a string). -/
def evalGlobal (cls : Text) (body : List (Text × Text)) (env : List (Text × PyVal)) (name : Text) : Option PyVal :=
  match body.lookup (mangle cls name) with
  | some _ => none
  | none => env.lookup (mangle cls name)

/-- A dictionary display. -/
def dictDisplay {α : Type} (l : List (String × α)) : List (String × α) := l.foldl (fun d p => Model.dictSet d p.1 p.2) []

/-- A name that stands for a structure. -/
def evalStructure (cls : Text) (body : List (Text × Text)) (env : List (Text × PyVal)) (name : Text) : Option Model.StructType :=
  match evalGlobal cls body env name with
  | some (.structure t _ _ _) => some t
  | _ => none

/-- One entry of `_RESOURCES`. A container with an initializer of the wrong kind would not raise here, but it would be
unusable; that is not modelled (`none`). The first structure of a multivector is the one of its index (resources.py:139-143). -/
def evalResource (cls : Text) (body : List (Text × Text)) (env : List (Text × PyVal)) (r : PyResource) : Option (String × Model.Sig) := do
  let schema ← body.lookup (mangle cls r.schemaVar)
  let sig ← match r.container, r.init with
    | .instance, .name n => do pure (.instance (← evalStructure cls body env n) (String.ofList schema) r.isOptional)
    | .vector, .name n => do pure (.vector (← evalStructure cls body env n) (String.ofList schema) r.isOptional)
    | .multivector, .list (n :: ns) => do
      pure (.multivector (← evalStructure cls body env n) (← ns.mapM (evalStructure cls body env)) (String.ofList schema) r.isOptional)
    | .rawData, .none => some (.rawData (String.ofList schema) r.isOptional)
    | .archive, .name n => match evalGlobal cls body env n with
      | some (.archive a) => some (.sub a.name a.schema a.resources (String.ofList schema) r.isOptional)
      | _ => none
    | _, _ => none
  pure (String.ofList r.key, sig)

/-- Executing one class statement; `env` are the global names, latest first. `none`: an exception, or something that is not
modelled. -/
def execStmt (env : List (Text × PyVal)) : PyStmt → Option (List (Text × PyVal))
  | .structure cls schema name bits bytes fields keys =>
    if Spec.Ident cls then do
      let s ← evalLiteral schema
      pure ((cls, .structure {
        name := String.ofList name
        sizeInBytes := bytes
        fields := dictDisplay (fields.map fun f => (String.ofList f.key, ⟨f.offset, f.width, f.isSigned⟩))
        fieldKeys := keys.map String.ofList } bits s (fields.map fun f => (f.key, f.dtype))) :: env)
    else none
  | .archive builder cls vars name resources =>
    if Spec.Ident cls then do
      let body ← evalVars cls vars []
      let schema ← body.lookup (mangle cls "_SCHEMA".toList)
      let rs ← resources.mapM (evalResource cls body env)
      let t : Model.ArchiveType := { name := String.ofList name, schema := String.ofList schema, resources := dictDisplay rs }
      pure ((cls, if builder then .builder t else .archive t) :: env)
    else none

/-- Importing the module. -/
def execModule : List (Text × PyVal) → List PyStmt → Option (List (Text × PyVal))
  | env, [] => some env
  | env, s :: ss => match execStmt env s with
    | some env => execModule env ss
    | none => none

end Gen
