import Verif.Model.Gen.NativeConstants

/-!
# Model of the Rust generator: archives

`templates/rust/{rust,archive,variadic,index}.jinja2` and `generators/rust.py`. Of the generated text the model keeps what names are defined
in which modules, and of archives what `open` reads: names, kinds, types, constants with schemas, maximal sizes. Documentation, the bodies of
functions and what `Model/Gen/NativeClasses.lean` and `Model/Gen/NativeConstants.lean` describe are left out.
-/

namespace Gen

/-- What `open` does with the bytes of a resource, rust/archive.jinja2:129-166, with the names of types as they are written. For a multivector
the type of the index, the name of its type (rust/archive.jinja2:20, rust/variadic.jinja2:2), and its elements in the order of their numbers
(rust/variadic.jinja2:12-16, :52-66, :105-110): the name of the variant, of the method that adds one, and of the type. -/
inductive RustContainer where
  | vector (type : Text)
  | instance (type : Text)
  | rawData
  | multivector (index variadic : Text) (elements : List (Text × Text × Text))
  | archive (type : Text)
  deriving DecidableEq, Repr

/-- What is written for a resource: the name (as a string and as the name of a field), the path of the constant with the schema, whether
`check_optional_resource` is used, and the maximal size. -/
structure RustResourceText where
  name : Text
  container : RustContainer
  schema : Text
  optional : Bool
  maxSize : Option Nat
  deriving DecidableEq, Repr

/-- What the model keeps of the program. Scopes are the paths of modules.

* `structure`: rust/structure.jinja2:9-27, :29, :107-122, :160. `ranges` are the functions for ranges with the first bit and the number of bits they
  read, `setters` are the names of the setters, `isIndex` tells whether `IndexStruct` is implemented (rust/index.jinja2). A struct without
  ranges has the functions `from_bytes_slice` and `from_bytes_slice_mut`.
* `archive`: rust/archive.jinja2:17-43, :119, :188; `schema` is the path of the constant with its schema.
* `constant`: rust/rust.jinja2:41, :45, with the literal. -/
inductive RustDecl where
  | module (path : Path)
  | structure (scope : Path) (name : Text) (size : Nat) (ranges : List (Text × Nat × Nat)) (setters : List Text) (isIndex : Bool)
  | enumeration (scope : Path) (name : Text)
  | archive (scope : Path) (name schema : Text) (resources : List RustResourceText)
  | constant (scope : Path) (name literal : Text)
  deriving DecidableEq, Repr

/-- `str.title` of a part of a name between underscores, on ASCII: letters are upper case at the beginning and behind digits. -/
def titleFrom : Bool → Text → Text
  | _, [] => []
  | start, c :: t =>
    if isUpperChar c || isLowerChar c then (if start then upperChar c else lowerChar c) :: titleFrom false t
    else c :: titleFrom true t

/-- `str.split('_')`. -/
def splitUnderscores : Text → List Text
  | [] => [[]]
  | c :: t =>
    if c = '_' then [] :: splitUnderscores t
    else match splitUnderscores t with
      | [] => [[c]]
      | w :: ws => (c :: w) :: ws

/-- rust.py:50-51 `_snake_to_upper_camel_case`. -/
def upperCamel (t : Text) : Text := (splitUnderscores t).flatMap (titleFrom true)

/-- Whether a text occurs in another one. -/
def occursIn (x : Text) : Text → Bool
  | [] => x.isEmpty
  | c :: t => x.isPrefixOf (c :: t) || occursIn x t

/-- generators/__init__.py:57-58 `is_multivector_index`, of the structure at `p`; syntax_tree.py:81-86 `namespace_path`. -/
def isIndexPath (root : Tree) (p : Path) : Bool := occursIn "_builtin.multivector".toList (joinTexts ['.'] (namespacesOf root p))

/-- rust/structure.jinja2:88, :107-110, one field: its range, if it has one. (A range that is the empty text counts as none.) -/
def rustFieldRange (f : Tree) : M (Option (Text × Nat × Nat)) :=
  match f.kind with
  | .field ty (some (c :: r)) _ => do
    let offset ← f.kind.fieldOffset
    pure (some (escapeRust (c :: r), offset, ← ty.width))
  | _ => pure none

/-- rust/rust.jinja2:23-26 with rust/structure.jinja2 and rust/index.jinja2. -/
def rustStructDecl (root : Tree) (p : Path) (n : Tree) : M RustDecl := do
  let size ← n.kind.sizeInBytes
  let ranges ← n.fields.mapM rustFieldRange
  pure (.structure p.dropLast n.name size (ranges.filterMap id) (n.fields.map fun f => "set_".toList ++ escapeRust f.name) (isIndexPath root p))

/-- rust/archive.jinja2:128: `{% if r.max_size %}Some(...){% else %}None{% endif %}`. -/
def rustMaxSize : Option Nat → Option Nat
  | some 0 => none
  | m => m

/-- base.py `max_size`. -/
def Kind.maxSize : Kind → Option Nat
  | .resource _ _ m => m
  | _ => none

/-- rust.py:87-88 `_fully_qualified_name` of what a reference refers to, for use in the node at `p`. -/
def rustRefName (root : Tree) (p : Path) (ref : Tree) : M Text := do
  pure (rustQualified p (← refPath root ref))

/-- rust/variadic.jinja2:14-15, :53-57: an element type of a multivector. -/
def rustElement (root : Tree) (p : Path) (ref : Tree) : M (Text × Text × Text) := do
  let q ← refPath root ref
  let name := q.getLastD []
  pure (name, "add_".toList ++ camelToSnake name, rustQualified p q)

/-- rust.py:94-96 `structure_references`. -/
def rustElements (root : Tree) (r : Tree) : List Tree := (referencedStructures r).filter fun ref => !isIndexPath root ref.targetPath

/-- rust/archive.jinja2:129-166: a resource of the archive at `p`. -/
def rustContainer (root : Tree) (p : Path) (r : Tree) : M RustContainer :=
  match r.kind with
  | .resource .vector _ _ => match referencedStructures r with
    | s :: _ => do pure (.vector (← rustRefName root p s))
    | [] => throw .indexError
  | .resource .instance _ _ => match referencedStructures r with
    | s :: _ => do pure (.instance (← rustRefName root p s))
    | [] => throw .indexError
  | .resource .rawData _ _ => pure .rawData
  | .resource (.multivector _) _ _ => match r.childrenLike fun k => k = .ref .builtinStructure with
    | [index] => do
      let i ← rustRefName root p index
      pure (.multivector i (upperCamel r.name) (← (rustElements root r).mapM (rustElement root p)))
    | _ => throw .assertionError
  | .resource .archive _ _ => match r.childrenLike fun k => k = .ref .archive with
    | [a] => do pure (.archive (← rustRefName root p a))
    | _ => throw .assertionError
  | _ => throw .attributeError

/-- rust/archive.jinja2:15: the name of the module with the schemas of the archive `name`. -/
def rustSchemaModule (name : Text) : Text := camelToSnake name

/-- `{{ r.name | upper }}`. -/
def upperName (t : Text) : Text := t.map upperChar

/-- rust/archive.jinja2:125-166: what is written for a resource `r` of the archive `n` at `p`. -/
def rustResourceText (root : Tree) (p : Path) (n r : Tree) : M RustResourceText := do
  let c ← rustContainer root p r
  pure ⟨r.name, c, "schema::".toList ++ rustSchemaModule n.name ++ "::resources::".toList ++ upperName r.name, r.kind.isOptional, rustMaxSize r.kind.maxSize⟩

/-- rust/rust.jinja2:29-31, :36-49 and rust/archive.jinja2: the archive `n` at `p`, and its schemas. `schema` is what `tree.schema` returns. -/
def rustArchiveDecls (root : Tree) (schema : Path → M Text) (p : Path) (n : Tree) : M (List RustDecl) := do
  let resources ← n.plainResources.mapM (rustResourceText root p n)
  let inner := p.dropLast ++ ["schema".toList, rustSchemaModule n.name]
  let own ← schema p
  let constants ← n.plainResources.mapM fun r => do
    let x ← schema (p ++ [r.name])
    pure (RustDecl.constant (inner ++ ["resources".toList]) (upperName r.name) (rustRawLiteral x))
  pure (.archive p.dropLast n.name ("schema::".toList ++ rustSchemaModule n.name ++ "::".toList ++ rustConstName n.name) resources ::
    .module inner :: .module (inner ++ ["resources".toList]) :: .constant inner (rustConstName n.name) (rustRawLiteral own) :: constants)

/-- rust/rust.jinja2:8-52: what is written for the node at `p`. -/
def rustDecls (root : Tree) (schema : Path → M Text) (e : Path × Tree) : M (List RustDecl) :=
  match e.2.kind with
  | .namespace => pure [.module e.1, .module (e.1 ++ ["schema".toList])]
  | .structure _ => do pure [← rustStructDecl root e.1 e.2]
  | .enumeration _ => pure [.enumeration e.1.dropLast e.2.name]
  | .archive => rustArchiveDecls root schema e.1 e.2
  | _ => pure []

/-- The nodes whose schema the template asks for. -/
def rustSchemaPaths (e : Path × Tree) : List Path := if e.2.kind = .archive then schemaPaths e else []

/-- The nodes the template visits. -/
def rustNodes (root : Tree) : List (Path × Tree) := (root.iter []).filter fun e => rustVisited root e.1

/-- rust/rust.jinja2; computing the schemas takes at most `n` steps. (The order of items does not matter in Rust. `render` also computes the
dependency order, which the template does not use, and which exists for accepted schemas.) -/
def rustArchivesN (root : Tree) (n : Nat) : Option (M (List RustDecl)) :=
  if ((rustNodes root).flatMap rustSchemaPaths).all fun q => (schemaN root q n).isSome then
    some (do pure (← (rustNodes root).mapM (rustDecls root fun q => (schemaN root q n).getD (throw .runtimeError))).flatten)
  else none

/-- `render` with the Rust template ends: it writes these items, or it raises. -/
def RustArchives (root : Tree) (out : M (List RustDecl)) : Prop := ∃ n, rustArchivesN root n = some out

end Gen
