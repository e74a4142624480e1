import Verif.Model.Gen.NativeArchives

/-!
# Model of the C++ generator: archives

`templates/cpp/{cpp,archive,resource,structure,enumeration,constant,namespace}.jinja2` and `generators/cpp.py`. Of the generated text the model keeps
the names that namespaces define, and of archives what is read and written: names, kinds, types, constants with schemas, maximal sizes. Documentation,
the bodies of other functions and what `Model/Gen/NativeClasses.lean` and `Model/Gen/NativeConstants.lean` describe are left out.
-/

namespace Gen

/-- cpp/resource.jinja2:1-17 `reader_type`: the type of a resource in an archive, with the names of types as they are written (cpp.py:48-49
`_to_type_params`: several, separated by commas). -/
inductive CppReaderType where
  | structures (types : List Text)
  | arrayView (types : List Text)
  | multiArrayView (types : List Text)
  | memoryDescriptor
  | archive (type : Text)
  deriving DecidableEq, Repr

/-- cpp/resource.jinja2:19-35 `writer_type`: the type of a resource in a builder. -/
inductive CppWriterType where
  | structures (types : List Text)
  | externalVector (types : List Text)
  | multiVector (types : List Text)
  | memoryDescriptor
  | builder (type : Text)
  deriving DecidableEq, Repr

/-- cpp/archive.jinja2:24-32, :44-46: a resource in the class of an archive: the name of its type (cpp.py:58-60 `_typedef_name`), the type, the name
of its getter (the member has `m_` before it), and whether the member is a `boost::optional`. -/
structure CppResourceMember where
  typedefName : Text
  type : CppReaderType
  name : Text
  optional : Bool
  deriving DecidableEq, Repr

/-- cpp/archive.jinja2:149-154: `read_resource( is_open, member, "file", internal::schema )`, and the maximal size behind it, with whether `->`
(not `.`) is written before `size( )`. -/
structure CppReadLine where
  member : Text
  file : Text
  schema : Text
  limit : Option (Bool × Nat)
  deriving DecidableEq, Repr

/-- cpp/archive.jinja2:218-234: in a builder, `start_name` (with cpp/resource.jinja2:37-49 `incremental_write_call`) or `set_name`, or both; they write to
`file`, with `internal::schema`. -/
structure CppWriteLine where
  name : Text
  type : CppWriterType
  starts : Bool
  sets : Bool
  file : Text
  schema : Text
  deriving DecidableEq, Repr

/-- What the model keeps of a header, in the order of the text. Scopes are namespaces (cpp/namespace.jinja2:2-3).

* `structure`: cpp/structure.jinja2:3-70: `union nameTemplate` with `size_in_bytes` (:113-115), `IS_OVERLAPPING_WITH_NEXT` (:56), and its members for
  ranges (:22-25) with the first bit and the number of bits; the typedefs `name` and `nameMutator`.
* `enumeration`: cpp/enumeration.jinja2:6-17, with its function `to_string`.
* `constant`: cpp/constant.jinja2.
* `archive`: cpp/archive.jinja2:3-47, and the builder, :49-87: the types of its resources, and the archives in it with the types of their builders.
* `schema`: cpp/archive.jinja2:92-103 and cpp/structure.jinja2:75-78: a constant in `namespace internal`.
* `initialize`: cpp/archive.jinja2:105-160: `name( )`, `schema( )` and `load_contents( )` of the archive; `loads` are the lines `load_archive( is_open,
  member, "file" )`.
* `builder`: cpp/archive.jinja2:182-246: `name( )`, `schema( )`, the functions for resources, and for archives in it the members with the directories. -/
inductive CppItem where
  | structure (scope : List Text) (name : Text) (size : Nat) (overlapping : Bool) (ranges : List (Text × Nat × Nat))
  | enumeration (scope : List Text) (name : Text)
  | constant (scope : List Text) (name : Text)
  | archive (scope : List Text) (name : Text) (members : List CppResourceMember) (builders : List (Text × CppWriterType))
  | schema (scope : List Text) (name literal : Text)
  | initialize (scope : List Text) (name fileName schema : Text) (reads : List CppReadLine) (loads : List (Text × Text))
  | builder (scope : List Text) (name fileName schema : Text) (writes : List CppWriteLine) (creates : List (Text × Text))
  deriving DecidableEq, Repr

/-- cpp/structure.jinja2:22-25, one field: its range, if it has one. (A range that is the empty text counts as none.) -/
def cppFieldRange (f : Tree) : M (Option (Text × Nat × Nat)) :=
  match f.kind with
  | .field ty (some (c :: r)) _ => do
    let offset ← f.kind.fieldOffset
    pure (some (c :: r, offset, ← ty.width))
  | _ => pure none

/-- structure.py:24-26 `has_range`, of a field. -/
def fieldRanged (f : Tree) : Bool :=
  match f.kind with
  | .field _ (some (_ :: _)) _ => true
  | _ => false

/-- cpp/structure.jinja2:3-70. -/
def cppStructItem (root : Tree) (p : Path) (n : Tree) : M CppItem := do
  let size ← n.kind.sizeInBytes
  let ranges ← n.fields.mapM cppFieldRange
  pure (.structure (namespacesOf root p) n.name size (n.fields.any fieldRanged) (ranges.filterMap id))

/-- cpp.py:48-49 `_to_type_params`, before joining; node.py:87-91 `path_with("::")`. -/
def cppTypeParams (root : Tree) (refs : List Tree) : M (List Text) := refs.mapM fun ref => do pure (doubleColons (← refPath root ref))

/-- cpp/resource.jinja2:1-17 `reader_type`. -/
def cppReaderType (root r : Tree) : M CppReaderType := do
  let params ← cppTypeParams root (referencedStructures r)
  match r.kind with
  | .resource .instance _ _ => pure (.structures params)
  | .resource .vector _ _ => pure (.arrayView params)
  | .resource (.multivector _) _ _ => pure (.multiArrayView params)
  | .resource .rawData _ _ => pure .memoryDescriptor
  | .resource .archive _ _ => match r.childrenLike fun k => k = .ref .archive with
    | [a] => do pure (.archive (doubleColons (← refPath root a)))
    | _ => throw .assertionError
  | _ => throw .attributeError

/-- cpp/resource.jinja2:19-35 `writer_type`. -/
def cppWriterType (root r : Tree) : M CppWriterType := do
  let params ← cppTypeParams root (referencedStructures r)
  match r.kind with
  | .resource .instance _ _ => pure (.structures params)
  | .resource .vector _ _ => pure (.externalVector params)
  | .resource (.multivector _) _ _ => pure (.multiVector params)
  | .resource .rawData _ _ => pure .memoryDescriptor
  | .resource .archive _ _ => match r.childrenLike fun k => k = .ref .archive with
    | [a] => do pure (.builder (doubleColons (← refPath root a) ++ "Builder".toList))
    | _ => throw .assertionError
  | _ => throw .attributeError

/-- cpp.py:58-60 `_typedef_name`. -/
def cppAlias (name : Text) : Text := upperCamel name ++ "Type".toList

/-- cpp/archive.jinja2:24-32, :44-46. -/
def cppResourceMember (root r : Tree) : M CppResourceMember := do
  pure ⟨cppAlias r.name, ← cppReaderType root r, r.name, r.kind.isOptional⟩

/-- cpp.py:108-109 `archive_resources`. -/
def isArchiveResource (r : Tree) : Bool :=
  match r.kind with
  | .resource .archive _ _ => true
  | _ => false

/-- cpp.py:105-107 `simple_resources`. -/
def simpleResources (n : Tree) : List Tree := n.plainResources.filter fun r => !isArchiveResource r

/-- cpp.py:108-109 `archive_resources`, of a node. -/
def nestedResources (n : Tree) : List Tree := n.plainResources.filter isArchiveResource

/-- The name of the constant with the schema of a resource: cpp/archive.jinja2:100, and where it is used. -/
def cppResourceSchema (archive resource : Text) : Text := archive ++ "__".toList ++ resource ++ "__schema__".toList

/-- The name of the constant with the schema of a structure or archive: cpp/archive.jinja2:95, cpp/structure.jinja2:77. -/
def cppOwnSchema (name : Text) : Text := name ++ "__schema__".toList

/-- cpp/archive.jinja2:3-87: the archive `n` at `p` and its builder. -/
def cppArchiveItem (root : Tree) (p : Path) (n : Tree) : M CppItem := do
  let members ← n.plainResources.mapM (cppResourceMember root)
  let builders ← (simpleResources n ++ nestedResources n).mapM fun r => do pure (r.name, ← cppWriterType root r)
  pure (.archive (namespacesOf root p) n.name members builders)

/-- cpp/cpp.jinja2:12-25: the declarations for a node. -/
def cppDeclaration (root : Tree) (e : Path × Tree) : M (List CppItem) :=
  match e.2.kind with
  | .structure _ => do pure [← cppStructItem root e.1 e.2]
  | .enumeration _ => pure [.enumeration (namespacesOf root e.1) e.2.name]
  | .constant _ _ => pure [.constant (namespacesOf root e.1) e.2.name]
  | .archive => do pure [← cppArchiveItem root e.1 e.2]
  | _ => pure []

/-- cpp/archive.jinja2:149-154, one line. -/
def cppReadLine (n r : Tree) : CppReadLine where
  member := "m_".toList ++ r.name
  file := r.name
  schema := cppResourceSchema n.name r.name
  limit := match r.kind.maxSize with
    | none | some 0 => none
    | some m => some (r.kind.isOptional, m)

/-- cpp.py:74-84 `_resource_provides_incremental_builder`. (A `ValueError` is a `runtimeError` in the model.) -/
def cppStarts (r : Tree) : M Bool :=
  match r.kind with
  | .resource .instance _ _ => pure false
  | .resource .vector _ _ => pure true
  | .resource (.multivector _) _ _ => pure true
  | .resource .rawData _ _ => pure false
  | _ => throw .runtimeError

/-- cpp.py:89-99 `provides_setter`. (As above.) -/
def cppSets (r : Tree) : M Bool :=
  match r.kind with
  | .resource .instance _ _ => pure true
  | .resource .vector _ _ => pure true
  | .resource (.multivector _) _ _ => pure false
  | .resource .rawData _ _ => pure true
  | _ => throw .runtimeError

/-- cpp/archive.jinja2:218-234, one resource. -/
def cppWriteLine (root n r : Tree) : M CppWriteLine := do
  pure ⟨r.name, ← cppWriterType root r, ← cppStarts r, ← cppSets r, r.name, cppResourceSchema n.name r.name⟩

/-- cpp/archive.jinja2:90-247: the definitions for the archive `n` at `p`. `schema` is what `tree.schema` returns. -/
def cppArchiveDefinition (root : Tree) (schema : Path → M Text) (p : Path) (n : Tree) : M (List CppItem) := do
  let scope := namespacesOf root p
  let own ← schema p
  let constants ← n.plainResources.mapM fun r => do
    let x ← schema (p ++ [r.name])
    pure (CppItem.schema scope (cppResourceSchema n.name r.name) (cppLiteral x))
  let writes ← (simpleResources n).mapM (cppWriteLine root n)
  pure (.schema scope (cppOwnSchema n.name) (cppLiteral own) :: constants ++
    [.initialize scope n.name n.name (cppOwnSchema n.name) ((simpleResources n).map (cppReadLine n))
      ((nestedResources n).map fun r => ("m_".toList ++ r.name, r.name)),
     .builder scope n.name n.name (cppOwnSchema n.name) writes ((nestedResources n).map fun r => ("m_".toList ++ r.name, r.name))])

/-- cpp/cpp.jinja2:31-41: the definitions for a node. -/
def cppDefinition (root : Tree) (schema : Path → M Text) (e : Path × Tree) : M (List CppItem) :=
  match e.2.kind with
  | .structure _ => do pure [.schema (namespacesOf root e.1) (cppOwnSchema e.2.name) (cppRawLiteral (← schema e.1))]
  | .archive => cppArchiveDefinition root schema e.1 e.2
  | _ => pure []

/-- The nodes whose schema the template asks for. -/
def cppSchemaPaths (e : Path × Tree) : List Path :=
  match e.2.kind with
  | .structure _ => [e.1]
  | .archive => schemaPaths e
  | _ => []

/-- generators/__init__.py:38-66 `render` with cpp/cpp.jinja2; all traversals take at most `n` steps. -/
def cppArchivesN (root : Tree) (n : Nat) : Option (M (List CppItem)) :=
  match Dfs.run (depChildren root) n (Dfs.init []) with
  | none => none
  | some (.error e) => some (.error e)
  | some (.ok events) =>
    let nodes := cppNodes root (dependencyOrder events)
    if (nodes.flatMap cppSchemaPaths).all fun q => (schemaN root q n).isSome then
      some (do
        let declarations ← nodes.mapM (cppDeclaration root)
        let definitions ← nodes.mapM (cppDefinition root fun q => (schemaN root q n).getD (throw .runtimeError))
        pure (declarations.flatten ++ definitions.flatten))
    else none

/-- `render` with the C++ template ends: it writes these items, or it raises. -/
def CppArchives (root : Tree) (out : M (List CppItem)) : Prop := ∃ n, cppArchivesN root n = some out

end Gen
