import Verif.Model.Gen.Python

/-!
# Model of the C++, Rust and Go generators: structures and enumerations

`generators/{cpp,rust,go}.py` with the templates `{cpp,rust,go}/structure.jinja2` and `{cpp,rust}/enumeration.jinja2`. Of the generated
text the model keeps the names of types and members as they are written, and the numbers. Archives, constants, ranges, the
wrapping of optional fields (`flatdata::Tagged`, `Option`), comparison, printing and documentation are left out.
-/

namespace Gen

/-- structure.py:40-42 `size_in_bytes`. -/
def Kind.sizeInBytes : Kind → M Nat
  | .structure (some bits) => pure ((bits + 7) / 8)
  | _ => throw .typeError

/-- `field.offset` as the templates write it. (A missing offset would be written as `None`; it counts as an error here.) -/
def Kind.fieldOffset : Kind → M Nat
  | .field _ _ (some o) => pure o
  | _ => throw .typeError

/-- `field.type`. -/
def Kind.fieldType : Kind → M FieldType
  | .field .none _ _ => throw .attributeError
  | .field ty _ _ => pure ty
  | _ => throw .attributeError

/-- field.py:69-71 `type_reference` and references.py:26-28 `node`: the enumeration of a field. -/
def enumerationOf (root f : Tree) : M (Path × Tree × BasicType) :=
  match f.childrenLike Kind.isEnumerationReference with
  | [] => throw .attributeError
  | ref :: _ => do
    let e ← root.find ref.target
    match e.kind with
    | .enumeration b => pure (ref.targetPath, e, b)
    | _ => throw .attributeError

/-- `value.value` of an enumerator. -/
def Kind.enumeratorValue : Kind → Option Int
  | .enumValue v _ => some v
  | _ => none

/-! ## C++ -/

/-- cpp.py:31-41, the values of `type_map`. -/
def BasicName.cppText : BasicName → Text
  | .bool => "bool".toList
  | .i8 => "int8_t".toList
  | .u8 => "uint8_t".toList
  | .u16 => "uint16_t".toList
  | .i16 => "int16_t".toList
  | .u32 => "uint32_t".toList
  | .i32 => "int32_t".toList
  | .u64 => "uint64_t".toList
  | .i64 => "int64_t".toList

/-- `t.replace("@@", "::")`. -/
def replaceTwoAt : Text → Text
  | [] => []
  | '@' :: '@' :: t => ':' :: ':' :: replaceTwoAt t
  | c :: t => c :: replaceTwoAt t

/-- `t.replace("@", "::")`. -/
def replaceAt (t : Text) : Text := t.flatMap fun c => if c = '@' then "::".toList else [c]

/-- cpp.py:30-44 `_cpp_base_type`, of a type with this name. -/
def cppBaseType (name : Text) : Text :=
  match basicOfText name with
  | some b => b.cppText
  | none => replaceAt (replaceTwoAt name)

/-- cpp/structure.jinja2:20-21: `using ... = Member< type, offset, width, size >; ... name;`. -/
structure CppMember where
  name : Text
  type : Text
  offset : Nat
  width : Nat
  size : Nat
  deriving DecidableEq, Repr

/-- What the model keeps of a C++ header: `enum class name : base` with the values of its enumerators (cpp/enumeration.jinja2:6-15) and `union nameTemplate` with its
`size_in_bytes` (cpp/structure.jinja2:8-31, :113-115), with the namespaces they stand in (cpp/namespace.jinja2:2-3). -/
inductive CppDecl where
  | enumeration (scope : List Text) (name base : Text) (values : List Int)
  | structure (scope : List Text) (name : Text) (size : Nat) (members : List CppMember)
  deriving DecidableEq, Repr

/-- cpp/structure.jinja2:10-26, one field. -/
def cppMember (size : Nat) (f : Tree) : M CppMember := do
  let ty ← f.kind.fieldType
  let offset ← f.kind.fieldOffset
  let width ← ty.width
  pure ⟨f.name, cppBaseType (← ty.nameText), offset, width, size⟩

/-- cpp/cpp.jinja2:12-25: the declaration of a node. -/
def cppNode (root : Tree) (e : Path × Tree) : M (List CppDecl) :=
  match e.2.kind with
  | .structure _ => do
    let size ← e.2.kind.sizeInBytes
    pure [.structure (namespacesOf root e.1) e.2.name size (← e.2.fields.mapM (cppMember size))]
  | .enumeration b => pure [.enumeration (namespacesOf root e.1) e.2.name b.name.cppText (e.2.children.filterMap fun c => c.kind.enumeratorValue)]
  | _ => pure []

/-- cpp.py:19-20 `supported_nodes` and generators/__init__.py:64-65: nodes in dependency order. (Archives and constants have no
declarations in this model.) -/
def cppNodes (root : Tree) (order : List Path) : List (Path × Tree) :=
  order.filterMap fun p => (root.descend p).map fun n => (p, n)

/-- generators/__init__.py:38-66 `render` with the C++ template; the traversal takes at most `n` steps. -/
def cppHeaderN (root : Tree) (n : Nat) : Option (M (List CppDecl)) :=
  match Dfs.run (depChildren root) n (Dfs.init []) with
  | none => none
  | some (.error e) => some (.error e)
  | some (.ok events) => some (do pure (← (cppNodes root (dependencyOrder events)).mapM (cppNode root)).flatten)

/-- `render` with the C++ template ends: it writes these declarations, or it raises. -/
def CppHeader (root : Tree) (out : M (List CppDecl)) : Prop := ∃ n, cppHeaderN root n = some out

/-! ## Rust -/

/-- rust.py:19-24 `RESERVED_KEYWORDS`. -/
def rustReserved : List Text := ["abstract", "alignof", "as", "become", "box", "break", "const", "continue", "crate", "do",
  "else", "enum", "extern", "false", "final", "fn", "for", "if", "impl", "in", "let", "loop",
  "macro", "match", "mod", "move", "mut", "offsetof", "override", "priv", "proc", "pub",
  "pure", "ref", "return", "self", "sizeof", "static", "struct", "super", "trait", "true",
  "type", "typeof", "unsafe", "unsized", "use", "virtual", "where", "while", "yield"].map String.toList

/-- rust.py:71-74 `_escape_rust_keywords`. -/
def escapeRust (t : Text) : Text := if t ∈ rustReserved then t ++ ['_'] else t

/-- rust.py:87-88 `_fully_qualified_name` of the node at `q`, for use in the node at `p`; node.py:87-99. -/
def rustQualified (p q : Path) : Text :=
  joinTexts "::".toList (List.replicate (p.length - 1) "super".toList) ++ q.flatMap fun k => "::".toList ++ k

/-- rust/structure.jinja2:97-104: `flatdata_read_bytes!(primitive, data, offset, width)`, transmuted to `type`, in the function `name`;
:160-163 the same for writing. -/
structure RustMember where
  name : Text
  primitive : Text
  type : Text
  offset : Nat
  width : Nat
  deriving DecidableEq, Repr

/-- rust/enumeration.jinja2: `#[repr(repr)] pub enum name` with its discriminants; rust/structure.jinja2:9-27: a struct of `size` bytes.
`scope` is the module. -/
inductive RustItem where
  | enumeration (scope : Path) (name repr : Text) (values : List Int)
  | structure (scope : Path) (name : Text) (size : Nat) (members : List RustMember)
  deriving DecidableEq, Repr

/-- rust.py:82-85 `_primitive_type`. -/
def rustPrimitive (root f : Tree) : FieldType → M Text
  | .basic b => pure b.name.text
  | .enum _ _ => do pure (← enumerationOf root f).2.2.name.text
  | .none => throw .attributeError

/-- rust.py:76-80 `_field_type`, of a field of the structure at `p`. -/
def rustFieldType (root : Tree) (p : Path) (f : Tree) : FieldType → M Text
  | .basic b => pure b.name.text
  | .enum _ _ => do pure (rustQualified p (← enumerationOf root f).1)
  | .none => throw .attributeError

/-- rust/structure.jinja2:88-105, one field of the structure at `p`. -/
def rustMember (root : Tree) (p : Path) (f : Tree) : M RustMember := do
  let ty ← f.kind.fieldType
  let offset ← f.kind.fieldOffset
  let width ← ty.width
  pure ⟨escapeRust f.name, ← rustPrimitive root f ty, ← rustFieldType root p f ty, offset, width⟩

/-- rust/rust.jinja2:8-33: the item of the node at `p`, in the module of its namespaces. -/
def rustNode (root : Tree) (e : Path × Tree) : M (List RustItem) :=
  match e.2.kind with
  | .structure _ => do
    let size ← e.2.kind.sizeInBytes
    pure [.structure e.1.dropLast e.2.name size (← e.2.fields.mapM (rustMember root e.1))]
  | .enumeration b => pure [.enumeration e.1.dropLast e.2.name b.name.text (e.2.children.filterMap fun c => c.kind.enumeratorValue)]
  | _ => pure []

/-- rust/rust.jinja2:8-26: the recursive loop visits the nodes below which there are only namespaces. -/
def rustVisited (root : Tree) (p : Path) : Bool := (List.range p.length).all fun i => i = 0 || isNamespaceAt root (p.take i)

/-- rust/rust.jinja2, structures and enumerations. (The order of items does not matter in Rust.) -/
def rustProgram (root : Tree) : M (List RustItem) := do
  pure (← ((root.iter []).filter fun e => rustVisited root e.1).mapM (rustNode root)).flatten

/-! ## Go -/

/-- go.py:42-52 `go_mapping` and :37-40 `type_mapping_with_bool`; other names raise `KeyError`. -/
def goTypeText (name : Text) : M Text :=
  match basicOfText name with
  | some .bool => pure "bool".toList
  | some .i8 => pure "int8".toList
  | some .u8 => pure "uint8".toList
  | some .u16 => pure "uint16".toList
  | some .i16 => pure "int16".toList
  | some .u32 => pure "uint32".toList
  | some .i32 => pure "int32".toList
  | some .u64 => pure "uint64".toList
  | some .i64 => pure "int64".toList
  | none => throw .keyError

/-- go/structure.jinja2:9-21: the function `Get`*name* with result type `type`, which calls `flatdata.Read` with these arguments. -/
structure GoMember where
  name : Text
  type : Text
  offset : Nat
  width : Nat
  isSigned : Bool
  deriving DecidableEq, Repr

/-- go/structure.jinja2:8-21, one field. (The name of the function is `Get` and the name of the field in Go's case; only the name of the
field is kept.) -/
def goMember (f : Tree) : M GoMember := do
  let ty ← f.kind.fieldType
  let type ← goTypeText (← ty.nameText)
  let width ← ty.width
  let offset ← f.kind.fieldOffset
  pure ⟨f.name, type, offset, width, ← ty.isSigned⟩

/-- go/structure.jinja2:1-24 and go/base.jinja2:27: the struct with its size in bytes. -/
structure GoStruct where
  name : Text
  size : Nat
  members : List GoMember
  deriving DecidableEq, Repr

/-- go/structure.jinja2 `generate`. -/
def goStructure (n : Tree) : M GoStruct := do
  let size ← n.kind.sizeInBytes
  pure ⟨n.name, size, ← n.fields.mapM goMember⟩

end Gen
