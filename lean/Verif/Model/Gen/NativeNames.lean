import Verif.Model.Gen.NativeArchives

/-!
# Model of the Rust generator: the names of members

`templates/rust/{structure,enumeration,archive,variadic,constant,rust}.jinja2` and `generators/rust.py`: for every item the names it defines.
The bodies of functions are left out, except for the variables of `open` and the types that ranges read.
-/

namespace Gen

/-- A struct, an enumeration, a module or a constant with the names it defines: fields (or variants), associated functions outside of
implementations of traits, variables of `open` in the order of their definition, types given to `flatdata_read_bytes!` for ranges, and the types,
traits and crates that its text uses by their bare names. -/
structure RustNames where
  scope : Path
  name : Text
  fields : List Text := []
  functions : List Text := []
  locals : List Text := []
  readTypes : List Text := []
  uses : List Text := []
  isConstant : Bool := false
  deriving DecidableEq, Repr

/-- The bare names in rust/structure.jinja2, rust/enumeration.jinja2, rust/archive.jinja2, rust/variadic.jinja2 and rust/index.jinja2. (All of them, also
where an item needs only some.) -/
def rustBareNames : List Text := ["Option", "Result", "String", "Vec", "Default", "std", "flatdata", "bool", "i8", "u8", "i16", "u16", "i32", "u32", "i64", "u64",
  "usize", "str"].map String.toList

/-- rust/structure.jinja2:97, :107-112: the functions for a field: the getter, and the range. (A range that is the empty text counts as none.) -/
def rustGetters (f : Tree) : List Text :=
  match f.kind with
  | .field _ (some (c :: r)) _ => [escapeRust f.name, escapeRust (c :: r)]
  | _ => [escapeRust f.name]

/-- rust.py:115-116 `has_range`, of a field. -/
def fieldHasRange (f : Tree) : Bool :=
  match f.kind with
  | .field _ (some (_ :: _)) _ => true
  | _ => false

/-- rust/structure.jinja2:113-114: `field.type.name` of a field with a range; helpers/enumtype.py. -/
def rustRangeType (f : Tree) : List Text :=
  match f.kind with
  | .field (.basic b) (some (_ :: _)) _ => [b.name.text]
  | .field (.enum name _) (some (_ :: _)) _ => [name]
  | _ => []

/-- rust/structure.jinja2:9-18, :29-74, :87-125, :148-175: the struct for the structure `n` at `p`. -/
def rustStructNames (p : Path) (n : Tree) : RustNames where
  scope := p.dropLast
  name := n.name
  fields := ["data".toList]
  functions := "new_unchecked".toList ::
    (if n.fields.any fieldHasRange then []
     else ["new", "from_bytes", "from_bytes_mut", "from_bytes_slice", "from_bytes_slice_mut", "as_bytes"].map String.toList) ++
    n.fields.flatMap rustGetters ++ n.fields.map (fun f => "set_".toList ++ escapeRust f.name) ++ ["fill_from".toList]
  readTypes := n.fields.flatMap rustRangeType
  uses := rustBareNames

/-- rust/enumeration.jinja2:8-18, :16: the enumeration `n` at `p`. -/
def rustEnumNames (p : Path) (n : Tree) : RustNames where
  scope := p.dropLast
  name := n.name
  fields := n.children.filterMap fun c => if c.kind.enumeratorValue.isSome then some (upperCamel c.name) else none
  uses := rustBareNames

/-- rust/archive.jinja2:186-259: the functions of the builder for a resource. -/
def rustBuilderFunctions (r : Tree) : List Text :=
  match r.kind with
  | .resource .rawData _ _ => ["set_".toList ++ r.name]
  | .resource .instance _ _ => ["set_".toList ++ r.name]
  | .resource .vector _ _ => ["set_".toList ++ r.name, "start_".toList ++ r.name]
  | .resource (.multivector _) _ _ => ["start_".toList ++ r.name]
  | .resource .archive _ _ => [r.name]
  | _ => []

/-- rust/variadic.jinja2:10-15, :44-63, :89: the types for a multivector `r` of the archive at `p`. -/
def rustVariadicNames (root : Tree) (p : Path) (r : Tree) : List RustNames :=
  match r.kind with
  | .resource (.multivector _) _ _ =>
    let elements := (rustElements root r).map fun ref => ref.targetPath.getLastD []
    [{ scope := p.dropLast, name := upperCamel r.name, uses := rustBareNames },
     { scope := p.dropLast, name := upperCamel r.name ++ "Ref".toList, fields := elements, uses := rustBareNames },
     { scope := p.dropLast, name := upperCamel r.name ++ "Builder".toList, fields := ["data".toList],
       functions := elements.map (fun e => "add_".toList ++ camelToSnake e), uses := rustBareNames }]
  | _ => []

/-- rust/archive.jinja2:18-174 the archive `n` at `p`: :20-37 fields, :41-98, :112 functions, :112, :121, :126 variables of `open`; :180-269 its
builder; the types of multivectors; rust/rust.jinja2:38-46 the modules and constants for schemas. -/
def rustArchiveNames (root : Tree) (p : Path) (n : Tree) : List RustNames :=
  let names := n.plainResources.map (·.name)
  let inner := p.dropLast ++ ["schema".toList]
  { scope := p.dropLast, name := n.name, fields := "_storage".toList :: names, functions := "signature_name".toList :: names ++ ["open".toList],
    locals := "storage".toList :: "extend".toList :: names, uses := rustBareNames } ::
  { scope := p.dropLast, name := n.name ++ "Builder".toList, fields := ["storage".toList],
    functions := n.plainResources.flatMap rustBuilderFunctions ++ ["new".toList], uses := rustBareNames } ::
  { scope := inner, name := rustSchemaModule n.name } ::
  { scope := inner ++ [rustSchemaModule n.name], name := rustConstName n.name, isConstant := true } ::
  { scope := inner ++ [rustSchemaModule n.name], name := "resources".toList } ::
  (n.plainResources.map fun r => { scope := inner ++ [rustSchemaModule n.name, "resources".toList], name := upperName r.name, isConstant := true }) ++
  n.plainResources.flatMap (rustVariadicNames root p)

/-- rust/rust.jinja2:8-52: what is written for the node at `p`; rust/constant.jinja2. The import of rust/rust.jinja2:18 is among the items. (`str` in the
modules for schemas is left out, nothing else is defined there.) -/
def rustNames (root : Tree) (e : Path × Tree) : List RustNames :=
  match e.2.kind with
  | .namespace => [{ scope := e.1.dropLast, name := e.2.name }, { scope := e.1, name := "schema".toList },
      { scope := e.1, name := "flatdata_read_bytes".toList, uses := ["flatdata".toList] }]
  | .structure _ => [rustStructNames e.1 e.2]
  | .enumeration _ => [rustEnumNames e.1 e.2]
  | .archive => rustArchiveNames root e.1 e.2
  | .constant _ _ => [{ scope := e.1.dropLast, name := rustConstName e.2.name, uses := rustBareNames, isConstant := true }]
  | _ => []

/-- rust/rust.jinja2: what all items define. (Whether the templates raise is a matter of `RustArchives`.) -/
def rustAllNames (root : Tree) : List RustNames := (rustNodes root).flatMap (rustNames root)

end Gen
