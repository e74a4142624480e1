import Verif.Spec.NativeArchives
import Verif.Model.Gen.NativeNames

/-!
# What a Rust compiler demands of names
-/

namespace Spec
open Gen

/-! ## The compiler -/

/-- The keywords of Rust 2018, with those that are reserved for the future. -/
def rustKeywords : List Text := ["as", "break", "const", "continue", "crate", "else", "enum", "extern", "false", "fn", "for", "if", "impl", "in",
  "let", "loop", "match", "mod", "move", "mut", "pub", "ref", "return", "self", "Self", "static", "struct", "super", "trait", "true", "type",
  "unsafe", "use", "where", "while", "async", "await", "dyn", "abstract", "become", "box", "do", "final", "macro", "override", "priv", "typeof",
  "unsized", "virtual", "yield", "try"].map String.toList

/-- Identifiers of Rust (with ASCII characters). -/
def RustIdent (t : Text) : Prop := Ident t ∧ t ≠ "_".toList ∧ t ∉ rustKeywords

instance (t : Text) : Decidable (RustIdent t) := by unfold RustIdent; infer_instance

/-- A compiler accepts the names in an item: they are identifiers; no two fields (variants), no two functions have the same name; no variable
hides another one; and ranges are read with integer types. -/
structure RustItemOk (x : RustNames) : Prop where
  name : RustIdent x.name
  members : ∀ y ∈ x.fields ++ x.functions ++ x.locals, RustIdent y
  fields : x.fields.Nodup
  functions : x.functions.Nodup
  locals : x.locals.Nodup
  ranges : ∀ ty ∈ x.readTypes, (rustBuiltin ty).isSome

/-- A compiler accepts the names in a program: the items are well-formed, no item hides what another one in the module uses, and no variable
has the name of a constant of the module (it would be taken for a pattern that compares with the constant). -/
structure RustNamesOk (l : List RustNames) : Prop where
  items : ∀ x ∈ l, RustItemOk x
  hides : ∀ x ∈ l, ∀ y ∈ l, y.scope = x.scope → y.isConstant = false → y.name ∉ x.uses
  patterns : ∀ x ∈ l, ∀ c ∈ l, c.isConstant = true → c.scope = x.scope → c.name ∉ x.locals

/-! ## The schema -/

/-- The names of the fields of a structure and of their ranges. -/
def memberNames (n : Tree) : List Text := n.children.flatMap fun f =>
  match f.kind with
  | .field _ (some r) _ => [f.name, r]
  | .field _ none _ => [f.name]
  | _ => []

/-- Names that are used otherwise in structs: functions that every struct has, and keywords that the generator does not know. -/
def rustTaken : List Text := ["new_unchecked", "new", "from_bytes", "from_bytes_mut", "from_bytes_slice", "from_bytes_slice_mut", "as_bytes", "fill_from",
  "async", "await", "dyn", "try", "Self", "_"].map String.toList

/-- A name without its underscores, in lower case. -/
def plainLetters (t : Text) : Text := (t.filter (· ≠ '_')).map lowerChar

/-- Types and crates that generated code uses by their bare names: a definition with this name would hide them. -/
def rustUsed : List Text := ["Option", "Result", "String", "Vec", "Default", "std", "flatdata", "bool", "i8", "u8", "i16", "u16", "i32", "u32", "i64", "u64",
  "usize", "str"].map String.toList

/-- What a schema has to satisfy besides being accepted, so that a Rust compiler accepts the names in the generated code. (Further conditions are in
`RustArchivesNameable`.) -/
structure RustMembersNameable (t : Tree) : Prop where
  /-- Namespaces have names that are identifiers of Rust, and inner ones do not hide what the code uses. -/
  namespaces : ∀ p n, t.descend p = some n → n.kind = .namespace → RustIdent n.name ∧ (p.dropLast ≠ [] → n.name ∉ rustUsed)
  /-- The same for structures, enumerations and archives. -/
  types : ∀ p n, t.descend p = some n → ((∃ sz, n.kind = .structure sz) ∨ (∃ b, n.kind = .enumeration b) ∨ n.kind = .archive) → n.name ≠ "_".toList ∧ n.name ∉ rustKeywords ∧ n.name ∉ rustUsed
  /-- The name of a constant is not an underscore. -/
  constants : ∀ p n b v, t.descend p = some n → n.kind = .constant b v → n.name ≠ "_".toList
  /-- No field and no range of a structure has a name that is used otherwise, that ends with an underscore, or that begins with `set_`. Ranges
  have different names. -/
  fields : ∀ p n sz, t.descend p = some n → n.kind = .structure sz → (memberNames n).Nodup ∧
    ∀ x ∈ memberNames n, x ∉ rustTaken ∧ ¬ ['_'] <:+ x ∧ ¬ "set_".toList <+: x
  /-- Fields with ranges are not of enumeration types. -/
  ranges : ∀ q f b name r o, t.descend q = some f → f.kind ≠ .field (.enum name b) (some r) o
  /-- The values of an enumeration differ in more than case and underscores, begin with a letter, and none of them is `SELF`. -/
  values : ∀ p n b, t.descend p = some n → n.kind = .enumeration b →
    (∀ v ∈ n.children, ∀ v' ∈ n.children, plainLetters v.name = plainLetters v'.name → v = v') ∧
    ∀ v ∈ n.children, v.name.head? ≠ some '_' ∧ plainLetters v.name ≠ "self".toList
  /-- The name of an archive is no keyword in snake case. -/
  archives : ∀ p n, t.descend p = some n → n.kind = .archive → camelToSnake n.name ∉ rustKeywords
  /-- No resource has a keyword for a name, or the name of a function or variable that archives have. -/
  resources : ∀ p n, t.descend p = some n → n.kind = .archive → ∀ r ∈ resourcesOf n, r.name ∉ rustKeywords ∧
    r.name ∉ ["_", "_storage", "signature_name", "open", "storage", "extend"].map String.toList
  /-- No archive in an archive is called `new`, or has a name that begins with `set_` or `start_`. -/
  subarchives : ∀ q r o m, t.descend q = some r → r.kind = .resource .archive o m →
    r.name ≠ "new".toList ∧ ¬ "set_".toList <+: r.name ∧ ¬ "start_".toList <+: r.name
  /-- The type of a multivector has a name that can be used. -/
  multivectors : ∀ q r w o m, t.descend q = some r → r.kind = .resource (.multivector w) o m →
    r.name.head? ≠ some '_' ∧ upperCamel r.name ∉ rustUsed ∧ plainLetters r.name ≠ "self".toList
  /-- No resource of an archive has the name of a constant of its namespace (as it is written in Rust). -/
  patterns : ∀ p n, t.descend p = some n → n.kind = .namespace → ∀ a ∈ n.children, a.kind = .archive → ∀ r ∈ resourcesOf a,
    ∀ c ∈ n.children, ∀ b v, c.kind = .constant b v → rustConstName c.name ≠ r.name

end Spec
