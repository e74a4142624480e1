import Verif.Spec.NativeConstants
import Verif.Model.Gen.NativeArchives
import Verif.Model.Native.RustReader

/-!
# What a Rust compiler makes of generated archives

Names of items, how paths are looked up, and what the compiled `open` reads (in terms of `Model.Native.RustResource`); and what it is to read,
in terms of the schema.
-/

namespace Spec
open Gen Model Model.Native

/-! ## The compiler -/

/-- The items with names of types and modules, by their paths: an archive has a builder, a multivector has three types. -/
def rustTypeNames : RustDecl → List Path
  | .module p => [p]
  | .structure scope name .. => [scope ++ [name]]
  | .enumeration scope name => [scope ++ [name]]
  | .archive scope name _ resources => (scope ++ [name]) :: (scope ++ [name ++ "Builder".toList]) :: resources.flatMap fun r =>
      match r.container with
      | .multivector _ v _ => [scope ++ [v], scope ++ [v ++ "Ref".toList], scope ++ [v ++ "Builder".toList]]
      | _ => []
  | .constant .. => []

/-- The constants by their paths. -/
def rustValueNames : RustDecl → List Path
  | .constant scope name _ => [scope ++ [name]]
  | _ => []

/-- The struct at a path: its size, its ranges and whether it is an index. -/
def rustStructAt (prog : List RustDecl) (q : Path) : Option (Nat × List (Text × Nat × Nat) × Bool) := prog.findSome? fun
  | .structure scope name size ranges _ isIndex => if scope ++ [name] = q then some (size, ranges, isIndex) else none
  | _ => none

/-- The archive at a path: the name, the path of the constant with its schema, and the resources. -/
def rustArchiveAt (prog : List RustDecl) (q : Path) : Option (Text × Text × List RustResourceText) := prog.findSome? fun
  | .archive scope name schema resources => if scope ++ [name] = q then some (name, schema, resources) else none
  | _ => none

/-- The value of the constant at a path: a raw string literal, then a semicolon. -/
def rustConstantAt (prog : List RustDecl) (q : Path) : Option Text := prog.findSome? fun
  | .constant scope name literal =>
    if scope ++ [name] = q then
      match rawString "r#\"".toList "\"#".toList (literal ++ [';']) with
      | some (x, [';']) => some x
      | _ => none
    else none
  | _ => none

/-- What a path means in a module. -/
def rustPath (scope : Path) (name : Text) : Option Path := rustLookup scope (splitColons name)

/-- A struct by the name written in a module. -/
def rustStructNamed (prog : List RustDecl) (scope : Path) (name : Text) : Option (Nat × List (Text × Nat × Nat) × Bool) :=
  (rustPath scope name).bind (rustStructAt prog)

/-- A constant by the name written in a module. -/
def rustConstantNamed (prog : List RustDecl) (scope : Path) (name : Text) : Option Text := (rustPath scope name).bind (rustConstantAt prog)

/-- The struct has the functions `from_bytes_slice` and `from_bytes_slice_mut`: its size. -/
def rustPlainSize (prog : List RustDecl) (scope : Path) (name : Text) : Option Nat :=
  match rustStructNamed prog scope name with
  | some (size, [], _) => some size
  | _ => none

/-- The struct can be an index of a multivector: `IndexStruct` is implemented, by reading the range called `range`, which begins at the first
bit: its number of bits. -/
def rustIndexWidth (prog : List RustDecl) (scope : Path) (name : Text) : Option Nat :=
  match rustStructNamed prog scope name with
  | some (size, ranges, true) => match ranges.lookup "range".toList with
    | some (0, w) => if size = (w + 7) / 8 then some w else none
    | _ => none
  | _ => none

/-- The sizes of the elements of a multivector, by their numbers. The variants and the methods that add elements have to have different names. -/
def rustVariants (prog : List RustDecl) (scope : Path) (elements : List (Text × Text × Text)) : Option (List Nat) :=
  if (elements.map (·.1)).Nodup ∧ (elements.map (·.2.1)).Nodup then elements.mapM fun e => rustPlainSize prog scope e.2.2 else none

mutual
/-- What `open` of an archive in the module `scope` reads for a resource. Nothing if it does not compile. -/
inductive RustReads (prog : List RustDecl) : Path → RustResourceText → RustResource → Prop
  | vector {scope r type size ranges i x} : r.container = .vector type → rustStructNamed prog scope type = some (size, ranges, i) →
      rustConstantNamed prog scope r.schema = some x →
      RustReads prog scope r (.vector (String.ofList r.name) (String.ofList x) r.optional r.maxSize (!ranges.isEmpty) size)
  | instance {scope r type size x} : r.container = .instance type → rustPlainSize prog scope type = some size →
      rustConstantNamed prog scope r.schema = some x →
      RustReads prog scope r (.instance (String.ofList r.name) (String.ofList x) r.optional r.maxSize size)
  | rawData {scope r x} : r.container = .rawData → rustConstantNamed prog scope r.schema = some x →
      RustReads prog scope r (.rawData (String.ofList r.name) (String.ofList x) r.optional r.maxSize)
  | multivector {scope r index v elements w sizes x} : r.container = .multivector index v elements → rustIndexWidth prog scope index = some w →
      rustVariants prog scope elements = some sizes → rustConstantNamed prog scope r.schema = some x →
      RustReads prog scope r (.multivector (String.ofList r.name) (String.ofList x) r.optional r.maxSize w)
  | archive {scope r type q name x resources} : r.container = .archive type → rustPath scope type = some q → RustOpens prog q name x resources →
      RustReads prog scope r (.archive (String.ofList r.name) r.optional r.maxSize name x resources)
/-- The same for several resources. -/
inductive RustReadsAll (prog : List RustDecl) : Path → List RustResourceText → List RustResource → Prop
  | nil {scope} : RustReadsAll prog scope [] []
  | cons {scope r rs x xs} : RustReads prog scope r x → RustReadsAll prog scope rs xs → RustReadsAll prog scope (r :: rs) (x :: xs)
/-- The archive at the path `q` is opened with this name, this schema and these resources (`Model.Native.rustOpenArchive`). -/
inductive RustOpens (prog : List RustDecl) : Path → String → String → List RustResource → Prop
  | mk {q name schema rs x resources} : rustArchiveAt prog q = some (name, schema, rs) → rustConstantNamed prog q.dropLast schema = some x →
      RustReadsAll prog q.dropLast rs resources → RustOpens prog q (String.ofList name) (String.ofList x) resources
end

/-- A compiler accepts the names: no module defines a name twice, and what implements `IndexStruct` has what it uses. -/
def RustDistinct (prog : List RustDecl) : Prop :=
  (prog.flatMap rustTypeNames).Nodup ∧ (prog.flatMap rustValueNames).Nodup ∧
  ∀ d ∈ prog, match d with
    | .structure _ _ _ ranges setters true => (∃ x ∈ ranges, x.1 = "range".toList) ∧ "set_value".toList ∈ setters
    | _ => True

/-! ## The schema -/

/-- A field with a range. -/
def hasRange (f : Tree) : Prop := ∃ ty r o, f.kind = .field ty (some r) o

/-- The structure at `p` has a field with a range. -/
def RangedAt (t : Tree) (p : Path) : Prop := ∃ n, t.descend p = some n ∧ ∃ f ∈ n.children, hasRange f

/-- A maximal size of zero means that there is none. -/
def limitOf (m : Option Nat) : Option Nat := m.filter (· ≠ 0)

open Classical in
mutual
/-- What `open` has to read for the resource `r` at `q`. -/
inductive RustResourceAt (t : Tree) : Path → Tree → RustResource → Prop
  | vector {q r o m ref fs x} : r.kind = .resource .vector o m → childrenOf r (.ref .structure) = [ref] → FieldsAt t ref.targetPath fs →
      Schema t q (.ok x) →
      RustResourceAt t q r (.vector (String.ofList r.name) (String.ofList x) o (limitOf m) (decide (RangedAt t ref.targetPath)) (byteSize fs))
  | instance {q r o m ref fs x} : r.kind = .resource .instance o m → childrenOf r (.ref .structure) = [ref] → FieldsAt t ref.targetPath fs →
      Schema t q (.ok x) → RustResourceAt t q r (.instance (String.ofList r.name) (String.ofList x) o (limitOf m) (byteSize fs))
  | rawData {q r o m x} : r.kind = .resource .rawData o m → Schema t q (.ok x) →
      RustResourceAt t q r (.rawData (String.ofList r.name) (String.ofList x) o (limitOf m))
  | multivector {q r w o m x} : r.kind = .resource (.multivector w) o m → Schema t q (.ok x) →
      RustResourceAt t q r (.multivector (String.ofList r.name) (String.ofList x) o (limitOf m) (if w = 0 then 64 else w))
  | archive {q r o m ref name x rs} : r.kind = .resource .archive o m → childrenOf r (.ref .archive) = [ref] →
      RustArchiveAt t ref.targetPath name x rs → RustResourceAt t q r (.archive (String.ofList r.name) o (limitOf m) name x rs)
/-- What `open` has to read for several resources of the archive at `p`. -/
inductive RustResourcesAt (t : Tree) : Path → List Tree → List RustResource → Prop
  | nil {p} : RustResourcesAt t p [] []
  | cons {p r rs x xs} : RustResourceAt t (p ++ [r.name]) r x → RustResourcesAt t p rs xs → RustResourcesAt t p (r :: rs) (x :: xs)
/-- The archive at `p`: its name, its schema and what `open` has to read. -/
inductive RustArchiveAt (t : Tree) : Path → String → String → List RustResource → Prop
  | mk {p n x rs} : t.descend p = some n → n.kind = .archive → Schema t p (.ok x) → RustResourcesAt t p (resourcesOf n) rs →
      RustArchiveAt t p (String.ofList n.name) (String.ofList x) rs
end

/-- The names of types and modules that the module of a namespace defines for its member `c`. -/
def moduleNames (c : Tree) : List Text :=
  match c.kind with
  | .archive => c.name :: (c.name ++ "Builder".toList) :: (resourcesOf c).flatMap fun r =>
      match r.kind with
      | .resource (.multivector _) _ _ => [upperCamel r.name, upperCamel r.name ++ "Ref".toList, upperCamel r.name ++ "Builder".toList]
      | _ => []
  | .constant _ _ => []
  | _ => [c.name]

/-- No part of the name of a namespace ends with `_builtin`: these names are for index types. -/
def NoBuiltinEnd (ns : List Text) : Prop := ∀ k ∈ ns, ¬ "_builtin".toList <:+ k

/-- What a schema has to satisfy besides being accepted, so that its archives compile in Rust. -/
structure RustArchivesNameable (t : Tree) : Prop where
  /-- No namespace is called `super`. -/
  super : ∀ n, t.descend ["super".toList] ≠ some n
  /-- In every namespace, types, archives, their builders, what belongs to multivectors, inner namespaces, and `schema` have different names. -/
  types : ∀ p n, t.descend p = some n → n.kind = .namespace → ("schema".toList :: n.children.flatMap moduleNames).Nodup
  /-- In every namespace, the names of archives are different in snake case. -/
  archives : ∀ p n, t.descend p = some n → n.kind = .namespace → ∀ a ∈ n.children, ∀ b ∈ n.children, a.kind = .archive → b.kind = .archive →
    camelToSnake a.name = camelToSnake b.name → a = b
  /-- The resources of an archive differ in more than case. -/
  resources : ∀ p n, t.descend p = some n → n.kind = .archive → ∀ r ∈ resourcesOf n, ∀ r' ∈ resourcesOf n, upperName r.name = upperName r'.name → r = r'
  /-- The structures of a multivector have different names in snake case. -/
  elements : ∀ q r w o m, t.descend q = some r → r.kind = .resource (.multivector w) o m →
    ((childrenOf r (.ref .structure)).map fun ref => camelToSnake (ref.targetPath.getLastD [])).Nodup

end Spec
