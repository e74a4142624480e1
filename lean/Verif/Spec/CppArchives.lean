import Verif.Spec.NativeArchives
import Verif.Model.Gen.CppArchives

/-!
# What a C++ compiler makes of generated archives

Names in namespaces, how types and constants are looked up, and what the compiled `open` reads (in terms of `Model.Native.RustResource`, which
`Model.Native.cppOpen` takes as well). What it is to read is `RustArchiveAt`, as for Rust.
-/

namespace Spec
open Gen Model Model.Native

/-! ## The compiler -/

/-- The names of types, constants and variables that an item defines, with their namespaces. -/
def cppNames : CppItem → List Path
  | .structure scope name .. => [scope ++ [name], scope ++ [name ++ "Template".toList], scope ++ [name ++ "Mutator".toList]]
  | .enumeration scope name => [scope ++ [name]]
  | .constant scope name => [scope ++ [name]]
  | .archive scope name .. => [scope ++ [name], scope ++ [name ++ "Builder".toList]]
  | .schema scope name _ => [scope ++ ["internal".toList, name]]
  | .initialize .. => []
  | .builder .. => []

/-- The namespaces that an item opens. -/
def cppSpaces : CppItem → List Path
  | .structure scope .. => scope.inits
  | .enumeration scope _ => scope.inits
  | .constant scope _ => scope.inits
  | .archive scope .. => scope.inits
  | .schema scope .. => (scope ++ ["internal".toList]).inits
  | .initialize scope .. => scope.inits
  | .builder scope .. => scope.inits

/-- The functions that an item declares. (They may be overloaded.) -/
def cppFunctions : CppItem → List Path
  | .enumeration scope _ => [scope ++ ["to_string".toList]]
  | _ => []

/-- A compiler accepts the names: none is defined twice, or for two purposes. -/
def CppDistinct (prog : List CppItem) : Prop :=
  (prog.flatMap cppNames).Nodup ∧ (∀ x ∈ prog.flatMap cppSpaces, x ∉ prog.flatMap cppNames) ∧
  ∀ x ∈ prog.flatMap cppFunctions, x ∉ prog.flatMap cppNames ∧ x ∉ prog.flatMap cppSpaces

/-- The types that an item uses. -/
def cppReaderUses : CppReaderType → List Text
  | .structures l | .arrayView l | .multiArrayView l => l
  | .memoryDescriptor => []
  | .archive x => [x]

/-- The types that a resource of a builder uses. -/
def cppWriterUses : CppWriterType → List Text
  | .structures l | .externalVector l | .multiVector l => l
  | .memoryDescriptor => []
  | .builder x => [x]

/-- The types that an item uses. -/
def cppUses : CppItem → List Text
  | .archive _ _ members builders => members.flatMap (fun m => cppReaderUses m.type) ++ builders.flatMap fun b => cppWriterUses b.2
  | .builder _ _ _ _ writes _ => writes.flatMap fun w => cppWriterUses w.type
  | _ => []

/-- The types that an item declares, by their full names. -/
def cppTypes : CppItem → List Text
  | .structure scope name .. => [cppFullName scope name]
  | .archive scope name .. => [cppFullName scope name, cppFullName scope (name ++ "Builder".toList)]
  | _ => []

/-- Every type is declared before it is used. -/
def CppDeclared (prog : List CppItem) : Prop := ∀ before item after, prog = before ++ item :: after → ∀ x ∈ cppUses item, x ∈ before.flatMap cppTypes

/-- The structure with this full name: its size, whether elements of a vector overlap, and its ranges. -/
def cppStructAt (prog : List CppItem) (x : Text) : Option (Nat × Bool × List (Text × Nat × Nat)) := prog.findSome? fun
  | .structure scope name size overlapping ranges => if cppFullName scope name = x then some (size, overlapping, ranges) else none
  | _ => none

/-- The archive with this full name: its namespace, its members, and the types of the resources in its builder. -/
def cppArchiveAt (prog : List CppItem) (x : Text) : Option (Path × List CppResourceMember × List (Text × CppWriterType)) := prog.findSome? fun
  | .archive scope name members builders => if cppFullName scope name = x then some (scope, members, builders) else none
  | _ => none

/-- The functions of the archive with this full name. -/
def cppInitializeAt (prog : List CppItem) (x : Text) : Option (Text × Text × List CppReadLine × List (Text × Text)) := prog.findSome? fun
  | .initialize scope name file schema reads loads => if cppFullName scope name = x then some (file, schema, reads, loads) else none
  | _ => none

/-- The functions of the builder of the archive with this full name. -/
def cppBuilderAt (prog : List CppItem) (x : Text) : Option (Text × Text × List CppWriteLine × List (Text × Text)) := prog.findSome? fun
  | .builder scope name file schema writes creates => if cppFullName scope name = x then some (file, schema, writes, creates) else none
  | _ => none

/-- The value of a literal: string literals, or a raw string; then a semicolon. -/
def cppLiteralValue (literal : Text) : Option Text :=
  match rawString "R\"schema(".toList ")schema\"".toList (literal ++ [';']) with
  | some (x, [';']) => some x
  | _ => match cppStrings false (literal ++ [';']) with
    | some (x, [';']) => some x
    | _ => none

/-- The value of the constant called `internal::name` in this namespace. -/
def cppSchemaAt (prog : List CppItem) (scope : Path) (x : Text) : Option Text := prog.findSome? fun
  | .schema s name literal => if s = scope ∧ name = x then cppLiteralValue literal else none
  | _ => none

/-- The types are structures: their sizes. -/
def cppSizes (prog : List CppItem) (types : List Text) : Option (List Nat) := types.mapM fun x => (cppStructAt prog x).map (·.1)

/-- The structure can be an index of a multivector: its vectors overlap, and it has a range called `range` that begins at the first bit: the number
of bits. -/
def cppIndexWidth (prog : List CppItem) (x : Text) : Option Nat :=
  match cppStructAt prog x with
  | some (size, true, ranges) => match ranges.lookup "range".toList with
    | some (0, w) => if size = (w + 7) / 8 then some w else none
    | _ => none
  | _ => none

/-- The check of the size of a member: `->` is for optional members; the limit has to be a value of `long long`. -/
def cppLimit (optional : Bool) : Option (Bool × Nat) → Option (Option Nat)
  | none => some none
  | some (arrow, m) => if arrow = optional ∧ m < 2 ^ 63 then some (some m) else none

/-- The line that reads the member for a resource. -/
def cppReadOf (reads : List CppReadLine) (name : Text) : Option CppReadLine := reads.find? fun l => l.member = "m_".toList ++ name

mutual
/-- What `open` of an archive in the namespace `scope` reads for a resource. Nothing if it does not compile, or does not read it. -/
inductive CppReads (prog : List CppItem) : Path → List CppReadLine → List (Text × Text) → CppResourceMember → RustResource → Prop
  | vector {scope reads loads m type size overlapping ranges l x limit} : m.type = .arrayView [type] →
      cppStructAt prog type = some (size, overlapping, ranges) → cppReadOf reads m.name = some l → cppSchemaAt prog scope l.schema = some x →
      cppLimit m.optional l.limit = some limit →
      CppReads prog scope reads loads m (.vector (String.ofList l.file) (String.ofList x) m.optional limit overlapping size)
  | instance {scope reads loads m type size overlapping ranges l x} : m.type = .structures [type] →
      cppStructAt prog type = some (size, overlapping, ranges) → cppReadOf reads m.name = some l → cppSchemaAt prog scope l.schema = some x →
      l.limit = none → CppReads prog scope reads loads m (.instance (String.ofList l.file) (String.ofList x) m.optional none size)
  | rawData {scope reads loads m l x limit} : m.type = .memoryDescriptor → cppReadOf reads m.name = some l → cppSchemaAt prog scope l.schema = some x →
      cppLimit m.optional l.limit = some limit → CppReads prog scope reads loads m (.rawData (String.ofList l.file) (String.ofList x) m.optional limit)
  | multivector {scope reads loads m index elements w sizes l x limit} : m.type = .multiArrayView (index :: elements) → cppIndexWidth prog index = some w →
      cppSizes prog elements = some sizes → cppReadOf reads m.name = some l → cppSchemaAt prog scope l.schema = some x →
      cppLimit m.optional l.limit = some limit →
      CppReads prog scope reads loads m (.multivector (String.ofList l.file) (String.ofList x) m.optional limit w)
  | archive {scope reads loads m type file name x resources} : m.type = .archive type → loads.lookup ("m_".toList ++ m.name) = some file →
      CppOpens prog type name x resources → CppReads prog scope reads loads m (.archive (String.ofList file) m.optional none name x resources)
/-- The same for several resources. -/
inductive CppReadsAll (prog : List CppItem) : Path → List CppReadLine → List (Text × Text) → List CppResourceMember → List RustResource → Prop
  | nil {scope reads loads} : CppReadsAll prog scope reads loads [] []
  | cons {scope reads loads m ms x xs} : CppReads prog scope reads loads m x → CppReadsAll prog scope reads loads ms xs →
      CppReadsAll prog scope reads loads (m :: ms) (x :: xs)
/-- The archive with the full name `q` is opened with this name, this schema and these resources (`Model.Native.cppOpen`). Every line of
`load_contents` is about a member. -/
inductive CppOpens (prog : List CppItem) : Text → String → String → List RustResource → Prop
  | mk {q scope members builders file schema reads loads x resources} : cppArchiveAt prog q = some (scope, members, builders) →
      cppInitializeAt prog q = some (file, schema, reads, loads) → cppSchemaAt prog scope schema = some x →
      (∀ y ∈ reads.map (·.member) ++ loads.map (·.1), y ∈ members.map fun m => "m_".toList ++ m.name) →
      CppReadsAll prog scope reads loads members resources → CppOpens prog q (String.ofList file) (String.ofList x) resources
end

/-- The type that a builder writes, for the type that an archive reads. -/
def writerOf : CppReaderType → CppWriterType
  | .structures l => .structures l
  | .arrayView l => .externalVector l
  | .multiArrayView l => .multiVector l
  | .memoryDescriptor => .memoryDescriptor
  | .archive x => .builder (x ++ "Builder".toList)

/-- The builder writes what the archive reads: it has the same name and the same schema, and the same resources with the types that belong to
them; for every resource that is not an archive there is a line in the builder with this type, the same file and the same schema, which sets it or
starts to write it (vectors and multivectors only); for every archive in it the same directory; and nothing else. -/
def CppAgree (prog : List CppItem) (q : Text) : Prop :=
  ∃ scope members builders file schema reads loads writes, cppArchiveAt prog q = some (scope, members, builders) ∧
    cppInitializeAt prog q = some (file, schema, reads, loads) ∧ cppBuilderAt prog q = some (file, schema, writes, loads) ∧
    (∀ b, b ∈ builders ↔ ∃ m ∈ members, b = (m.name, writerOf m.type)) ∧
    (∀ l ∈ reads, ∃ w ∈ writes, l.member = "m_".toList ++ w.name ∧ w.file = l.file ∧ w.schema = l.schema) ∧
    ∀ w ∈ writes, (w.name, w.type) ∈ builders ∧ (∃ l ∈ reads, l.member = "m_".toList ++ w.name ∧ w.file = l.file ∧ w.schema = l.schema) ∧
      (w.sets = true ∨ w.starts = true) ∧ (w.starts = true → ∃ ts, w.type = .externalVector ts ∨ w.type = .multiVector ts)

/-! ## The schema -/

/-- The names that the namespace of its parent defines for `c`. -/
def spaceNames (c : Tree) : List Text :=
  match c.kind with
  | .structure _ => [c.name, c.name ++ "Template".toList, c.name ++ "Mutator".toList]
  | .archive => [c.name, c.name ++ "Builder".toList]
  | _ => [c.name]

/-- The names that schemas are kept under. -/
def schemaNames (c : Tree) : List Text :=
  match c.kind with
  | .structure _ => [c.name]
  | .archive => c.name :: (resourcesOf c).map fun r => c.name ++ "__".toList ++ r.name
  | _ => []

/-- What a schema has to satisfy besides being accepted, so that its archives compile in C++. -/
structure CppArchivesNameable (t : Tree) : Prop where
  /-- In every namespace, types, builders, inner namespaces, `internal` and `to_string` have different names. -/
  types : ∀ p n, t.descend p = some n → n.kind = .namespace → ("internal".toList :: "to_string".toList :: n.children.flatMap spaceNames).Nodup
  /-- In every namespace, schemas are kept under different names. -/
  schemas : ∀ p n, t.descend p = some n → n.kind = .namespace → (n.children.flatMap schemaNames).Nodup
  /-- No explicit reference leads to an instance (it has no `size( )`) or an archive (it is not checked), and other limits are values of `long long`. -/
  limits : ∀ q r k o m, t.descend q = some r → r.kind = .resource k o (some m) → k ≠ .instance ∧ k ≠ .archive ∧ m < 2 ^ 63

end Spec
