import Verif.Spec.Usage
import Verif.Model.Gen.NativeClasses
import Verif.Model.Native.Cpp
import Verif.Model.Native.Rust
import Verif.Model.Native.Go

/-!
# What compilers make of the generated structures

Names of types as C++, Rust and Go define them; how a name of a type is looked up; and what the compiled class is to look like, in terms
of the fields the schema declares.
-/

namespace Spec
open Gen Model Model.Native

/-- A class: its size in bytes, and its members with their names, types, first bits and numbers of bits. -/
structure NativeClass (τ : Type) where
  size : Nat
  members : List (Text × τ × Nat × Nat)
  deriving DecidableEq

/-- The class has a member for every declared field, in order, at the bits of the field, with a type that is signed if the field is, and
that can hold the values of the field (unless it has no bits). -/
structure Declares {τ : Type} (holds : τ → Nat → Prop) (signed : τ → Bool) (rename : Text → Text) (fs : List FieldDecl) (c : NativeClass τ) : Prop where
  size : c.size = byteSize fs
  length : c.members.length = fs.length
  members : ∀ (i : Nat) f, fs[i]? = some f → ∃ ty, c.members[i]? = some (rename f.name.toList, ty, bitOffset fs i, f.width) ∧
    signed ty = f.isSigned ∧ (f.width ≠ 0 → holds ty f.width)

/-! ## C++ -/

/-- The integer types of `<cstdint>`, and `bool`. -/
def cppBuiltin (name : Text) : Option CppType :=
  match String.ofList name with
  | "bool" => some .bool
  | "int8_t" => some (.int 8 true)
  | "uint8_t" => some (.int 8 false)
  | "int16_t" => some (.int 16 true)
  | "uint16_t" => some (.int 16 false)
  | "int32_t" => some (.int 32 true)
  | "uint32_t" => some (.int 32 false)
  | "int64_t" => some (.int 64 true)
  | "uint64_t" => some (.int 64 false)
  | _ => none

/-- An enumeration with this underlying type. (With `bool` it has the values and conversions of `bool`.) -/
def enumOver : CppType → CppType
  | .int b s => .enum b s
  | t => t

/-- The full name of something called `k` in these namespaces: `::a::b::k`. -/
def cppFullName (scope : List Text) (k : Text) : Text := (scope ++ [k]).flatMap fun n => "::".toList ++ n

/-- The type a name stands for, and the values of its enumerators; `enums` are the enumerations declared so far. -/
def cppTypeNamed (enums : List (Text × CppType × List Int)) (name : Text) : Option (CppType × Option (List Int)) :=
  match cppBuiltin name with
  | some t => some (t, none)
  | none => (enums.lookup name).map fun e => (e.1, some e.2)

/-- The values of enumerators have to be different (the generated `to_string` has a case for each), and values of the underlying type. -/
def cppEnumeratorsOk (t : CppType) (values : List Int) : Bool :=
  decide (values.Nodup ∧ ∀ v ∈ values, t.cast v = v)

/-- A compiler on a header: every type has to be declared before it is used. The result are the structures by their full names. (That
enumerators and members have different names is not checked.) -/
def cppCompile : List (Text × CppType × List Int) → List CppDecl → Option (List (Text × NativeClass (CppType × Option (List Int))))
  | _, [] => some []
  | enums, .enumeration scope name base values :: rest => do
    let t ← cppBuiltin base
    if cppEnumeratorsOk t values then cppCompile ((cppFullName scope name, enumOver t, values) :: enums) rest else none
  | enums, .structure scope name size members :: rest => do
    let ms ← members.mapM fun m => do
      let t ← cppTypeNamed enums m.type
      pure (m.name, t, m.offset, m.width)
    let others ← cppCompile enums rest
    pure ((cppFullName scope name, ⟨size, ms⟩) :: others)

/-! ## Rust -/

/-- The primitive types. -/
def rustBuiltin (name : Text) : Option RustType :=
  match String.ofList name with
  | "bool" => some .bool
  | "i8" => some (.int 8 true)
  | "u8" => some (.int 8 false)
  | "i16" => some (.int 16 true)
  | "u16" => some (.int 16 false)
  | "i32" => some (.int 32 true)
  | "u32" => some (.int 32 false)
  | "i64" => some (.int 64 true)
  | "u64" => some (.int 64 false)
  | _ => none

/-- The segments of a path. -/
def splitColons : Text → List Text
  | [] => [[]]
  | ':' :: ':' :: t => [] :: splitColons t
  | c :: t => match splitColons t with
    | [] => [[c]]
    | w :: ws => (c :: w) :: ws

/-- What a path means in a module: `super` is the module around it. -/
def rustLookup : Path → List Text → Option Path
  | module, [] => some module
  | module, w :: ws =>
    if w = "super".toList then
      if module = [] then none else rustLookup module.dropLast ws
    else some (module ++ w :: ws)

/-- The enumerations of a program, by their paths: the primitive type that represents them, and their discriminants. -/
def rustEnums (items : List RustItem) : List (Path × Text × List Int) := items.filterMap fun
  | .enumeration scope name repr values => some (scope ++ [name], repr, values)
  | .structure .. => none

/-- A member of a struct in the module `scope`: the primitive type, and if the getter returns an enumeration, the discriminants of that
enumeration. `none` means that it does not compile: the types must exist, and reinterpreting a value requires types of the same size. -/
def rustMemberType (items : List RustItem) (scope : Path) (m : RustMember) : Option (RustType × Option (List Int)) :=
  match rustBuiltin m.primitive with
  | none => none
  | some t =>
    if m.type = m.primitive then some (t, none)
    else match rustLookup scope (splitColons m.type) with
      | none => none
      | some q => match (rustEnums items).lookup q with
        | some (repr, values) => if repr = m.primitive then some (t, some values) else none
        | none => none

/-- The structs of a program by their paths. -/
def rustClasses (items : List RustItem) : List RustItem → Option (List (Path × NativeClass (RustType × Option (List Int))))
  | [] => some []
  | .enumeration .. :: rest => rustClasses items rest
  | .structure scope name size members :: rest => do
    let ms ← members.mapM fun m => do
      let t ← rustMemberType items scope m
      pure (m.name, t, m.offset, m.width)
    let others ← rustClasses items rest
    pure ((scope ++ [name], ⟨size, ms⟩) :: others)

/-- An enumeration has to be represented by an integer type, and its discriminants have to be different values of this type. -/
def rustItemOk : RustItem → Bool
  | .structure .. => true
  | .enumeration _ _ repr values => match rustBuiltin repr with
    | some (.int b s) => decide (values.Nodup ∧ ∀ v ∈ values, InRange b s v)
    | _ => false

/-- A compiler on a program. (That the variants of an enumeration have different names is not checked.) -/
def rustCompile (items : List RustItem) : Option (List (Path × NativeClass (RustType × Option (List Int)))) :=
  if items.all rustItemOk then rustClasses items items else none

/-- Enumerations that Rust can represent, in namespaces that Rust can name. -/
structure RustNameable (t : Tree) : Prop where
  enums : ∀ q m b, t.descend q = some m → m.kind = .enumeration b → b.name ≠ .bool
  super : ∀ q m b, t.descend q = some m → m.kind = .enumeration b → q.head? ≠ some "super".toList

/-! ## Go -/

/-- The predeclared types. -/
def goBuiltin (name : Text) : Option GoType :=
  match String.ofList name with
  | "bool" => some .bool
  | "int8" => some (.int 8 true)
  | "uint8" => some (.int 8 false)
  | "int16" => some (.int 16 true)
  | "uint16" => some (.int 16 false)
  | "int32" => some (.int 32 true)
  | "uint32" => some (.int 32 false)
  | "int64" => some (.int 64 true)
  | "uint64" => some (.int 64 false)
  | _ => none

/-- The members with their types; the argument of `Read` has to be that of the type. -/
def goCompile (s : GoStruct) : Option (NativeClass GoType) := do
  let ms ← s.members.mapM fun m => do
    let t ← goBuiltin m.type
    if t.isSigned = m.isSigned then some (m.name, t, m.offset, m.width) else none
  pure ⟨s.size, ms⟩

end Spec
