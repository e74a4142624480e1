import Verif.Spec.NativeClasses
import Verif.Spec.Literal
import Verif.Model.Gen.NativeConstants

/-!
# What compilers make of generated constants
-/

namespace Spec
open Gen Model Model.Native

/-- The field `f` is optional with a constant of value `z`. -/
def InvalidOf (t f : Tree) (z : Int) : Prop :=
  ∃ ref ∈ f.children, ref.kind = .ref .invalidValue ∧ ∃ n b, t.find ref.target = .ok n ∧ n.kind = .constant b z

/-- The structure `n` is compiled to these optional members, given by name, type and constant: for every optional field a member with the
constant of the field, which is a value of the field, and a type that can hold the field (unless it has no bits). -/
structure OptionalsOf {τ : Type} (holds : τ → Nat → Prop) (signed : τ → Bool) (rename : Text → Text) (t n : Tree) (members : List (Text × τ × Int)) : Prop where
  sound : ∀ m ∈ members, ∃ f ∈ n.children, ∃ fd, declaredField f = some fd ∧ m.1 = rename f.name ∧ InvalidOf t f m.2.2 ∧
    signed m.2.1 = fd.isSigned ∧ (fd.width ≠ 0 → holds m.2.1 fd.width) ∧ InRange fd.width fd.isSigned m.2.2
  complete : ∀ f ∈ n.children, ∀ z, f.kind.isField = true → InvalidOf t f z → ∃ ty, (rename f.name, ty, z) ∈ members

/-- There is a constant at `p` of this type with this value. -/
def ConstantAt (t : Tree) (p : Path) (b : BasicName) (z : Int) : Prop := ∃ n w, t.descend p = some n ∧ n.kind = .constant ⟨b, w⟩ z

/-! ## C++ -/

/-- A compiler on constants and their uses. An enumerator has to be a value of the type behind the colon; the second argument of `Tagged` has
to be a constant declared before, whose value is a value of the type that is the first argument. The results are the constants by their
full names, and the structures with the types and constants of their optional fields. -/
def cppConstCompile : List (Text × CppType × Int) → List CppConstDecl →
    Option (List (Text × CppType × Int) × List (Text × List (Text × CppType × Int)))
  | constants, [] => some (constants, [])
  | constants, .constant scope name base value :: rest => do
    let t ← cppBuiltin base
    if t.cast value = value ∧ constants.lookup (cppFullName scope name) = none then
      cppConstCompile ((cppFullName scope name, t, value) :: constants) rest
    else none
  | constants, .structure scope name tagged :: rest => do
    let members ← tagged.mapM fun m => do
      let t ← cppBuiltin m.type
      let c ← constants.lookup m.invalid
      if t.cast c.2 = c.2 then some (m.name, t, c.2) else none
    let others ← cppConstCompile constants rest
    pure (others.1, (cppFullName scope name, members) :: others.2)

/-! ## Rust -/

/-- A decimal digit. -/
def rustDigit (c : Char) : Bool := decide (48 ≤ c.toNat ∧ c.toNat ≤ 57)

/-- The value of a decimal literal: a digit, followed by digits and underscores. -/
def rustDecimal (t : Text) : Option Nat :=
  if t.head?.any rustDigit ∧ t.all (fun c => rustDigit c || c == '_') then
    some ((t.filter rustDigit).foldl (fun (n : Nat) c => 10 * n + (c.toNat - 48)) 0)
  else none

/-- The value of an integer expression: a decimal literal, perhaps behind a minus. -/
def rustLiteral : Text → Option Int
  | '-' :: t => (rustDecimal t).map fun n => -(n : Int)
  | t => (rustDecimal t).map fun n => (n : Int)

/-- The constants of a program by their paths. -/
def rustConstants (items : List RustConstItem) : List (Path × Text × Text) := items.filterMap fun
  | .constant scope name type value => some (scope ++ [name], type, value)
  | .structure .. => none

/-- A compiler on a constant: an integer literal of an integer type that can hold it. -/
def rustConstOk (type value : Text) : Bool :=
  match rustBuiltin type, rustLiteral value with
  | some (.int w s), some z => decide (InRange w s z)
  | _, _ => false

/-- A compiler on the uses of constants: type and constant for every optional field, by the names of the structures. `none` means that a
path leads nowhere, or to a constant of another type. -/
def rustConstUses (items : List RustConstItem) : List RustConstItem → Option (List (Path × List (Text × RustType × Int)))
  | [] => some []
  | .constant .. :: rest => rustConstUses items rest
  | .structure scope name optional :: rest => do
    let members ← optional.mapM fun m => do
      let q ← rustLookup scope (splitColons m.2.2)
      let c ← (rustConstants items).lookup q
      let t ← rustBuiltin m.2.1
      let z ← rustLiteral c.2
      if c.1 = m.2.1 then some (m.1, t, z) else none
    let others ← rustConstUses items rest
    pure ((scope ++ [name], members) :: others)

/-- A compiler on constants and their uses: no constant is defined twice, all are integers, and every path leads to one. -/
def rustConstCompile (items : List RustConstItem) : Option (List (Path × List (Text × RustType × Int))) :=
  if ((rustConstants items).map (·.1)).Nodup ∧ (rustConstants items).all (fun c => rustConstOk c.2.1 c.2.2) then rustConstUses items items else none

/-- The name has no lower-case letters. -/
def Shouting (k : Text) : Prop := ∀ c ∈ k, isLowerChar c = false

/-- Constants that Rust can name and represent. -/
structure RustConstsNameable (t : Tree) : Prop where
  shouting : ∀ ns k n b z, t.descend (ns ++ [k]) = some n → n.kind = .constant b z → Shouting k
  integers : ∀ q n b z, t.descend q = some n → n.kind = .constant b z → b.name ≠ .bool
  super : ∀ q n b z, t.descend q = some n → n.kind = .constant b z → q.head? ≠ some "super".toList

end Spec
