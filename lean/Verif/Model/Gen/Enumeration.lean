import Verif.Py.Basic

/-!
# Model of the generator's leaf nodes: basic types, constants, enumerations

`flatdata-generator/flatdata/generator/tree/helpers/basictype.py`, `tree/nodes/trivial/constant.py`,
`tree/nodes/trivial/enumeration.py`. Python strings are lists of characters.
-/

namespace Gen

/-- Identifiers and other texts. -/
abbrev Text := List Char

/-- The exceptions of `tree/errors.py` and the built-in ones the modelled code raises. Only arguments that identify
the culprit are kept. -/
inductive Err where
  | symbolRedefinition (name : Text)
  | circularReferencing
  | missingSymbol (name : Text)
  | incorrectReferenceType (name : Text)
  | unexpectedResourceType
  | parsingError
  | invalidWidth (width : Nat)
  | invalidSign (value : Int)
  | duplicateEnumValue (name : Text) (value : Int)
  | sparseEnum (name : Text)
  | invalidEnumValue (name : Text) (value : Int)
  | invalidStructInExplicitReference
  | invalidEnumWidth (name : Text)
  | invalidConstantValue (name : Text) (value : Int)
  | invalidConstReference (name : Text)
  | invalidConstValueReference (name : Text)
  | duplicateInvalidValueReference (name : Text)
  | invalidRangeName (name : Text)
  | invalidRangeReference (name : Text)
  | optionalRange (name : Text)
  | typeError
  | assertionError
  | runtimeError
  | keyError
  | attributeError
  | indexError
  deriving DecidableEq, Repr

/-- A Python computation of the generator. -/
abbrev M := Except Err

/-! ## Basic types -/

/-- grammar.py:19 `BASIC_TYPES`. -/
inductive BasicName where
  | bool | i8 | u8 | i16 | u16 | i32 | u32 | i64 | u64
  deriving DecidableEq, Repr

/-- basictype.py:7-17 `_WIDTH`. -/
def BasicName.width : BasicName → Nat
  | .bool => 1
  | .u8 => 8
  | .i8 => 8
  | .u16 => 16
  | .i16 => 16
  | .u32 => 32
  | .i32 => 32
  | .u64 => 64
  | .i64 => 64

/-- basictype.py:40-42 `is_signed`: the name starts with `i`. -/
def BasicName.isSigned : BasicName → Bool
  | .i8 => true
  | .i16 => true
  | .i32 => true
  | .i64 => true
  | _ => false

/-- basictype.py:23-30: the object. -/
structure BasicType where
  name : BasicName
  width : Nat
  deriving DecidableEq, Repr

/-- basictype.py:23-30 `__init__`. -/
def BasicType.create (name : BasicName) (width : Option Nat) : M BasicType :=
  let w := width.getD name.width
  if w > name.width then throw (.invalidWidth w) else pure ⟨name, w⟩

/-- `n.bit_length()` for `n ≥ 0`. -/
def bitLength (n : Nat) : Nat := if n = 0 then 0 else Nat.log2 n + 1

/-- basictype.py:44-53 `bits_required`. -/
def BasicType.bitsRequired (t : BasicType) (value : Int) : M Nat :=
  if t.name.isSigned then
    if value ≥ 0 then pure (bitLength value.toNat + 1)
    else pure (bitLength (-value - 1).toNat + 1)
  else if value ≥ 0 then pure (bitLength value.toNat)
  else throw (.invalidSign value)

/-- basictype.py:55-58 `value_range`. `2 ** (0 - 1)` is a float: `range` raises `TypeError`. -/
def BasicType.valueRange (t : BasicType) : M (List Int) :=
  if t.name.isSigned then
    if t.width = 0 then throw .typeError
    else pure (Py.range (-(2 ^ (t.width - 1))) (2 ^ (t.width - 1)) 1)
  else pure (Py.range 0 (2 ^ t.width) 1)

/-- numpy element types: booleans, and integers of a given signedness and number of bytes. -/
inductive Dtype where
  | bool
  | int (signed : Bool) (bytes : Nat)
  deriving DecidableEq, Repr

/-- generators/python.py:62-76 `to_dtype`; for a field whose type is an enumeration the basic type of that
enumeration is used. The texts of the map are `?`, `b`, `B`, `u2`, `i2`, `u4`, `i4`, `u8`, `i8` (in numpy's notation
the digit counts bytes). -/
def BasicName.dtype : BasicName → Dtype
  | .bool => .bool
  | .i8 => .int true 1
  | .u8 => .int false 1
  | .u16 => .int false 2
  | .i16 => .int true 2
  | .u32 => .int false 4
  | .i32 => .int true 4
  | .u64 => .int false 8
  | .i64 => .int true 8

/-! ## Constants -/

/-- constant.py: a constant node. -/
structure Constant where
  name : Text
  type : BasicType
  value : Int
  deriving DecidableEq, Repr

/-- constant.py:6-16 `create`, for a parsed literal. `type` is the basic type without explicit width. -/
def Constant.create (name : Text) (type : BasicName) (value : Int) : M Constant := do
  let t ← BasicType.create type none
  let bits ← t.bitsRequired value
  if bits > t.width then throw (.invalidConstantValue name value) else pure ⟨name, t, value⟩

/-! ## Enumerations -/

/-- enumeration_value.py: a value node. -/
structure EnumValue where
  name : Text
  value : Int
  autoGenerated : Bool
  deriving DecidableEq, Repr

/-- enumeration.py: an enumeration node with its children. -/
structure Enumeration where
  name : Text
  type : BasicType
  values : List EnumValue
  deriving DecidableEq, Repr

/-- node.py:206-224 `insert` for value nodes: names are unique among siblings. -/
def insertValue (children : List EnumValue) (v : EnumValue) : M (List EnumValue) :=
  if v.name ∈ children.map (·.name) then throw (.symbolRedefinition v.name) else pure (children ++ [v])

/-- enumeration.py:22-32, the loop over the declared values. `current` is `current_assigned_value`, `unique` the set
of values seen so far. -/
def declareValues (enumName : Text) : List (Text × Option Int) → Int → List Int → List EnumValue →
    M (List Int × List EnumValue)
  | [], _, unique, children => pure (unique, children)
  | (name, constant) :: rest, current, unique, children =>
    let current := constant.getD current
    if current ∈ unique then throw (.duplicateEnumValue enumName current)
    else do
      let children ← insertValue children ⟨name, current, false⟩
      declareValues enumName rest (current + 1) (unique ++ [current]) children

/-- The decimal digit of a number below ten. -/
def digitChar (d : Nat) : Char := Char.ofNat (48 + d)

/-- `str(n)` for a natural number. -/
def natText (n : Nat) : Text :=
  if n < 10 then [digitChar n] else natText (n / 10) ++ [digitChar (n % 10)]
termination_by n

/-- `str(n)` for an integer. -/
def intText (n : Int) : Text := if n < 0 then '-' :: natText n.natAbs else natText n.natAbs

/-- `t.replace("-", "MINUS_")`. -/
def replaceMinus (t : Text) : Text := t.flatMap fun c => if c = '-' then "MINUS_".toList else [c]

/-- enumeration.py:40: the name of a generated value. -/
def unknownName (v : Int) : Text := "UNKNOWN_VALUE_".toList ++ replaceMinus (intText v)

/-- enumeration.py:38-41, the loop over the values of the type. -/
def fillMissing (unique : List Int) : List Int → List EnumValue → M (List EnumValue)
  | [], children => pure children
  | v :: rest, children =>
    if v ∈ unique then fillMissing unique rest children
    else do
      let children ← insertValue children ⟨unknownName v, v, true⟩
      fillMissing unique rest children

/-- enumeration.py:43-46. The iteration order of a set is unspecified; it decides which of several bad values is
reported. -/
def checkValues (enumName : Text) (t : BasicType) : List Int → M Unit
  | [] => pure ()
  | v :: rest => do
    if (← t.bitsRequired v) > t.width then throw (.invalidEnumValue enumName v) else checkValues enumName t rest

/-- enumeration.py:15-49 `create`. The grammar guarantees at least one value. -/
def Enumeration.create (name : Text) (type : BasicName) (width : Option Nat) (decls : List (Text × Option Int)) :
    M Enumeration := do
  let t ← BasicType.create type width
  let (unique, children) ← declareValues name decls 0 [] []
  if decls.length * 2 + 256 < 2 ^ t.width then throw (.sparseEnum name)
  let children ← fillMissing unique (← t.valueRange) children
  checkValues name t unique
  pure ⟨name, t, children⟩

end Gen
