import Verif.Model.Gen.Tree

/-!
# What the grammar produces: `grammar.py`

The parse results of pyparsing as records; comments are dropped (only the `doc` properties hold them).
-/

namespace Gen

/-- The text of a basic type, grammar.py:19. -/
def BasicName.text : BasicName → Text
  | .bool => "bool".toList
  | .i8 => "i8".toList
  | .u8 => "u8".toList
  | .i16 => "i16".toList
  | .u16 => "u16".toList
  | .i32 => "i32".toList
  | .u32 => "u32".toList
  | .i64 => "i64".toList
  | .u64 => "u64".toList

/-- All basic types, grammar.py:19. -/
def BasicName.all : List BasicName := [.bool, .i8, .u8, .i16, .u16, .i32, .u32, .i64, .u64]

/-- basictype.py:19-21 `is_basic_type`, and the type meant. -/
def basicOfText (t : Text) : Option BasicName := BasicName.all.find? fun b => b.text = t

/-- grammar.py:179-186 `constant`; the value is the integer denoted by the literal (constant.py:9 `int(value, 0)`; that
`int` rejects decimal literals with leading zeros is `decLiteral` in `Model/Gen/Grammar.lean`). -/
structure PConstant where
  name : Text
  type : BasicName
  value : Int
  deriving DecidableEq, Repr

/-- grammar.py:30-44 `enum`. -/
structure PEnum where
  name : Text
  type : BasicName
  width : Option Nat
  values : List (Text × Option Int)
  deriving DecidableEq, Repr

/-- grammar.py:46-72 `field_decorations`. -/
inductive PFieldDeco where
  | range (name : Text)
  | constRef (name : Text)
  | invalidValue (name : Text)
  deriving DecidableEq, Repr

/-- grammar.py:74-81 `field`. -/
structure PField where
  name : Text
  decorations : List PFieldDeco
  type : Text
  width : Option Nat
  deriving DecidableEq, Repr

/-- grammar.py:83-90 `struct`. -/
structure PStruct where
  name : Text
  fields : List PField
  deriving DecidableEq, Repr

/-- grammar.py:92-123 `resource_type`. -/
inductive PResType where
  | vector (type : Text)
  | multivector (width : Nat) (types : List Text)
  | object (type : Text)
  | rawData
  | archive (name : Text)
  deriving DecidableEq, Repr

/-- grammar.py:125-156 `resource_decorations`. -/
inductive PResDeco where
  | explicitReference (sourceType sourceField destination : Text)
  | optional
  deriving DecidableEq, Repr

/-- grammar.py:162-167 `resource`. -/
structure PResource where
  name : Text
  decorations : List PResDeco
  type : PResType
  deriving DecidableEq, Repr

/-- grammar.py:169-177 `archive`, with its `@bound_implicitly` decorations (grammar.py:141-147). -/
structure PArchive where
  name : Text
  bounds : List (Text × List Text)
  resources : List PResource
  deriving DecidableEq, Repr

/-- grammar.py:198-204 `namespace`. pyparsing collects the entries of each group separately. -/
structure PBlock where
  name : Text
  constants : List PConstant
  structures : List PStruct
  enumerations : List PEnum
  archives : List PArchive
  deriving DecidableEq, Repr

end Gen
