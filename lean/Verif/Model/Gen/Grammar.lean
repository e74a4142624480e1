import Verif.Model.Gen.Passes

/-!
# Model of `grammar.py`

A recursive descent reading of the pyparsing expressions. What is modelled of pyparsing: white space is skipped before
every token; `Word` is greedy; `|` takes the first alternative that matches; `+` fails if one part fails, `-` raises
`ParseSyntaxException` if a later part fails, and this exception is not caught by alternatives and repetitions;
`parseAll` demands the end of the text. Comments (`doc`) are read and dropped.

`Keyword` also looks at the preceding character; this matters only after `@optional` and is modelled there (`notAt`).

Simplification: literals are numbers here: for a decimal literal with leading
zeros, for which `int(…, 0)` raises `ValueError` when the node is created, parsing raises.
-/

namespace Gen

/-- The outcome of an expression: a value and the rest of the text; `ParseException`; `ParseSyntaxException`. -/
inductive Res (α : Type) where
  | ok (value : α) (rest : Text)
  | fail
  | fatal
  deriving Repr

/-- A pyparsing expression. -/
def Parser (α : Type) := Text → Res α

namespace Parser

/-- `+`. -/
def seq {α β : Type} (p : Parser α) (f : α → Parser β) : Parser β := fun t => match p t with
  | .ok a r => f a r
  | .fail => .fail
  | .fatal => .fatal

instance : Monad Parser where
  pure a := fun t => .ok a t
  bind := seq

/-- `|`. -/
def orElse {α : Type} (p q : Parser α) : Parser α := fun t => match p t with
  | .fail => q t
  | r => r

/-- `Optional`. -/
def opt {α : Type} (p : Parser α) : Parser (Option α) := fun t => match p t with
  | .ok a r => .ok (some a) r
  | .fail => .ok none t
  | .fatal => .fatal

/-- What follows `-`. -/
def must {α : Type} (p : Parser α) : Parser α := fun t => match p t with
  | .fail => .fatal
  | r => r

/-- `ZeroOrMore`, at most `n` times. -/
def manyN {α : Type} (p : Parser α) : Nat → Parser (List α)
  | 0 => fun t => .ok [] t
  | n + 1 => fun t => match p t with
    | .ok a r => match manyN p n r with
      | .ok as r => .ok (a :: as) r
      | .fail => .fail
      | .fatal => .fatal
    | .fail => .ok [] t
    | .fatal => .fatal

/-- `ZeroOrMore`. Every expression that is repeated in the grammar consumes some character, so the bound is never
reached (`repetitions_exact` in Lemmas/GenFormat.lean). -/
def many {α : Type} (p : Parser α) : Parser (List α) := fun t => manyN p t.length t

/-- `OneOrMore`. -/
def many1 {α : Type} (p : Parser α) : Parser (List α) := do
  let a ← p
  let as ← many p
  pure (a :: as)

end Parser

open Parser

/-! ## Characters and tokens -/

/-- `alphas`. -/
def isAlpha (c : Char) : Bool := (97 ≤ c.toNat ∧ c.toNat ≤ 122) ∨ (65 ≤ c.toNat ∧ c.toNat ≤ 90)
/-- `nums`. -/
def isNum (c : Char) : Bool := 48 ≤ c.toNat ∧ c.toNat ≤ 57
/-- `hexnums`. -/
def isHexNum (c : Char) : Bool := isNum c || ((97 ≤ c.toNat ∧ c.toNat ≤ 102) ∨ (65 ≤ c.toNat ∧ c.toNat ≤ 70) : Bool)
/-- The default white space characters of pyparsing. -/
def isWs (c : Char) : Bool := c = ' ' ∨ c = '\n' ∨ c = '\t' ∨ c = '\r'

/-- `preParse`. -/
def skipWs (t : Text) : Text := t.dropWhile isWs

/-- The rest of a text after a given beginning. -/
def stripPrefix : Text → Text → Option Text
  | [], t => some t
  | _ :: _, [] => none
  | c :: p, d :: t => if c = d then stripPrefix p t else none

/-- `Literal`. -/
def lit (s : Text) : Parser Unit := fun t => match stripPrefix s (skipWs t) with
  | some r => .ok () r
  | none => .fail

/-- `DEFAULT_KEYWORD_CHARS`. -/
def isKeywordChar (c : Char) : Bool := isAlpha c || isNum c || c = '_' || c = '$'

/-- `Keyword`. -/
def keyword (s : Text) : Parser Unit := fun t => match stripPrefix s (skipWs t) with
  | some [] => .ok () []
  | some (c :: r) => if isKeywordChar c then .fail else .ok () (c :: r)
  | none => .fail

/-- `Word(init, body)` without skipping white space. -/
def wordHere (init body : Char → Bool) : Parser Text := fun t => match t with
  | [] => .fail
  | c :: r => if init c then .ok (c :: r.takeWhile body) (r.dropWhile body) else .fail

/-- `Word(init, body)`. -/
def word (init body : Char → Bool) : Parser Text := fun t => wordHere init body (skipWs t)

/-- First characters of identifiers. -/
def isIdStart (c : Char) : Bool := isAlpha c || c = '_'
/-- Other characters of identifiers. -/
def isIdChar (c : Char) : Bool := isAlpha c || isNum c || c = '_'

/-- grammar.py:16. -/
def identifier : Parser Text := word isIdStart isIdChar
/-- grammar.py:17. -/
def qualifiedIdentifier : Parser Text := word (fun c => isIdStart c || c = '.') (fun c => isIdChar c || c = '.')

/-- The number a list of digits denotes in a base. -/
def numberOf (base : Nat) (t : Text) : Nat :=
  t.foldl (fun n c => base * n + (if isNum c then c.toNat - 48 else if 97 ≤ c.toNat then c.toNat - 87 else c.toNat - 55)) 0

/-- grammar.py:22 `bit_width` with the conversion `int(…)` (field.py:32-33, enumeration.py:19, multivector.py:19). -/
def bitWidth : Parser Nat := do pure (numberOf 10 (← word isNum isNum))

/-- grammar.py:20 `basic_type`: at most one keyword matches. -/
def basicTypeOf : List BasicName → Parser BasicName
  | [] => fun _ => .fail
  | b :: bs => orElse (do keyword b.text; pure b) (basicTypeOf bs)

/-- grammar.py:20. -/
def basicType : Parser BasicName := basicTypeOf BasicName.all

/-- grammar.py:24 `dec_literal` with `int(…, 0)` (constant.py:9, enumeration.py:26): leading zeros only for zero. -/
def decLiteral : Parser Nat := fun t => match wordHere isNum isNum t with
  | .ok w r => if w.head? = some '0' ∧ w.any (· ≠ '0') then .fatal else .ok (numberOf 10 w) r
  | .fail => .fail
  | .fatal => .fatal

/-- grammar.py:25 `hex_literal`; no white space inside `Combine`. -/
def hexLiteral : Parser Nat := fun t => match stripPrefix "0x".toList t with
  | none => .fail
  | some r => match wordHere isHexNum isHexNum r with
    | .ok w r => .ok (numberOf 16 w) r
    | .fail => .fail
    | .fatal => .fatal

/-- grammar.py:26 `signed_literal`. If the hexadecimal literal matches, it is the longer one. -/
def signedLiteral : Parser Int := fun t =>
  match stripPrefix ['-'] (skipWs t) with
  | some r => (do pure (-((← orElse hexLiteral decLiteral : Nat) : Int)) : Parser Int) r
  | none => (do pure ((← orElse hexLiteral decLiteral : Nat) : Int) : Parser Int) (skipWs t)

/-! ## Comments -/

/-- Up to the end of a `/* … */` comment. -/
def blockCommentEnd : Text → Res Unit
  | [] => .fail
  | c :: t => match stripPrefix ['*', '/'] (c :: t) with
    | some r => .ok () r
    | none => blockCommentEnd t

/-- Up to the end of a `// …` comment; a backslash continues it on the next line. -/
def lineCommentEnd : Text → Text
  | [] => []
  | '\\' :: '\n' :: t => lineCommentEnd t
  | c :: t => if c = '\n' then c :: t else lineCommentEnd t

/-- grammar.py:28 `cppStyleComment`. -/
def comment : Parser Unit := fun t => match stripPrefix ['/', '*'] (skipWs t) with
  | some r => blockCommentEnd r
  | none => match stripPrefix ['/', '/'] (skipWs t) with
    | some r => .ok () (lineCommentEnd r)
    | none => .fail

/-! ## Lists -/

/-- `delimitedList(p, ",")`. -/
def delimitedList {α : Type} (p : Parser α) : Parser (List α) := do
  let a ← p
  let as ← many (do lit [',']; p)
  pure (a :: as)

/-! ## Enumerations -/

/-- grammar.py:30-34 `enumValue`. -/
def enumValue : Parser (Text × Option Int) := do
  let _ ← opt comment
  let n ← identifier
  let v ← opt (do lit ['=']; signedLiteral)
  pure (n, v)

/-- grammar.py:36-44 `enum`. -/
def enumDecl : Parser PEnum := do
  let _ ← opt comment
  keyword "enum".toList
  let n ← identifier
  lit [':']
  let ty ← basicType
  let w ← opt (do lit [':']; bitWidth)
  lit ['{']
  let vs ← delimitedList enumValue
  let _ ← opt (lit [','])
  lit ['}']
  pure { name := n, type := ty, width := w, values := vs }

/-! ## Structures -/

/-- grammar.py:46-52 `range`. -/
def rangeDeco : Parser PFieldDeco := do
  let _ ← opt comment
  keyword "@range".toList
  must (lit ['('])
  let n ← must identifier
  must (lit [')'])
  pure (.range n)

/-- grammar.py:54-59 `const_ref`. -/
def constRef : Parser PFieldDeco := do
  keyword "@const".toList
  must (lit ['('])
  let n ← must qualifiedIdentifier
  must (lit [')'])
  pure (.constRef n)

/-- grammar.py:61-66 `invalid_value`. -/
def invalidValue : Parser PFieldDeco := do
  keyword "@optional".toList
  must (lit ['('])
  let n ← must qualifiedIdentifier
  must (lit [')'])
  pure (.invalidValue n)

/-- grammar.py:68-72 `field_decorations`. -/
def fieldDecoration : Parser PFieldDeco := orElse rangeDeco (orElse constRef invalidValue)

/-- grammar.py:74-81 `field`. -/
def fieldDecl : Parser PField := do
  let _ ← opt comment
  let ds ← many fieldDecoration
  let n ← identifier
  must (lit [':'])
  let ty ← must qualifiedIdentifier
  let w ← opt (do lit [':']; bitWidth)
  must (lit [';'])
  pure { name := n, decorations := ds, type := ty, width := w }

/-- grammar.py:83-90 `struct`. -/
def structDecl : Parser PStruct := do
  let _ ← opt comment
  keyword "struct".toList
  let n ← must identifier
  must (lit ['{'])
  let fs ← must (many1 fieldDecl)
  must (lit ['}'])
  pure { name := n, fields := fs }

/-! ## Archives -/

/-- grammar.py:92-94 `vector`. -/
def vectorType : Parser PResType := do
  keyword "vector".toList
  must (lit ['<'])
  let ty ← must qualifiedIdentifier
  must (lit ['>'])
  pure (.vector ty)

/-- grammar.py:96-102 `multivector`. -/
def multivectorType : Parser PResType := do
  keyword "multivector".toList
  must (lit ['<'])
  let w ← must bitWidth
  must (lit [','])
  let ts ← must (delimitedList qualifiedIdentifier)
  must (lit ['>'])
  pure (.multivector w ts)

/-- grammar.py:104-106 `single_object`. -/
def objectType : Parser PResType := do pure (.object (← qualifiedIdentifier))

/-- grammar.py:108-110 `raw_data`. -/
def rawDataType : Parser PResType := do keyword "raw_data".toList; pure .rawData

/-- grammar.py:112-115 `archive_resource`. -/
def archiveType : Parser PResType := do
  let _ ← opt comment
  keyword "archive".toList
  pure (.archive (← qualifiedIdentifier))

/-- grammar.py:117-123 `resource_type`. -/
def resourceType : Parser PResType :=
  orElse rawDataType (orElse vectorType (orElse multivectorType (orElse archiveType objectType)))

/-- grammar.py:129 `Optional(".") + identifier + ~FollowedBy(',')`. -/
def referencePart : Parser Text := do
  let d ← opt (lit ['.'])
  let n ← identifier
  let notFollowed : Parser Unit := fun t => match lit [','] t with
    | .ok .. => .fail
    | _ => .ok () t
  notFollowed
  pure (match d with
    | some _ => '.' :: n
    | none => n)

/-- grammar.py:125-130 `explicit_field_reference_prefix`: the parts are joined. -/
def referencePrefix : Parser Text := do pure (← many1 referencePart).flatten

/-- grammar.py:132-139 `explicit_reference`. -/
def explicitReferenceDeco : Parser PResDeco := do
  keyword "@explicit_reference".toList
  must (lit ['('])
  let s ← must referencePrefix
  must (lit ['.'])
  let f ← must identifier
  must (lit [','])
  let d ← must qualifiedIdentifier
  must (lit [')'])
  pure (.explicitReference s f d)

/-- The next character is not `@`. -/
def notAt : Parser Unit := fun t => match t with
  | '@' :: _ => .fail
  | _ => .ok () t

/-- grammar.py:149-151 `optional_decoration`. Only here can a keyword follow a character of identifiers directly, in
`@optional@…`. pyparsing's `Keyword` refuses to match there, so that no further decoration is found, the identifier of the
resource fails at the `@`, and with it the resource; in the model the decoration fails, with the same effect. -/
def optionalDeco : Parser PResDeco := do keyword "@optional".toList; notAt; pure .optional

/-- grammar.py:153-156 `resource_decorations`. -/
def resourceDecoration : Parser PResDeco := orElse explicitReferenceDeco optionalDeco

/-- grammar.py:141-147 and :158-160 `archive_decorations`. -/
def boundDeco : Parser (Text × List Text) := do
  keyword "@bound_implicitly".toList
  must (lit ['('])
  let n ← must identifier
  must (lit [':'])
  let rs ← must (delimitedList qualifiedIdentifier)
  must (lit [')'])
  pure (n, rs)

/-- grammar.py:162-167 `resource`. -/
def resourceDecl : Parser PResource := do
  let _ ← opt comment
  let ds ← many resourceDecoration
  let n ← identifier
  lit [':']
  let ty ← must resourceType
  must (lit [';'])
  pure { name := n, decorations := ds, type := ty }

/-- grammar.py:169-177 `archive`. -/
def archiveDecl : Parser PArchive := do
  let _ ← opt comment
  let bs ← many boundDeco
  keyword "archive".toList
  let n ← must identifier
  must (lit ['{'])
  let rs ← must (many resourceDecl)
  must (lit ['}'])
  pure { name := n, bounds := bs, resources := rs }

/-! ## Constants -/

/-- grammar.py:179-186 `constant`. -/
def constantDecl : Parser PConstant := do
  let _ ← opt comment
  keyword "const".toList
  let ty ← basicType
  let n ← identifier
  lit ['=']
  let v ← signedLiteral
  lit [';']
  pure { name := n, type := ty, value := v }

/-! ## Namespaces -/

/-- One of the entries of a namespace. -/
inductive PEntry where
  | enumeration (e : PEnum)
  | struct (s : PStruct)
  | archive (a : PArchive)
  | constant (c : PConstant)
  | comment
  deriving DecidableEq, Repr

/-- grammar.py:188-194 `flatdata_entry`. -/
def entry : Parser PEntry :=
  orElse (do pure (.enumeration (← enumDecl)))
    (orElse (do pure (.struct (← structDecl)))
      (orElse (do pure (.archive (← archiveDecl)))
        (orElse (do pure (.constant (← constantDecl))) (do comment; pure .comment))))

/-- The results names of grammar.py:188-194 (`listAllMatches`): the entries of each group, in order. -/
def blockOf (name : Text) (es : List PEntry) : PBlock where
  name := name
  constants := es.filterMap fun e => match e with
    | .constant c => some c
    | _ => none
  structures := es.filterMap fun e => match e with
    | .struct s => some s
    | _ => none
  enumerations := es.filterMap fun e => match e with
    | .enumeration x => some x
    | _ => none
  archives := es.filterMap fun e => match e with
    | .archive a => some a
    | _ => none

/-- grammar.py:198-204 `namespace`. -/
def namespaceDecl : Parser PBlock := do
  keyword "namespace".toList
  let n ← qualifiedIdentifier
  lit ['{']
  let es ← many entry
  lit ['}']
  let _ ← opt comment
  pure (blockOf n es)

/-- grammar.py:196 and :206-208 `flatdata_grammar`. -/
def flatdataGrammar : Parser (List PBlock) := do
  let _ ← many comment
  many1 namespaceDecl

/-- builder.py:82-90: `parseString(definition, parseAll=True)`; an empty text gives an empty tree. -/
def parseSource (t : Text) : M (List PBlock) :=
  if t = [] then pure []
  else match flatdataGrammar t with
    | .ok bs r => if skipWs r = [] then pure bs else throw .parsingError
    | _ => throw .parsingError

/-- builder.py:213-226 `build_ast(definition)` ends: it returns this tree, or it raises. -/
def Compile (source : Text) (out : M Tree) : Prop :=
  match parseSource source with
  | .error e => out = .error e
  | .ok blocks => BuildAst blocks out

end Gen
