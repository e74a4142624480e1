import Verif.Spec.Tokens
import Verif.Spec.Lexical

/-!
# The language of schemas

Which lists of tokens (`Spec/Tokens.lean`) are schemas, and what they declare. There is no order in which rules are tried, and no reading ahead.
-/

namespace Spec.Syntax
open Gen

/-- Phrases: which lists of tokens stand for a value. -/
abbrev Phrase (α : Type) := α → List Token → Prop

def key (s : String) : Token := .word s.toList

/-! ## Parts -/

/-- Any number of phrases. -/
inductive Each {α : Type} (P : Phrase α) : Phrase (List α)
  | nil : Each P [] []
  | cons {x l xs ls} : P x l → Each P xs ls → Each P (x :: xs) (l ++ ls)

/-- One or more phrases, separated by commas. -/
inductive Commas {α : Type} (P : Phrase α) : Phrase (List α)
  | one {x l} : P x l → Commas P [x] l
  | more {x l xs ls} : P x l → Commas P xs ls → Commas P (x :: xs) (l ++ .mark ',' :: ls)

/-- At most one comment. -/
def Doc (l : List Token) : Prop := l = [] ∨ l = [.comment]

/-- A digit and its value. -/
def Digit (base : Nat) (c : Char) (d : Nat) : Prop :=
  d < base ∧ (d < 10 ∧ c.toNat = 48 + d ∨ 10 ≤ d ∧ (c.toNat = 87 + d ∨ c.toNat = 55 + d))

/-- The digits of a number. -/
inductive Numeral (base : Nat) : Text → Nat → Prop
  | one {c d} : Digit base c d → Numeral base [c] d
  | more {t n c d} : Numeral base t n → Digit base c d → Numeral base (t ++ [c]) (base * n + d)

/-- `0`, also several times; a decimal number that does not begin with `0`; `0x` and a hexadecimal number. -/
inductive Unsigned : Text → Nat → Prop
  | zero {k} : Unsigned (List.replicate (k + 1) '0') 0
  | decimal {t n} : Numeral 10 t n → t.head? ≠ some '0' → Unsigned t n
  | hexadecimal {t n} : Numeral 16 t n → Unsigned ('0' :: 'x' :: t) n

/-- The same with `-` before it, without a blank. -/
inductive Signed : Text → Int → Prop
  | plain {t n} : Unsigned t n → Signed t n
  | minus {t n} : Unsigned t n → Signed ('-' :: t) (-n)

/-- A name, after which no other word may follow directly. -/
inductive Name : Phrase Text
  | mk {n} : Ident n → Name n [.word n]

/-- A name with dots. -/
inductive Path : Phrase Text
  | mk {q} : Dotted q → Path q [.word q]

/-- A keyword and a name with dots. If the name begins with a dot, there need not be a blank. -/
inductive KeyPath (k : String) : Phrase Text
  | apart {q} : Dotted q → KeyPath k q [key k, .word q]
  | together {q} : Dotted q → q.head? = some '.' → KeyPath k q [.word (k.toList ++ q)]

/-- `: 13`, or nothing. -/
inductive Width : Phrase (Option Nat)
  | none : Width none []
  | some {t n} : Numeral 10 t n → Width (some n) [.mark ':', .word t]

/-- Words in parentheses. -/
def inParens (l : List Token) : List Token := .mark '(' :: l ++ [.mark ')']

/-! ## Enumerations and constants -/

/-- `A` or `A = 1`. -/
inductive EnumValue : Phrase (Text × Option Int)
  | implicit {n doc} : Ident n → Doc doc → EnumValue (n, none) (doc ++ [.word n])
  | explicit {n doc t v} : Ident n → Doc doc → Signed t v → EnumValue (n, some v) (doc ++ [.word n, .mark '=', .word t])

/-- `enum E : u8 : 2 { A, B = 3, }`. -/
inductive Enumeration : Phrase PEnum
  | mk {n ty w wl vs vl comma} : Ident n → Width w wl → Commas EnumValue vs vl → (comma = [] ∨ comma = [.mark ',']) →
      Enumeration ⟨n, ty, w, vs⟩ ([key "enum", .word n, .mark ':', .word ty.text] ++ wl ++ .mark '{' :: vl ++ comma ++ [.mark '}'])

/-- `const u8 C = 1;`. -/
inductive Constant : Phrase PConstant
  | mk {n ty t v} : Ident n → Signed t v → Constant ⟨n, ty, v⟩ [key "const", .word ty.text, .word n, .mark '=', .word t, .mark ';']

/-! ## Structures -/

/-- `@range( r )`, `@const( C )`, `@optional( C )`. -/
inductive FieldDecoration : Phrase PFieldDeco
  | range {n doc} : Ident n → Doc doc → FieldDecoration (.range n) (doc ++ key "@range" :: inParens [.word n])
  | constRef {q} : Dotted q → FieldDecoration (.constRef q) (key "@const" :: inParens [.word q])
  | invalidValue {q} : Dotted q → FieldDecoration (.invalidValue q) (key "@optional" :: inParens [.word q])

/-- `x : u8 : 3;`. -/
inductive Field : Phrase PField
  | mk {n ds dl ty w wl doc} : Doc doc → Each FieldDecoration ds dl → Ident n → Dotted ty → Width w wl →
      Field ⟨n, ds, ty, w⟩ (doc ++ dl ++ [.word n, .mark ':', .word ty] ++ wl ++ [.mark ';'])

/-- `struct S { … }`, with one field at least. -/
inductive Struct : Phrase PStruct
  | mk {n fs fl} : Ident n → Each Field fs fl → fs ≠ [] → Struct ⟨n, fs⟩ ([key "struct", .word n, .mark '{'] ++ fl ++ [.mark '}'])

/-! ## Archives -/

/-- These words do not name the type of an instance: a type is expected after them. -/
def ReservedType (q : Text) : Prop :=
  q ∈ ["raw_data", "vector", "multivector"].map String.toList ∨ ∃ k ∈ ["raw_data", "vector", "multivector", "archive"].map String.toList, k ++ ['.'] <+: q

/-- The type of a resource. -/
inductive ResourceType : Phrase PResType
  | rawData : ResourceType .rawData [key "raw_data"]
  | vector {q} : Dotted q → ResourceType (.vector q) [key "vector", .mark '<', .word q, .mark '>']
  | multivector {t n qs ql} : Numeral 10 t n → Commas Path qs ql →
      ResourceType (.multivector n qs) ([key "multivector", .mark '<', .word t, .mark ','] ++ ql ++ [.mark '>'])
  | archive {q l doc} : Doc doc → KeyPath "archive" q l → ResourceType (.archive q) (doc ++ l)
  | object {q} : Dotted q → ¬ ReservedType q → ResourceType (.object q) [.word q]

/-- The field in an explicit reference: names, with or without a dot before them; the last name, which has to have a dot before it, is the field, and
the type is all that is before it, written without blanks. A word may contain several of these names and dots. (So `A B.f` is the field `f` of `AB`.) -/
inductive FieldPath : Text → Text → List Token → Prop
  | mk {parts : List (Bool × Text)} {f : Text} {groups : List (List Text)} : parts ≠ [] → (∀ p ∈ parts, Ident p.2) → Ident f →
      groups.flatten = parts.flatMap (fun p => if p.1 then [['.'], p.2] else [p.2]) ++ [['.'], f] →
      (∀ g ∈ groups, g ≠ [] ∧ g.IsChain fun a b => a = ['.'] ∨ b = ['.']) →
      FieldPath (parts.flatMap fun p => if p.1 then '.' :: p.2 else p.2) f (groups.map fun g => .word g.flatten)

/-- `@explicit_reference( S.f, r )`, `@optional`. -/
inductive ResourceDecoration : Phrase PResDeco
  | explicitReference {s f l q} : FieldPath s f l → Dotted q →
      ResourceDecoration (.explicitReference s f q) (key "@explicit_reference" :: inParens (l ++ [.mark ',', .word q]))
  | optional : ResourceDecoration .optional [key "@optional"]

/-- `r : vector< S >;`. -/
inductive Resource : Phrase PResource
  | mk {n ds dl ty tl doc} : Doc doc → Each ResourceDecoration ds dl → Ident n → ResourceType ty tl →
      Resource ⟨n, ds, ty⟩ (doc ++ dl ++ [.word n, .mark ':'] ++ tl ++ [.mark ';'])

/-- `@bound_implicitly( n : r, s )`. -/
inductive Bound : Phrase (Text × List Text)
  | mk {n qs ql} : Ident n → Commas Path qs ql → Bound (n, qs) (key "@bound_implicitly" :: inParens ([.word n, .mark ':'] ++ ql))

/-- `archive A { … }`. -/
inductive Archive : Phrase PArchive
  | mk {n bs bl rs rl} : Each Bound bs bl → Ident n → Each Resource rs rl →
      Archive ⟨n, bs, rs⟩ (bl ++ [key "archive", .word n, .mark '{'] ++ rl ++ [.mark '}'])

/-! ## Namespaces -/

/-- What is in a namespace: definitions of all kinds, and comments, in any order. -/
inductive Entries (name : Text) : Phrase PBlock
  | nil : Entries name ⟨name, [], [], [], []⟩ []
  | comment {b ls} : Entries name b ls → Entries name b (.comment :: ls)
  | enumeration {b e l ls} : Enumeration e l → Entries name b ls → Entries name { b with enumerations := e :: b.enumerations } (l ++ ls)
  | struct {b s l ls} : Struct s l → Entries name b ls → Entries name { b with structures := s :: b.structures } (l ++ ls)
  | archive {b a l ls} : Archive a l → Entries name b ls → Entries name { b with archives := a :: b.archives } (l ++ ls)
  | constant {b c l ls} : Constant c l → Entries name b ls → Entries name { b with constants := c :: b.constants } (l ++ ls)

/-- `namespace n { … }`, with at most one comment after it. -/
inductive Namespace : Phrase PBlock
  | mk {n nl b l doc} : KeyPath "namespace" n nl → Entries n b l → Doc doc → Namespace b (nl ++ .mark '{' :: l ++ .mark '}' :: doc)

/-- A schema: comments, then one or more namespaces. -/
inductive Schema : Phrase (List PBlock)
  | mk {k bs l} : Each Namespace bs l → bs ≠ [] → Schema bs (List.replicate k .comment ++ l)

end Spec.Syntax
