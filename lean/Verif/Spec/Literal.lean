import Verif.Model.Gen.Enumeration

/-!
# What string literals of the target languages mean

Only as much as certainly holds: `none` stands for "not a literal, or not covered here".
-/

namespace Spec
open Gen

/-- Drops a given beginning of a text. -/
def dropPrefix : Text → Text → Option Text
  | [], t => some t
  | _ :: _, [] => none
  | c :: p, d :: t => if c = d then dropPrefix p t else none

/-- Python: the escape sequences of one character (lexical analysis, section 2.4.1); the others are not covered. -/
def pyEscape : Char → Option Text
  | '\n' => some []
  | '\\' => some ['\\']
  | '\'' => some ['\'']
  | '"' => some ['"']
  | 'n' => some ['\n']
  | 't' => some ['\t']
  | _ => none

/-- Python: the text after the opening quotes of a triple-quoted string; the result is the value and what follows the
closing quotes. Carriage returns (translated when the source is read) and NUL (not allowed in sources) are not covered. -/
def pyTripleBody : Text → Option (Text × Text)
  | [] => none
  | '\\' :: t => match t with
    | [] => none
    | c :: t => match pyEscape c, pyTripleBody t with
      | some x, some (v, rest) => some (x ++ v, rest)
      | _, _ => none
  | c :: t =>
    match dropPrefix ['"', '"', '"'] (c :: t) with
    | some rest => some ([], rest)
    | none =>
      if c = '\r' ∨ c = '\x00' then none
      else match pyTripleBody t with
        | some (v, rest) => some (c :: v, rest)
        | none => none

/-- Python: a triple-quoted string literal at the beginning of a text, its value and the rest. -/
def pyTriple (t : Text) : Option (Text × Text) := (dropPrefix ['"', '"', '"'] t).bind pyTripleBody

/-- C++: the simple escape sequences used here. -/
def cppEscape : Char → Option Char
  | 'n' => some '\n'
  | '\\' => some '\\'
  | '"' => some '"'
  | _ => none

/-- C++: adjacent ordinary string literals, separated by blanks and newlines, are one literal ([lex.phases]); it ends before
the first other character outside the quotes. `inside` tells whether an opening quote was read last. (Trigraphs, which
C++17 has removed, are not covered.) -/
def cppStrings : Bool → Text → Option (Text × Text)
  | true, [] => none
  | true, '\\' :: t => match t with
    | [] => none
    | c :: t => match cppEscape c, cppStrings true t with
      | some x, some (v, rest) => some (x :: v, rest)
      | _, _ => none
  | true, c :: t =>
    if c = '"' then cppStrings false t
    else if c = '\n' then none
    else match cppStrings true t with
      | some (v, rest) => some (c :: v, rest)
      | none => none
  | false, [] => some ([], [])
  | false, c :: t =>
    if c = '"' then cppStrings true t
    else if c = ' ' ∨ c = '\n' then cppStrings false t
    else some ([], c :: t)

/-- Raw strings of C++, Rust and Go: everything between an opening text and the first occurrence of a closing text. -/
def untilClosing (closing : Text) : Text → Option (Text × Text)
  | [] => (dropPrefix closing []).map fun r => ([], r)
  | c :: t =>
    match dropPrefix closing (c :: t) with
    | some rest => some ([], rest)
    | none => match untilClosing closing t with
      | some (v, rest) => some (c :: v, rest)
      | none => none

/-- A raw string literal, its value and the rest. -/
def rawString (opening closing : Text) (t : Text) : Option (Text × Text) :=
  (dropPrefix opening t).bind (untilClosing closing)

/-- A decimal number whose digits are grouped by underscores: `first_ddd_ddd`. -/
structure Grouping where
  negative : Bool
  first : Text
  groups : List Text

/-- One to three digits, then groups of exactly three digits. -/
def Grouping.Valid (g : Grouping) : Prop :=
  (1 ≤ g.first.length ∧ g.first.length ≤ 3) ∧ (∀ x ∈ g.groups, x.length = 3) ∧
    ∀ c ∈ g.first ++ g.groups.flatten, 48 ≤ c.toNat ∧ c.toNat ≤ 57

/-- The grouped text. -/
def Grouping.text (g : Grouping) : Text :=
  (if g.negative then ['-'] else []) ++ g.first ++ (g.groups.map fun x => '_' :: x).flatten

/-- The text without underscores. -/
def Grouping.plain (g : Grouping) : Text := (if g.negative then ['-'] else []) ++ g.first ++ g.groups.flatten

end Spec
