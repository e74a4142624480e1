import Verif.Model.Gen.Enumeration

/-!
# Model of the filters that put texts and numbers into generated sources

`generators/python.py`, `generators/cpp.py`, `generators/rust.py` and the template lines that use them.
-/

namespace Gen

/-! ## Texts -/

/-- python.py:78-79 `_safe_py_string_line` and cpp.py:25-26 `_safe_cpp_string_line`, one character at a time: backslashes
are doubled first, so the backslash put before a quote is not doubled. -/
def safeString (t : Text) : Text :=
  (t.flatMap fun c => if c = '\\' then ['\\', '\\'] else [c]).flatMap fun c => if c = '"' then ['\\', '"'] else [c]

/-- python.jinja2:34, :36, :63, :65: the schema of an archive or resource in quotes. -/
def pyLiteral (t : Text) : Text := "\"\"\"".toList ++ safeString t ++ "\"\"\"".toList

/-- python.jinja2:13: the schema of a structure in quotes. -/
def pyRawLiteral (t : Text) : Text := "\"\"\"".toList ++ t ++ "\"\"\"".toList

/-- `str.split('\n')`. -/
def splitLines : Text → List Text
  | [] => [[]]
  | c :: t =>
    if c = '\n' then [] :: splitLines t
    else match splitLines t with
      | [] => [[c]]
      | w :: ws => (c :: w) :: ws

/-- `sep.join(parts)`. -/
def joinTexts (sep : Text) : List Text → Text
  | [] => []
  | [w] => w
  | w :: ws => w ++ sep ++ joinTexts sep ws

/-- cpp/archive.jinja2:94-100: the schema of an archive or resource as a sequence of string literals. -/
def cppLiteral (t : Text) : Text :=
  '"' :: (joinTexts "\\n\"\n    \"".toList ((splitLines t).map safeString) ++ ['"'])

/-- cpp/structure.jinja2:77. -/
def cppRawLiteral (t : Text) : Text := "R\"schema(".toList ++ t ++ ")schema\"".toList

/-- rust/rust.jinja2:41 and :45. -/
def rustRawLiteral (t : Text) : Text := "r#\"".toList ++ t ++ "\"#".toList

/-- go/archive.jinja2:136. -/
def goRawLiteral (t : Text) : Text := "`".toList ++ t ++ "`".toList

/-! ## Numbers -/

/-- `\d`; the text is that of a number, so it has no other digits than these. -/
def isDigitChar (c : Char) : Bool := 48 ≤ c.toNat ∧ c.toNat ≤ 57

/-- `(?!\d)`. -/
def noDigitAhead : Text → Bool
  | [] => true
  | c :: _ => !isDigitChar c

/-- `(?=(\d{3})+(?!\d))`: three digits, and then no digit or again this. -/
def groupsAhead : Text → Bool
  | a :: b :: c :: t => isDigitChar a && isDigitChar b && isDigitChar c && (noDigitAhead t || groupsAhead t)
  | _ => false

/-- rust.py:37-38: `re.sub(r"(\d)(?=(\d{3})+(?!\d))", r"\1_", …)`. A match is one character long. -/
def insertUnderscores : Text → Text
  | [] => []
  | c :: t => if isDigitChar c && groupsAhead t then c :: '_' :: insertUnderscores t else c :: insertUnderscores t

/-- rust.py:32-41 `_format_numeric_literal` of an integer (constants and enumeration values are integers). -/
def formatNumericLiteral (n : Int) : Text := insertUnderscores (intText n)

end Gen
