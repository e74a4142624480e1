import Verif.Model.Gen.Enumeration

/-!
# Comments of the target languages

What a compiler passes over between two tokens: from `s` it gets to `r` without a token. (Rust: outer documentation comments
are tokens, their contents are listed.)
-/

namespace Spec
open Gen

/-- The line ends here: no more text, or a line feed. -/
def LineEnd (s : Text) : Prop := s = [] ∨ ∃ r, s = '\n' :: r

/-- Python: white space, line ends, and comments from `#` to the end of the line; lines end with a line feed or a carriage
return. -/
inductive PySkips : Text → Text → Prop
  | none {s} : PySkips s s
  | blank {c s r} : c = ' ' ∨ c = '\t' ∨ c = '\n' ∨ c = '\r' → PySkips s r → PySkips (c :: s) r
  | comment {body s r} : (∀ c ∈ body, c ≠ '\n' ∧ c ≠ '\r') → (LineEnd s ∨ ∃ u, s = '\r' :: u) → PySkips s r →
      PySkips ('#' :: (body ++ s)) r

/-- Go and C++: white space, comments from `//` to the end of the line and from `/*` to the next `*/`. -/
inductive CSkips : Text → Text → Prop
  | none {s} : CSkips s s
  | blank {c s r} : c = ' ' ∨ c = '\t' ∨ c = '\n' ∨ c = '\r' → CSkips s r → CSkips (c :: s) r
  | line {body s r} : '\n' ∉ body → LineEnd s → CSkips s r → CSkips ('/' :: '/' :: (body ++ s)) r
  | block {body s r} : ¬ ['*', '/'] <:+: body ++ ['*'] → CSkips s r → CSkips ('/' :: '*' :: (body ++ '*' :: '/' :: s)) r

/-- C++: a backslash and the line feed after it are removed before comments are looked for ([lex.phases], phase 2). -/
def cppSplice : Text → Text
  | [] => []
  | '\\' :: '\n' :: t => cppSplice t
  | c :: t => c :: cppSplice t

/-- Rust: white space, line comments, and outer documentation comments (`///`, not followed by another `/`, without carriage
return), with the list of what these contain. Inner documentation comments (`//!`) are not allowed before an item. -/
inductive RustDocs : Text → List Text → Text → Prop
  | none {s} : RustDocs s [] s
  | blank {c s ds r} : c = ' ' ∨ c = '\t' ∨ c = '\n' ∨ c = '\r' → RustDocs s ds r → RustDocs (c :: s) ds r
  | line {body s ds r} : '\n' ∉ body → body.head? ≠ some '!' → (body.head? = some '/' → body.tail.head? = some '/') → LineEnd s →
      RustDocs s ds r → RustDocs ('/' :: '/' :: (body ++ s)) ds r
  | doc {body s ds r} : '\n' ∉ body → '\r' ∉ body → body.head? ≠ some '/' → LineEnd s → RustDocs s ds r →
      RustDocs ('/' :: '/' :: '/' :: (body ++ s)) (body :: ds) r

/-- A comment of a schema: `/* … */` without `*/` inside, or `// …` on one line, except that a backslash at the end of a line
continues it. -/
inductive DocText : Text → Prop
  | block {body} : ¬ ['*', '/'] <:+: body ++ ['*'] → DocText ('/' :: '*' :: (body ++ ['*', '/']))
  | line {body} : (∀ a b, body = a ++ '\n' :: b → a.getLast? = some '\\') → body.getLast? ≠ some '\\' →
      DocText ('/' :: '/' :: body)

/-- No line of the text ends with a backslash. -/
def NoSplice (d : Text) : Prop := ¬ ['\\', '\n'] <:+: d

/-- Every further line of the text is empty or begins with `*`, `/*` or `//` (not `//!`), after blanks and tabs. -/
def Starred (d : Text) : Prop := ∀ a b, d = a ++ '\n' :: b → ∃ blanks r, b = blanks ++ r ∧ (∀ c ∈ blanks, c = ' ' ∨ c = '\t') ∧
  (LineEnd r ∨ (∃ u, r = '*' :: u) ∨ (∃ u, r = '/' :: '*' :: u) ∨ ∃ u, r = '/' :: '/' :: u ∧ u.head? ≠ some '!')

/-- The usual form of a comment: `/**`, then ` * ` before each line of it, then ` */`, each on a line of its own. -/
def usualComment (lines : List Text) : Text := "/**\n".toList ++ lines.flatMap (fun l => " * ".toList ++ l ++ ['\n']) ++ " */".toList

/-- A line of such a comment: without line break or `*/`, and no white space at its end. -/
def PlainLine (l : Text) : Prop := '\n' ∉ l ∧ '\r' ∉ l ∧ ¬ ['*', '/'] <:+: l ∧ ∀ c ∈ l.getLast?, 33 ≤ c.toNat ∧ c.toNat ≤ 126

end Spec
