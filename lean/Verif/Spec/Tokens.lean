import Verif.Model.Gen.Tree

/-!
# The tokens of a schema text

What a text consists of when its layout is ignored: words, punctuation marks and comments. White space separates words; what
stands in a comment does not matter.
-/

namespace Spec
open Gen

/-- Blank, line feed, tab, carriage return. -/
def Space (c : Char) : Prop := c ∈ [' ', '\n', '\t', '\r']

/-- Punctuation marks, around which white space is optional. -/
def Mark (c : Char) : Prop := c ∈ ['{', '}', '(', ')', '<', '>', ':', ';', ',', '=']

inductive Token where
  | word (w : Text)
  | mark (c : Char)
  | comment
  deriving DecidableEq, Repr

/-- A comment begins here: `//`, or `/*` that is closed somewhere. -/
def CommentStart (s : Text) : Prop :=
  (∃ r, s = '/' :: '/' :: r) ∨ ∃ body r, s = '/' :: '*' :: (body ++ '*' :: '/' :: r)

/-- A word may end before this text. -/
def WordEnd (s : Text) : Prop := s = [] ∨ (∃ c r, s = c :: r ∧ (Space c ∨ Mark c)) ∨ CommentStart s

/-- `w` is a word of the text `w ++ s`. -/
structure WordIn (w s : Text) : Prop where
  nonempty : w ≠ []
  chars : ∀ c ∈ w, ¬ Space c ∧ ¬ Mark c
  noComment : ∀ a b, w = a ++ b → b ≠ [] → ¬ CommentStart (b ++ s)
  ends : WordEnd s

/-- `ts` are the tokens of the text. -/
inductive Tokens : Text → List Token → Prop
  | nil : Tokens [] []
  | space {c s ts} : Space c → Tokens s ts → Tokens (c :: s) ts
  | mark {c s ts} : Mark c → Tokens s ts → Tokens (c :: s) (.mark c :: ts)
  | word {w s ts} : WordIn w s → Tokens s ts → Tokens (w ++ s) (.word w :: ts)
  /-- `/* … */`, up to the first `*/`. -/
  | block {body s ts} : ¬ ['*', '/'] <:+: body ++ ['*'] → Tokens s ts → Tokens ('/' :: '*' :: (body ++ '*' :: '/' :: s)) (.comment :: ts)
  /-- `// …` up to the end of the line; a backslash before a line feed continues the comment on the next line. -/
  | line {body s ts} : (∀ a b, body = a ++ '\n' :: b → a.getLast? = some '\\') →
      (s = [] ∨ (∃ r, s = '\n' :: r) ∧ body.getLast? ≠ some '\\') → Tokens s ts → Tokens ('/' :: '/' :: (body ++ s)) (.comment :: ts)

/-- The texts differ in layout only: white space, and the contents of comments. -/
def SameTokens (s s' : Text) : Prop := ∃ ts, Tokens s ts ∧ Tokens s' ts

end Spec
