import Verif.Model.Gen.Grammar
import Verif.Model.Gen.Literals

/-!
# Model of the filters that put the comments of a schema into generated sources

`to_python_doc` (generators/python.py), `to_go_doc` (generators/go.py), `_rust_doc` (generators/rust.py) and `cpp_doc`
(generators/cpp.py). The comment of a declaration is the text the parser has matched (grammar.py:28, :31, …).
-/

namespace Gen

/-- The line boundaries of Python's `str.splitlines`. -/
def isLineBreak (c : Char) : Bool := [10, 11, 12, 13, 28, 29, 30, 133, 8232, 8233].contains c.toNat

/-- Python's `str.splitlines()`. -/
def strSplitlines : Text → List Text
  | [] => []
  | '\r' :: '\n' :: t => [] :: strSplitlines t
  | c :: t =>
    if isLineBreak c then [] :: strSplitlines t
    else match strSplitlines t with
      | [] => [[c]]
      | w :: ws => (c :: w) :: ws

/-- `t.replace(old, '', 1)`, for a text `old` that is not empty. -/
def removeFirst (old : Text) : Text → Text
  | [] => []
  | c :: t => match stripPrefix old (c :: t) with
    | some r => r
    | none => c :: removeFirst old t

/-- python.py:29-31: one line of a comment. -/
def pythonDocLine (line : Text) : Text :=
  '#' :: ' ' :: removeFirst ['/', '/'] (removeFirst [' ', '*'] (removeFirst ['*', '/'] (removeFirst ['/', '*', '*'] line)))

/-- python.py:27-32 `to_python_doc` (python.jinja2:10). -/
def toPythonDoc (d : Text) : Text := joinTexts ['\n'] ((strSplitlines d).map pythonDocLine)

/-- The filter `indent(n)` of jinja2: `n` blanks before every line but the first, unless it is empty. -/
def jinjaIndent (n : Nat) (t : Text) : Text := match strSplitlines (t ++ ['\n']) with
  | [] => []
  | l :: ls => joinTexts ['\n'] (l :: ls.map fun w => if w = [] then [] else List.replicate n ' ' ++ w)

/-- python.jinja2:20: the comment of a field. -/
def pythonFieldDoc (d : Text) : Text := List.replicate 12 ' ' ++ jinjaIndent 8 (toPythonDoc d)

/-- go.py:28-30 `to_go_doc` (go/structure.jinja2:2, go/vector.jinja2:2). -/
def toGoDoc (d : Text) : Text :=
  joinTexts ['\n'] (((strSplitlines d).filter fun s => !s.isEmpty).map fun s => '/' :: '/' :: ' ' :: s)

/-- go/structure.jinja2:11: the comment of a field. -/
def goFieldDoc (d : Text) : Text := List.replicate 8 ' ' ++ jinjaIndent 8 (toGoDoc d)

/-- cpp.py:23 `cpp_doc`, and cpp/archive.jinja2:4 without it. -/
def cppDoc (d : Text) : Text := d

/-- White space of Python's `str.strip` and of `\s` in a regular expression. -/
def isStrSpace (c : Char) : Bool :=
  [9, 10, 11, 12, 13, 28, 29, 30, 31, 32, 133, 160, 5760, 8192, 8193, 8194, 8195, 8196, 8197, 8198, 8199, 8200, 8201, 8202, 8232,
    8233, 8239, 8287, 12288].contains c.toNat

/-- `t.rstrip()`. -/
def strRstrip (t : Text) : Text := (t.reverse.dropWhile isStrSpace).reverse

/-- `t.strip()`. -/
def strStrip (t : Text) : Text := strRstrip (t.dropWhile isStrSpace)

/-- `\s?`. -/
def skipOneSpace : Text → Text
  | [] => []
  | c :: t => if isStrSpace c then t else c :: t

/-- rust.py:57 `(.*?)\s*(\*/)?$`: what the second group is; the line has no line feed, and the group is as short as possible. -/
def rustDocGroup (r : Text) : Text := strRstrip (if ['*', '/'] <:+ r then r.dropLast.dropLast else r)

/-- rust.py:57-58: `re.sub(r'^[ \t]*(/\*\*\s?|/\*\s?|\*/|\*\s?)(.*?)\s*(\*/)?$', r"/// \2", line)`; the alternatives are tried
in this order, and what follows them always matches. -/
def rustDocSub (line : Text) : Text :=
  let l := line.dropWhile fun c => c = ' ' || c = '\t'
  match stripPrefix ['/', '*', '*'] l with
  | some r => '/' :: '/' :: '/' :: ' ' :: rustDocGroup (skipOneSpace r)
  | none => match stripPrefix ['/', '*'] l with
    | some r => '/' :: '/' :: '/' :: ' ' :: rustDocGroup (skipOneSpace r)
    | none => match stripPrefix ['*', '/'] l with
      | some r => '/' :: '/' :: '/' :: ' ' :: rustDocGroup r
      | none => match stripPrefix ['*'] l with
        | some r => '/' :: '/' :: '/' :: ' ' :: rustDocGroup (skipOneSpace r)
        | none => line

/-- rust.py:56-60. -/
def rustDocLines (d : Text) : List Text := (splitLines d).map fun line => strStrip (rustDocSub line)

/-- rust.py:55-67 `_rust_doc`. -/
def rustDoc (d : Text) : Text :=
  let lines := rustDocLines d
  let start := if lines.head? = some ['/', '/', '/'] then 1 else 0
  let cut := lines.drop start
  joinTexts ['\n'] (if lines.getLast? = some ['/', '/', '/'] then cut.dropLast else cut)

end Gen
