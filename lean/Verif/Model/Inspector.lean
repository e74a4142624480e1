import Verif.Model.TarStorage

/-!
# Model of `inspector.py` (archive selection) and of the archive name detection in `flatdata_writer.py`

Python strings are lists of characters here.
-/

namespace Model
open Py

/-! ## Python string functions -/

/-- The offset of the first occurrence of `w` in `t`. -/
def findFrom (w : List Char) : List Char → Option Nat
  | [] => if w = [] then some 0 else none
  | c :: t => if w <+: c :: t then some 0 else (findFrom w t).map (· + 1)

/-- `t.find(w)`: -1 if there is no occurrence. -/
def pyFind (t w : List Char) : Int :=
  match findFrom w t with
  | some i => i
  | none => -1

/-- `c.isspace()` for a character. -/
def isSpace (c : Char) : Bool :=
  let n := c.toNat
  (9 ≤ n ∧ n ≤ 13) ∨ (28 ≤ n ∧ n ≤ 32) ∨ n = 0x85 ∨ n = 0xA0 ∨ n = 0x1680 ∨ (0x2000 ≤ n ∧ n ≤ 0x200A) ∨
    n = 0x2028 ∨ n = 0x2029 ∨ n = 0x202F ∨ n = 0x205F ∨ n = 0x3000

/-- `t.strip()`. -/
def pyStrip (t : List Char) : List Char := ((t.dropWhile isSpace).reverse.dropWhile isSpace).reverse

/-- `t.rsplit('.', 1)[0]` for a text with at least one dot: everything before the last dot. -/
def beforeLastDot (t : List Char) : List Char := ((t.reverse.dropWhile (· ≠ '.')).drop 1).reverse

/-! ## flatdata_writer.py -/

/-- flatdata_writer.py:57-72 `Writer._get_archive_name`. All slice bounds are non-negative: `index` is at least 6 and
`find` returns at least -1. -/
def getArchiveName (schema : List Char) : M (List Char) :=
  if schema = [] then throw .runtimeError
  else
    let keyword := "archive".toList
    let index := pyFind schema keyword + 7
    if pyFind (schema.drop index.toNat) keyword ≥ 0 then throw .runtimeError
    else
      let stop := index + pyFind (schema.drop index.toNat) ['{']
      pure (pyStrip (sliceNN schema index.toNat stop.toNat))

/-! ## inspector.py -/

/-- What the path given to `open_archive` is (inspector.py:43-48): nothing; a tar file; a directory with a listing in
the order in which `os.listdir` reports it; or any other file, in which case its directory is used. -/
inductive PathKind where
  | missing
  | tarFile (s : TarStorage)
  | dir (names : List (List Char)) (node : Node)
  | fileIn (names : List (List Char)) (parent : Node)

/-- `Engine(schema).render_python_module(archive_name=name)`: code generation, `exec` of the generated module and lookup
of the class of the root namespace and the given name. It is a parameter. -/
abbrev EngineFn := String → List Char → M ArchiveType

/-- inspector.py:53 `fnmatch.fnmatch(p, "*.archive")`. -/
def isArchiveEntry (p : List Char) : Bool := ".archive".toList.isSuffixOf p

/-- inspector.py:53-70: which signature is used. -/
def selectSignature (names : List (List Char)) (archive : Option (List Char)) : M (List Char) :=
  let signatures := names.filter isArchiveEntry
  if signatures = [] then throw .runtimeError
  else if 1 < signatures.length ∧ archive = none then throw .runtimeError
  else match archive with
    | none => match signatures[0]? with
      | some s => pure s
      | none => throw .indexError
    | some a =>
      if a ++ ".archive".toList ∈ signatures then pure (a ++ ".archive".toList) else throw .runtimeError

/-- inspector.py:75 for a file storage: the schema is a mmap (with `read`); a storage has no `read`. -/
def readSchema (node : Node) (signature : List Char) : M String := do
  match ← fetch .files node (String.ofList (signature ++ ".schema".toList)) false with
  | .bytes b => decodeUtf8 b
  | _ => throw (.attributeError "read")

/-- inspector.py:48-81 for a directory. -/
def openDirectory (engine : EngineFn) (names : List (List Char)) (node : Node) (archive : Option (List Char)) :
    M (ArchiveType × List (String × Loaded)) := do
  let signature ← selectSignature names archive
  let schema ← readSchema node signature
  let A ← engine schema (beforeLastDot signature)
  let loaded ← openArchive A .files node
  pure (A, loaded)

/-- inspector.py:48-81 for a tar file: the schema is a memoryview (or a storage), neither of which has `read`. -/
def openTar (s : TarStorage) (archive : Option (List Char)) : M (ArchiveType × List (String × Loaded)) := do
  let signature ← selectSignature s.ls archive
  let _ ← s.get (String.ofList (signature ++ ".schema".toList)) false
  throw (.attributeError "read")

/-- inspector.py:32-81 `open_archive`. -/
def inspectorOpen (engine : EngineFn) (path : PathKind) (archive : Option (List Char)) :
    M (ArchiveType × List (String × Loaded)) :=
  match path with
  | .missing => throw .runtimeError
  | .tarFile s => openTar s archive
  | .dir names node => openDirectory engine names node archive
  | .fileIn names node => openDirectory engine names node archive

end Model
