import Verif.Model.Archive

/-!
# Model of `tar_archive_resource_storage.py`

Python strings are lists of characters here.
-/

namespace Model
open Py

/-- The types of tar members the code distinguishes (`file.type`, `isreg`, `isdir`). -/
inductive MemberKind where
  | reg
  | dir
  | sparse
  | other
  deriving DecidableEq, Repr

/-- A `tarfile.TarInfo`: `name`, type, `offset_data`, `size`. Python's tarfile removes trailing slashes of directory
names. -/
structure Member where
  name : List Char
  kind : MemberKind
  offset : Nat
  size : Nat
  deriving DecidableEq, Repr

/-- tar_archive_resource_storage.py:18-22: the storage object. `dir_entries` is a set: a list without repetitions. -/
structure TarStorage where
  tarMap : Bytes
  fileEntries : List (List Char × (Nat × Nat))
  dirEntries : List (List Char)
  subPath : List Char
  deriving DecidableEq, Repr

/-- `d[k] = v` on an insertion-ordered dictionary. -/
def entrySet {α : Type} (d : List (List Char × α)) (k : List Char) (v : α) : List (List Char × α) :=
  match d with
  | [] => [(k, v)]
  | (k', v') :: d => if k' = k then (k', v) :: d else (k', v') :: entrySet d k v

/-- `s.add(k)` on a set. -/
def setAdd (s : List (List Char)) (k : List Char) : List (List Char) := if k ∈ s then s else s ++ [k]

/-- tar_archive_resource_storage.py:31-33: `if name.startswith("./"): name = name[2:]`. -/
def stripDot : List Char → List Char
  | '.' :: '/' :: rest => rest
  | name => name

/-- tar_archive_resource_storage.py:30-39, the loop over the members. -/
def scanMembers : List Member → List (List Char × (Nat × Nat)) → List (List Char) →
    M (List (List Char × (Nat × Nat)) × List (List Char))
  | [], files, dirs => pure (files, dirs)
  | m :: ms, files, dirs =>
    let name := stripDot m.name
    if m.kind = .sparse then throw .corruptResource
    else
      let files := if m.kind = .reg then entrySet files name (m.offset, m.size) else files
      let dirs := if m.kind = .dir ∧ name ≠ ['.'] then setAdd dirs name else dirs
      scanMembers ms files dirs

/-- tar_archive_resource_storage.py:24-41 `create` with an empty `sub_path`. The members come from Python's
tarfile module, which is not modelled. -/
def TarStorage.create (tarMap : Bytes) (members : List Member) : M TarStorage := do
  let (files, dirs) ← scanMembers members [] []
  pure { tarMap := tarMap, fileEntries := files, dirEntries := dirs, subPath := [] }

/-- tar_archive_resource_storage.py:68-72 `_path`. -/
def TarStorage.path (s : TarStorage) (key : List Char) : List Char :=
  if s.subPath = [] then key else s.subPath ++ '/' :: key

/-- What `get` of a tar storage returns. -/
inductive TarFetched where
  | none
  | bytes (b : Bytes)
  | storage (s : TarStorage)
  deriving DecidableEq, Repr

/-- tar_archive_resource_storage.py:43-55 `get`; slicing a memoryview with bounds `0 ≤ offset ≤ end`. -/
def TarStorage.get (s : TarStorage) (key : String) (isOptional : Bool) : M TarFetched :=
  let path := s.path key.toList
  match s.fileEntries.lookup path with
  | some (offset, length) => pure (.bytes ((s.tarMap.drop offset).take length))
  | .none =>
    if path ∈ s.dirEntries then pure (.storage { s with subPath := path })
    else if isOptional then pure .none
    else throw (.missingResource key)

/-- tar_archive_resource_storage.py:60-65, one entry of `ls`: `d.startswith(prefix)` and no slash in the rest. -/
def childName (pre d : List Char) : Option (List Char) :=
  if pre <+: d ∧ '/' ∉ d.drop pre.length then some (d.drop pre.length) else none

/-- tar_archive_resource_storage.py:57-66 `ls`. The iteration order of the set of directories is unspecified. -/
def TarStorage.ls (s : TarStorage) : List (List Char) :=
  s.dirEntries.filterMap (childName (s.path [])) ++ (s.fileEntries.map (·.1)).filterMap (childName (s.path []))

end Model
