import Verif.Model.Builder

/-!
# Model of `archive.py` (reading) and of the storages it reads from
-/

namespace Model
open Py

/-! ## Storages -/

/-- A file or a directory. Entries other than regular files and directories are not modelled. -/
inductive Node where
  | file (b : Bytes)
  | dir (entries : String → Option Node)

/-- The entry of a directory with a given plain name. -/
def Node.entry : Node → String → Option Node
  | .dir e, name => e name
  | .file _, _ => none

/-- A directory with regular files only. -/
def Node.ofFiles (f : Files) : Node := .dir fun n => (f n).map .file

/-- The two kinds of storage an archive can be opened from. -/
inductive StorageKind where
  /-- file_resource_storage.py -/
  | files
  /-- tar_archive_resource_storage.py; that its `get` finds the entries of the packed directory is C36. -/
  | tar
  deriving DecidableEq, Repr

/-- What `storage.get` returns: `None`, a buffer (mmap or memoryview), or another storage. -/
inductive Fetched where
  | none
  | bytes (b : Bytes)
  | storage (n : Node)

/-- file_resource_storage.py:30-41 and tar_archive_resource_storage.py:43-55
`get`, for keys without path separators. Mapping an empty file raises `ValueError` (mmap cannot map empty
files); a tar member of size 0 gives an empty memoryview. -/
def fetch (k : StorageKind) (node : Node) (key : String) (isOptional : Bool) : M Fetched :=
  match node.entry key with
  | .none => if isOptional then pure .none else throw (.missingResource key)
  | some (.file b) => if k = .files ∧ b = [] then throw .valueError else pure (.bytes b)
  | some (.dir e) => pure (.storage (.dir e))

/-! ## Loaded resources -/

/-- The value of a resource attribute. `absent` is `None`. The data of a multivector is not looked at when
it is opened: it can also be `None` or a storage. -/
inductive Loaded where
  | absent
  | instance (x : Instance)
  | vector (v : FdVector)
  | multivector (index : FdVector) (data : Fetched) (types : List StructType)
  | rawData (r : RawData)
  | archive (name : String) (resources : List (String × Loaded))

/-- resources.py:20-22: `len(mem)` of what `get` returned: `None` and storages have no length. -/
def asBuffer : Fetched → M Bytes
  | .bytes b => pure b
  | _ => throw .typeError

/-- archive.py:113-116 `if resource:`: a container of length 0 becomes `None`; computing the length can
raise. -/
def ifTruthy (len : M Nat) (x : Loaded) : M Loaded := do
  if (← len) = 0 then pure .absent else pure x

/-- resources.py:145-147 for a loaded multivector. -/
def multivectorLen (index : FdVector) : M Nat := do pyLen ((← index.len) - 1)

/-- archive.py:92-104 `_schema_validated_resource_signature` for a resource that is not an archive, with
:118-123. The result tells whether the resource is to be opened. -/
def checkSchema (k : StorageKind) (node : Node) (name schema : String) (isOptional : Bool) : M Bool := do
  match ← fetch k node (name ++ ".schema") isOptional with
  | .none => if isOptional then pure false else throw (.missingResource name)
  | .bytes b =>
    if b = [] then (if isOptional then pure false else throw (.missingResource name))
    else do
      let actual ← decodeUtf8 b
      if actual ≠ schema then throw (.schemaMismatch name) else pure true
  | .storage _ => throw .typeError

/-- archive.py:106-116 `_open_resource` after the schema check, for a resource that is not an archive;
resources.py:51-53 and :139-143 `open`. -/
def openContainer (k : StorageKind) (node : Node) (name : String) : Sig → M Loaded
  | .instance t _ o => do
    let x ← Instance.create (← asBuffer (← fetch k node name o)) t
    ifTruthy (pure x.len) (.instance x)
  | .vector t _ o => do
    let v ← FdVector.create (← asBuffer (← fetch k node name o)) t
    ifTruthy v.len (.vector v)
  | .multivector it ts _ o => do
    let indexMem ← fetch k node (name ++ "_index") o
    let mem ← fetch k node name o
    let index ← FdVector.create (← asBuffer indexMem) it
    ifTruthy (multivectorLen index) (.multivector index mem ts)
  | .rawData _ o => do
    let r ← RawData.create (← asBuffer (← fetch k node name o))
    ifTruthy r.len (.rawData r)
  | .sub .. => pure .absent

/-- archive.py:37-39: the order in which the constructor touches the resources. -/
def sortByName {α : Type} (l : List (String × α)) : List (String × α) :=
  l.foldr (fun p acc => ins p acc) []
where
  ins (p : String × α) : List (String × α) → List (String × α)
    | [] => [p]
    | q :: l => if p.1 < q.1 then p :: q :: l else q :: ins p l

/-- archive.py:37-39, the constructor's loop, given what opening each resource gives: the first failure (in
name order) is raised, otherwise everything is loaded. -/
def loadAll : List (String × M Loaded) → M (List (String × Loaded))
  | [] => pure []
  | (name, r) :: rest => do
    let x ← r
    pure ((name, x) :: (← loadAll rest))

mutual
/-- archive.py:106-116 `_open_resource`; for sub-archives :76-82 `Archive.open`, which constructs the
sub-archive on the nested storage (:27-39). A buffer in the place of a nested storage has no `get`. The
length of an archive is its number of resources (:89-90). -/
def openResource (k : StorageKind) (node : Node) (name : String) : Sig → M Loaded
  | .sub n _ rs _ o => do
    match ← fetch k node name o with
    | .none => pure .absent
    | .bytes _ => throw (.attributeError "get")
    | .storage child => do
      let loaded ← loadAll (sortByName (openResources k child rs))
      ifTruthy (pure rs.length) (.archive n loaded)
  | sig => do
    if ← checkSchema k node name sig.schema sig.isOptional then openContainer k node name sig
    else pure .absent
/-- What opening each resource of an archive gives. Opening has no side effects, so that the order in
which this is computed does not matter. -/
def openResources (k : StorageKind) (node : Node) : List (String × Sig) → List (String × M Loaded)
  | [] => []
  | (name, sig) :: rest => (name, openResource k node name sig) :: openResources k node rest
end

/-- archive.py:27-39 `Archive.__init__`: `_loaded_resources` after construction. -/
def openArchive (A : ArchiveType) (k : StorageKind) (node : Node) : M (List (String × Loaded)) :=
  loadAll (sortByName (openResources k node A.resources))

/-! ## Attribute access -/

/-- An archive object: its class' `_RESOURCES` and `_loaded_resources`. The storage is passed along: it may
have changed since construction. -/
structure ArchiveObj where
  resources : List (String × Sig)
  loaded : List (String × Loaded)

/-- archive.py:41-46 `__getattr__`, for a storage that currently looks like `node`. Returns the new object
state as well. -/
def ArchiveObj.getAttr (o : ArchiveObj) (k : StorageKind) (node : Node) (name : String) :
    M Loaded × ArchiveObj :=
  match o.resources.lookup name with
  | none => (.error (.attributeError name), o)
  | some sig =>
    match o.loaded.lookup name with
    | some x => (.ok x, o)
    | none =>
      match openResource k node name sig with
      | .error e => (.error e, o)
      | .ok x => (.ok x, { o with loaded := dictSet o.loaded name x })

/-- archive.py:27-39 as a loop over attribute accesses. -/
def initLoop (k : StorageKind) (node : Node) : List String → ArchiveObj → M ArchiveObj
  | [], o => pure o
  | name :: names, o =>
    match o.getAttr k node name with
    | (.error e, _) => throw e
    | (.ok _, o') => initLoop k node names o'

/-- archive.py:27-39 `Archive.__init__`. -/
def ArchiveObj.create (A : ArchiveType) (k : StorageKind) (node : Node) : M ArchiveObj :=
  initLoop k node ((sortByName A.resources).map (·.1)) { resources := A.resources, loaded := [] }

/-! ## Sizes -/

/-- resources.py:28-29 `size_in_bytes`: `len(self._mem)`. -/
def fetchedLen : Fetched → M Nat
  | .bytes b => pure b.length
  | _ => throw .typeError

mutual
/-- resources.py:28-29 and archive.py:84-87 `size_in_bytes` of one attribute value; falsy values are
skipped. -/
def Loaded.size : Loaded → M Nat
  | .absent => pure 0
  | .instance x => pure x.mem.length
  | .vector v => pure v.mem.length
  | .multivector _ d _ => fetchedLen d
  | .rawData r => pure r.mem.length
  | .archive _ rs => sizeSum rs
/-- archive.py:84-87: the sum over the resources. -/
def sizeSum : List (String × Loaded) → M Nat
  | [] => pure 0
  | (_, x) :: rest => do pure ((← x.size) + (← sizeSum rest))
end

end Model
