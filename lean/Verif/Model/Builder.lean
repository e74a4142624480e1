import Verif.Model.Types

/-!
# Model of `archive_builder.py`, `resource_storage.py` and `file_resource_writer.py`

The builder is a state machine. Its state contains the complete history of file operations, so that
crash points are prefixes of that history. An operation that raises keeps the state it reached.
-/

namespace Model
open Py

/-! ## Values passed to `set` -/

/-- A Python dictionary from field names to integers, in insertion order. -/
abbrev Dict := List (String × Int)

/-- A multivector element `{'name': .., 'attributes': {..}}` (archive_builder.py:197, 205). -/
structure Obj where
  name : String
  attributes : Dict
  deriving DecidableEq, Repr

/-- The argument of `ArchiveBuilder.set`, classified by its Python type: a dict, a list of dicts, a list
of lists of objects, `bytes` or `bytearray`, or anything else (for instance a `str`). -/
inductive Value where
  | dict (d : Dict)
  | list (l : List Dict)
  | buckets (l : List (List Obj))
  | bytes (b : Bytes)
  | other
  deriving DecidableEq, Repr

/-! ## State -/

/-- One operation on a file of the archive directory. -/
inductive FsOp where
  /-- `open(file_name, 'wb')`, file_resource_writer.py:42: the file is created or truncated. -/
  | openWb (name : String)
  /-- `self._file.write(data)` followed by flush and close, file_resource_writer.py:44-52. -/
  | write (name : String) (data : Bytes)
  deriving DecidableEq, Repr

/-- The regular files of a directory: contents by name. -/
abbrev Files := String → Option Bytes

/-- Effect of one file operation. -/
def applyOp (f : Files) : FsOp → Files
  | .openWb n => fun m => if m = n then some [] else f m
  | .write n d => fun m => if m = n then some ((f n).getD [] ++ d) else f m

/-- Effect of a history of file operations, oldest first. -/
def replay (f : Files) (ops : List FsOp) : Files := ops.foldl applyOp f

/-- resource_storage.py:9-35 `_Resource`: the in-memory buffer `data` and `_valid`. `data` is `None` after
`close` (:82); it is not accessed any more after that, the model keeps `[]`. The writer is a
`FileResourceWriter`; storages without a writer (pure in-memory) are not modelled. -/
structure Res where
  data : Bytes
  valid : Bool
  deriving DecidableEq, Repr

/-- State of a builder and its `ResourceStorage`: the history of file operations, `_store`
(resource_storage.py:101, in insertion order) and `_resources_written` (archive_builder.py:74). -/
structure BState where
  ops : List FsOp
  store : List (String × Res)
  written : List String
  deriving DecidableEq, Repr

/-- A builder operation: may raise, and keeps the state reached in either case. -/
def BM (α : Type) := BState → M α × BState

instance : Monad BM where
  pure a := fun s => (.ok a, s)
  bind x f := fun s => match x s with
    | (.ok a, s') => f a s'
    | (.error e, s') => (.error e, s')

/-- `raise e`. -/
def BM.raise {α : Type} (e : Err) : BM α := fun s => (.error e, s)

/-- A computation that does not touch the state. -/
def BM.lift {α : Type} (x : M α) : BM α := fun s => (x, s)

/-- `d[k] = v` on an insertion-ordered dictionary. -/
def dictSet {α : Type _} (d : List (String × α)) (k : String) (v : α) : List (String × α) :=
  match d with
  | [] => [(k, v)]
  | (k', v') :: d => if k' = k then (k', v) :: d else (k', v') :: dictSet d k v

/-- Append a file operation to the history. -/
def emit (op : FsOp) : BM Unit := fun s => (.ok (), { s with ops := s.ops ++ [op] })

/-- Replace the resource object stored under a name. -/
def putRes (name : String) (r : Res) : BM Unit :=
  fun s => (.ok (), { s with store := dictSet s.store name r })

/-- The resource object stored under a name. Every use follows a `get` of that name, so the default is
never used. -/
def theRes (name : String) : BM Res := fun s => (.ok ((s.store.lookup name).getD ⟨[], false⟩), s)

/-! ## resource_storage.py -/

/-- resource_storage.py:105-115 `ResourceStorage.get`, :16-43 `_Resource.__init__` and
file_resource_writer.py:23-42 `FileResourceWriter.open` for a storage at `path`. Creating the directory
is not modelled. The returned object is addressed by its name in the store. -/
def storageGet (path name : String) : BM Unit :=
  if name = "" then BM.raise .missingResourceName
  else if path = "" then BM.raise .archivePathNotProvided
  else do
    emit (.openWb name)
    putRes name { data := [], valid := true }

/-- resource_storage.py:49-56 `_Resource.write` for bytes or bytearray. -/
def resWrite (name : String) (data : Bytes) : BM Unit := do
  let r ← theRes name
  putRes name { r with data := r.data ++ data }

/-- resource_storage.py:64-65: the encoded size of the data. -/
def sizeHeader (data : Bytes) : M Bytes := toBytes (data.length : Int) 8 false

/-- resource_storage.py:62-65 `add_size`. -/
def resAddSize (name : String) : BM Unit := do
  let r ← theRes name
  let h ← BM.lift (sizeHeader r.data)
  putRes name { r with data := h ++ r.data }

/-- resource_storage.py:67-69 `add_padding`. -/
def resAddPadding (name : String) : BM Unit := do
  let r ← theRes name
  putRes name { r with data := r.data ++ List.replicate 8 0 }

/-- resource_storage.py:75-85 `close` and file_resource_writer.py:44-52: empty data is not written. -/
def resClose (name : String) : BM Unit := do
  let r ← theRes name
  if r.data = [] then putRes name { data := [], valid := false }
  else do
    emit (.write name r.data)
    putRes name { data := [], valid := false }

/-- resource_storage.py:119-121, one iteration of the loop of `ResourceStorage.close`. -/
def closeIfValid (name : String) : BM Unit := do
  let r ← theRes name
  if r.valid then resClose name else pure ()

/-- A `for` loop over a list. -/
def forEach {α : Type} (l : List α) (f : α → BM Unit) : BM Unit :=
  match l with
  | [] => pure ()
  | a :: l => do f a; forEach l f

/-- resource_storage.py:117-121 `ResourceStorage.close`. -/
def storageClose : BM Unit := do
  let names ← (fun s => (.ok (s.store.map (·.1)), s) : BM (List String))
  forEach names closeIfValid

/-! ## archive_builder.py -/

/-- archive_builder.py:86-95 `_write_raw_data`. -/
def writeRawData (path name : String) (data : Bytes) : BM Unit := do
  storageGet path name
  resWrite name data
  resClose name

/-- archive_builder.py:138-140. -/
def checkMissing (name : String) (struct : Dict) : List String → M Unit
  | [] => pure ()
  | key :: keys =>
    if (struct.lookup key).isSome then checkMissing name struct keys else throw (.missingField key name)

/-- archive_builder.py:141-143. -/
def checkUnknown (name : String) (fieldKeys : List String) : List String → M Unit
  | [] => pure ()
  | key :: keys =>
    if key ∈ fieldKeys then checkUnknown name fieldKeys keys else throw (.unknownField key name)

/-- archive_builder.py:127-143 `__validate_structure_fields`. -/
def validateStructureFields (name : String) (struct : Dict) (t : StructType) : M Unit := do
  checkMissing name struct t.fieldKeys
  checkUnknown name t.fieldKeys (struct.map (·.1))

/-- archive_builder.py:145-161 `__set_instance`. -/
def setInstance (name : String) (t : StructType) (value : Dict) : BM Unit := do
  BM.lift (validateStructureFields name value t)
  let bout ← BM.lift (serialize t value)
  resWrite name bout

/-- archive_builder.py:176-180, one iteration of the second loop of `__set_vector`. -/
def writeElement (name : String) (t : StructType) (value : Dict) : BM Unit := do
  let bout ← BM.lift (serialize t value)
  resWrite name bout

/-- archive_builder.py:163-180 `__set_vector`. -/
def setVector (name : String) (t : StructType) (vector : List Dict) : BM Unit := do
  forEach vector fun value => BM.lift (validateStructureFields name value t)
  forEach vector fun value => writeElement name t value

/-- archive_builder.py:192-194: the dictionary `initializers`, as an association list in which the first
entry for a name is the last one inserted. -/
def initializers (types : List StructType) : List (String × (Nat × StructType)) :=
  (types.zipIdx.map fun p => (p.1.name, (p.2, p.1))).reverse

/-- archive_builder.py:207-211, one iteration of the validation loop, with the local functions
`valid_structure_name` (:196-197) and `validate_fields` (:199-205). -/
def validateObj (name : String) (types : List StructType) (obj : Obj) : M Unit :=
  if obj.name ∈ types.map (·.name) then
    match types.filter (fun t => t.name = obj.name) with
    | [t] => validateStructureFields name obj.attributes t
    | _ => pure ()
  else throw (.unknownStructure obj.name)

/-- archive_builder.py:221-233: `size` and the bytes of one multivector element. -/
def serializeObj (types : List StructType) (obj : Obj) : M (Nat × Bytes) := do
  let (typeIndex, t) ← dictGet (initializers types) obj.name
  let size := t.sizeInBytes + 1
  let first ← toBytes (typeIndex : Int) 1 false
  let bout ← setByte (List.replicate size 0) 0 (((first.getD 0 0).toNat : Nat) : Int)
  let bout ← writeFields (1 * 8) obj.attributes t.fields bout
  pure (size, bout)

/-- archive_builder.py:220-235: one element; returns the new `data_point`. -/
def writeObj (name : String) (types : List StructType) (obj : Obj) (dataPoint : Nat) : BM Nat := do
  let (size, bout) ← BM.lift (serializeObj types obj)
  resWrite name bout
  pure (dataPoint + size)

/-- archive_builder.py:220-235: the inner loop. -/
def writeBucket (name : String) (types : List StructType) : List Obj → Nat → BM Nat
  | [], dp => pure dp
  | obj :: objs, dp => do
    let dp ← writeObj name types obj dp
    writeBucket name types objs dp

/-- archive_builder.py:217-237: the outer loop; returns `index_data_points` including the sentinel.
`data_size` is never used and dropped. -/
def writeBuckets (name : String) (types : List StructType) : List (List Obj) → Nat → BM (List Nat)
  | [], dp => pure [dp]
  | b :: bs, dp => do
    let dp' ← writeBucket name types b dp
    let rest ← writeBuckets name types bs dp'
    pure (dp :: rest)

/-- archive_builder.py:32-39 `IndexWriter.__init__`. `resource_storage` is always truthy here. -/
def indexWriterInit (path name : String) (size : Nat) : BM Unit :=
  if name = "" ∨ size = 0 then BM.raise .indexWriter
  else storageGet path (name ++ "_index")

/-- archive_builder.py:41-47 `IndexWriter.add`. -/
def indexWriterAdd (name : String) (size : Nat) (index : Nat) : BM Unit := do
  let b ← BM.lift (toBytes (index : Int) size false)
  resWrite (name ++ "_index") b

/-- archive_builder.py:49-55 `IndexWriter.finish`. -/
def indexWriterFinish (name : String) : BM Unit := do
  resAddSize (name ++ "_index")
  resAddPadding (name ++ "_index")
  resClose (name ++ "_index")

/-- `self._resources_written.append(name)`. -/
def markWritten (name : String) : BM Unit := fun s => (.ok (), { s with written := s.written ++ [name] })

/-- archive_builder.py:182-249 `__set_multivector`. -/
def setMultivector (path name : String) (indexT : StructType) (types : List StructType) (schema : String)
    (value : List (List Obj)) : BM Unit := do
  forEach value fun subList => forEach subList fun obj => BM.lift (validateObj name types obj)
  let points ← writeBuckets name types value 0
  indexWriterInit path name indexT.sizeInBytes
  forEach points fun index => indexWriterAdd name indexT.sizeInBytes index
  indexWriterFinish name
  writeRawData path (name ++ "_index.schema") (encodeUtf8 ("index(" ++ schema ++ ")"))
  markWritten name
  markWritten (name ++ "_index")

/-- archive_builder.py:270-279: dispatch on the container. Raw data that is neither `bytes` nor
`bytearray` is ignored by `_Resource.write`; an archive container does nothing (`NotImplementedError` is
not raised). Simplification: a value whose Python type does not suit a structured container raises
`TypeError` here, whereas the code raises various errors depending on the object. -/
def setPayload (path name : String) (sig : Sig) (value : Value) : BM Unit :=
  match sig, value with
  | .instance t _ _, .dict d => setInstance name t d
  | .vector t _ _, .list l => setVector name t l
  | .multivector it ts sch _, .buckets l => setMultivector path name it ts sch l
  | .rawData _ _, .bytes b => resWrite name b
  | .rawData _ _, _ => pure ()
  | .sub .., _ => pure ()
  | _, _ => BM.raise .typeError

/-- archive_builder.py:264-285, the part of `set` after the two checks. -/
def setBody (path name : String) (sig : Sig) (value : Value) : BM Unit := do
  writeRawData path (name ++ ".schema") (encodeUtf8 sig.schema)
  storageGet path name
  setPayload path name sig value
  resAddSize name
  resAddPadding name
  resClose name
  markWritten name

/-- archive_builder.py:251-285 `ArchiveBuilder.set`. -/
def setResource (A : ArchiveType) (path name : String) (value : Value) : BM Unit := fun s =>
  match A.resources.lookup name with
  | none => (.error (.unknownResource name), s)
  | some sig =>
    if name ∈ s.written then (.error .resourceAlreadySet, s)
    else setBody path name sig value s

/-- archive_builder.py:64-74 `ArchiveBuilder.__init__` on a fresh `ResourceStorage`. -/
def builderInit (A : ArchiveType) (path : String) : BM Unit := do
  writeRawData path (A.name ++ ".archive") (List.replicate 16 0)
  writeRawData path (A.name ++ ".archive.schema") (encodeUtf8 A.schema)
  markWritten (A.name ++ ".archive")

/-- archive_builder.py:287-291 `finish`. -/
def finish : BM Unit := storageClose

/-- A fresh builder: no file operation yet. -/
def BState.initial : BState := { ops := [], store := [], written := [] }

end Model
