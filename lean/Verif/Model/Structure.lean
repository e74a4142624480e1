import Verif.Model.DataAccess

/-!
# Model of `flatdata-py/flatdata/lib/structure.py` and of the layout computed by the generator
-/

namespace Model
open Py

/-- structure.py:7-8 `FieldSignature`. The numpy `dtype` is left out: nothing modelled here depends on it (the dtypes of
generated classes are in `Verif/Model/Gen/Python.lean`). -/
structure FieldSig where
  offset : Nat
  width : Nat
  isSigned : Bool
  deriving DecidableEq, Repr

/-- A generated subclass of `structure.Structure` (structure.py:11, python.jinja2:9-30): its `_NAME`,
`_SIZE_IN_BYTES`, the ordered dictionary `_FIELDS` and the set `_FIELD_KEYS`. The set is a list in an
arbitrary order, because the iteration order of a Python set of strings is unspecified. -/
structure StructType where
  name : String
  sizeInBytes : Nat
  fields : List (String × FieldSig)
  fieldKeys : List String
  deriving DecidableEq, Repr

/-- structure.py:12-14, an instance of a generated class: a view into a buffer at byte `pos`. -/
structure StructView where
  type : StructType
  mem : Bytes
  pos : Nat
  deriving DecidableEq, Repr

/-- structure.py:23-24 `Structure._get_value`. -/
def StructView.getValue (x : StructView) (f : FieldSig) : M Int :=
  readValue x.mem (x.pos * 8 + f.offset) f.width f.isSigned

/-- structure.py:16-21 `Structure.__getattr__` (attribute access for names that are not Python
attributes of the object). -/
def StructView.getAttr (x : StructView) (name : String) : M Int :=
  match x.type.fields.lookup name with
  | some f => x.getValue f
  | none => throw (.attributeError name)

/-- structure.py:33-34 `as_dict`, in `_FIELDS` order. -/
def StructView.asDict (x : StructView) : M (List (String × Int)) :=
  x.type.fields.mapM fun p => do pure (p.1, ← x.getValue p.2)

/-- structure.py:36-40 `as_list`, `as_tuple`. -/
def StructView.asTuple (x : StructView) : M (List Int) :=
  x.type.fields.mapM fun p => x.getValue p.2

/-- A field of a schema structure after type resolution: name, width and signedness
(generator tree/nodes/trivial/field.py:6-27). -/
structure FieldDecl where
  name : String
  width : Nat
  isSigned : Bool
  deriving DecidableEq, Repr

/-- generator tree/builder.py:157-162, the loop over the fields of one structure: every field gets
the running offset. -/
def layoutFrom : Nat → List FieldDecl → List (String × FieldSig)
  | _, [] => []
  | offset, f :: fs =>
    (f.name, { offset := offset, width := f.width, isSigned := f.isSigned }) ::
      layoutFrom (offset + f.width) fs

/-- generator tree/builder.py:157-163: the offset after the loop, stored as `size_in_bits`. -/
def sizeInBitsFrom : Nat → List FieldDecl → Nat
  | offset, [] => offset
  | offset, f :: fs => sizeInBitsFrom (offset + f.width) fs

/-- The generated class of a structure: python.jinja2:9-30 with `size_in_bytes` from
tree/nodes/trivial/structure.py:40-42. -/
def mkStruct (name : String) (fs : List FieldDecl) : StructType where
  name := name
  sizeInBytes := (sizeInBitsFrom 0 fs + 7) / 8
  fields := layoutFrom 0 fs
  fieldKeys := fs.map (·.name)

/-- archive_builder.py:157-159, 177-179 and 231-233: the loop writing every field of a dictionary into a
buffer; `shift` is 0 for instances and vectors and `1 * 8` for multivector elements. -/
def writeFields (shift : Nat) (value : List (String × Int)) :
    List (String × FieldSig) → Bytes → M Bytes
  | [], bout => pure bout
  | (key, f) :: fs, bout => do
    let v ← dictGet value key
    let bout ← writeValue bout (f.offset + shift) f.width f.isSigned v
    writeFields shift value fs bout

/-- The builder's serialisation of one dictionary (archive_builder.py:156-159 and 176-179): a zeroed
buffer of the structure's size into which all fields are written in `_FIELDS` order. -/
def serialize (t : StructType) (value : List (String × Int)) : M Bytes :=
  writeFields 0 value t.fields (List.replicate t.sizeInBytes 0)

end Model
