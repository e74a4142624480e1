import Verif.Model.Resources

/-!
# Resource signatures of generated archive classes
-/

namespace Model
open Py

/-- A `ResourceSignature` (archive.py:12-13, archive_builder.py:17-18) together with the resource's
`container` and `initializer` (python.jinja2:40-54). `doc` is dropped: it has no influence on any
modelled behaviour. `sub` is a resource whose container is `Archive` and whose initializer is the
archive class with the given `_NAME`, `_SCHEMA` and `_RESOURCES`. -/
inductive Sig where
  | instance (t : StructType) (schema : String) (isOptional : Bool)
  | vector (t : StructType) (schema : String) (isOptional : Bool)
  | multivector (indexType : StructType) (types : List StructType) (schema : String) (isOptional : Bool)
  | rawData (schema : String) (isOptional : Bool)
  | sub (name : String) (archiveSchema : String) (resources : List (String × Sig)) (schema : String)
      (isOptional : Bool)

/-- archive.py:12 field `schema`. -/
def Sig.schema : Sig → String
  | .instance _ s _ => s
  | .vector _ s _ => s
  | .multivector _ _ s _ => s
  | .rawData s _ => s
  | .sub _ _ _ s _ => s

/-- archive.py:12 field `is_optional`. -/
def Sig.isOptional : Sig → Bool
  | .instance _ _ o => o
  | .vector _ _ o => o
  | .multivector _ _ _ o => o
  | .rawData _ o => o
  | .sub _ _ _ _ o => o

/-- A generated archive (or archive builder) class: `_NAME`, `_SCHEMA`, `_RESOURCES` in declaration
order (python.jinja2:32-87). -/
structure ArchiveType where
  name : String
  schema : String
  resources : List (String × Sig)

/-- python.jinja2:39-46: the class the generator emits for an archive; its resources start with the
archive signature. -/
def mkArchive (name schema : String) (resources : List (String × Sig)) : ArchiveType where
  name := name
  schema := schema
  resources := (name ++ ".archive", .rawData schema false) :: resources

/-- The multivector index types inserted by the generator (tree/builder.py:115-124): one unsigned field
`value` of the declared width. `ns` is the beginning of the class name, which stands for the namespace. -/
def indexType (ns : String) (width : Nat) : StructType :=
  mkStruct (ns ++ "_builtin_multivector_IndexType" ++ toString width) [⟨"value", width, false⟩]

end Model
