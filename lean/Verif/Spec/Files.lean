import Verif.Spec.Image
import Verif.Spec.Frame
import Verif.Model.Builder

/-!
# The documented contents of resource files

What the files of a resource should contain, byte for byte, given its declaration and its value. Of the model only the types are
used.
-/

namespace Spec
open Py Model

/-- A structure: its fields one after the other, the first one in the lowest bits, rounded up to whole bytes. -/
def structBytes (fs : List FieldDecl) (d : Dict) : Bytes := toLE (((fs.map (·.width)).sum + 7) / 8) (image d fs)

/-- A multivector element: the position of its type in the declaration, and the structure. -/
def elementBytes (decls : List (String × List FieldDecl)) (o : Obj) : Bytes :=
  UInt8.ofNat ((decls.map (·.1)).idxOf o.name) :: structBytes ((decls.lookup o.name).getD []) o.attributes

/-- The elements of a bucket. -/
def bucketBytes (decls : List (String × List FieldDecl)) (b : List Obj) : Bytes := (b.map (elementBytes decls)).flatten

/-- The payload of a vector. -/
def vectorBytes (fs : List FieldDecl) (ds : List Dict) : Bytes := (ds.map (structBytes fs)).flatten

/-- The payload of the data file of a multivector. -/
def bucketsBytes (decls : List (String × List FieldDecl)) (value : List (List Obj)) : Bytes :=
  (value.map (bucketBytes decls)).flatten

/-- Entry `i` of the index of a multivector is the size of the first `i` buckets; there is one more entry than there are buckets. -/
def indexEntries (decls : List (String × List FieldDecl)) (value : List (List Obj)) : List Nat :=
  (List.range (value.length + 1)).map fun i => (bucketsBytes decls (value.take i)).length

/-- The payload of the index file, whose entries have `W` bits. -/
def indexBytes (W : Nat) (decls : List (String × List FieldDecl)) (value : List (List Obj)) : Bytes :=
  ((indexEntries decls value).map (toLE ((W + 7) / 8))).flatten

end Spec
