import Verif.Model.Structure

/-!
# Assigning to the fields of a structure object

The generated classes of the compiled languages have one member or setter per field, which calls the bit writer of the runtime
with the type, offset and width of the field (generator templates `cpp/structure.jinja2:14-26`, `rust/structure.jinja2:160-163`).
-/

namespace Model.Native
open Py Model

/-- Assign to the fields of a structure one after the other, in any order and any number of times, with a
given writer. A field the structure does not have does not compile (`none`). -/
def assignAll (write : String → Bytes → Nat → Nat → Int → Option Bytes) (fields : List (String × FieldSig)) :
    Bytes → List (String × Int) → Option Bytes
  | d, [] => some d
  | d, (name, v) :: calls => do
    let f ← fields.lookup name
    let d ← write name d f.offset f.width v
    assignAll write fields d calls

end Model.Native
