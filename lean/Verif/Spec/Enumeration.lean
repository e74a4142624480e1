import Verif.Spec.Bits
import Verif.Model.Gen.Enumeration

/-!
# What an enumeration declaration means
-/

namespace Spec
open Gen

/-- `vals` are the values of the declared enumerators: the explicit one if there is one, otherwise 0 for the first and
the predecessor's value plus one for every other. -/
structure Assignment (decls : List (Text × Option Int)) (vals : List Int) : Prop where
  length : vals.length = decls.length
  explicit : ∀ (i : Nat) name v, decls[i]? = some (name, some v) → vals[i]? = some v
  first : ∀ name, decls[0]? = some (name, none) → vals[0]? = some 0
  next : ∀ (i : Nat) name v, decls[i + 1]? = some (name, none) → vals[i]? = some v → vals[i + 1]? = some (v + 1)

/-- The name of the enumerator generated for a value that was not declared: `UNKNOWN_VALUE_5`,
`UNKNOWN_VALUE_MINUS_5`. -/
def generatedName (v : Int) : Text :=
  if v < 0 then "UNKNOWN_VALUE_MINUS_".toList ++ natText v.natAbs else "UNKNOWN_VALUE_".toList ++ natText v.natAbs

/-- The values representable in a type: all those of its width (none at all in a signed type without bits). -/
def Representable (t : BasicType) (v : Int) : Prop := InRange t.width t.name.isSigned v

end Spec
