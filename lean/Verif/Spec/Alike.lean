import Verif.Spec.Archive

/-!
# Archive classes that read the same
-/

namespace Spec
open Model

mutual
/-- The signatures differ at most in the schema texts: same container, same structures, both optional or none. -/
inductive Alike : Sig → Sig → Prop
  | instance {t x x' o} : Alike (.instance t x o) (.instance t x' o)
  | vector {t x x' o} : Alike (.vector t x o) (.vector t x' o)
  | multivector {i ts x x' o} : Alike (.multivector i ts x o) (.multivector i ts x' o)
  | rawData {x x' o} : Alike (.rawData x o) (.rawData x' o)
  | sub {n a a' rs rs' x x' o} : AlikeAll rs rs' → Alike (.sub n a rs x o) (.sub n a' rs' x' o)
/-- The same names in the same order, with signatures that are alike. -/
inductive AlikeAll : List (String × Sig) → List (String × Sig) → Prop
  | nil : AlikeAll [] []
  | cons {n s s' rs rs'} : Alike s s' → AlikeAll rs rs' → AlikeAll ((n, s) :: rs) ((n, s') :: rs')
end

end Spec
