import Verif.Py.Basic

/-!
# The documented binary frame of a resource file
-/

namespace Spec
open Py

/-- Little-endian 64-bit payload size, payload, eight zero bytes. -/
def frame (payload : Bytes) : Bytes := toLE 8 payload.length ++ payload ++ List.replicate 8 0

end Spec
