import Verif.Py.Basic

/-!
# Tables of strings in raw data
-/

namespace Spec
open Py

/-- Strings one behind the other, each followed by a zero byte. -/
def stringTable (l : List String) : Bytes := l.flatMap fun s => encodeUtf8 s ++ [0]

/-- Where string `i` begins. -/
def stringStart (l : List String) (i : Nat) : Nat := ((l.take i).map fun s => (encodeUtf8 s).length + 1).sum

/-- No string has the character NUL. -/
def NoNul (l : List String) : Prop := ∀ s ∈ l, '\x00' ∉ s.toList

example : stringTable ["ab", "", "c"] = [97, 98, 0, 0, 99, 0] := by decide +kernel
example : (stringStart ["ab", "", "c"] 1, stringStart ["ab", "", "c"] 2) = (3, 4) := by decide +kernel

end Spec
