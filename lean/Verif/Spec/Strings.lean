import Verif.Py.Basic

/-!
# Specification of separator-terminated strings
-/

namespace Spec
open Py

/-- The pieces of `b` that are terminated by the byte `c`, in order; an unterminated rest is dropped. -/
def terminated (c : UInt8) : Bytes → List Bytes
  | [] => []
  | b :: bs =>
    if b = c then [] :: terminated c bs
    else match terminated c bs with
      | [] => []
      | piece :: pieces => (b :: piece) :: pieces

/-- Where the pieces start, if the first one starts at `o`: each piece is followed by one byte. -/
def starts (o : Nat) : List Bytes → List Nat
  | [] => []
  | p :: ps => o :: starts (o + p.length + 1) ps

/-- The pieces up to the first one that starts with the list terminator; `mem` is what is stored from
position `o` on. -/
def untilListEnd (listSep mem : Bytes) (pieces : List Bytes) : List Bytes :=
  ((pieces.zip (starts 0 pieces)).takeWhile fun p => ¬ listSep <+: mem.drop p.2).map (·.1)

example : terminated 0 [65, 66, 0, 67, 0, 0, 68] = [[65, 66], [67], []] := by decide
example : untilListEnd [0, 0] [65, 0, 66, 0, 0, 0, 67, 0] (terminated 0 [65, 0, 66, 0, 0, 0, 67, 0]) = [[65], [66]] := by
  decide

end Spec
