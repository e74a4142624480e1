import Verif.Py.Basic

/-!
# Model of the explanation of a schema mismatch in C++: `flatdata-cpp/src/Archive.cpp:61-229`

Texts are the bytes before the terminating zero.
-/

namespace Model.Native
open Py

/-- Archive.cpp:69-77, from inside of a line on: `line` is what was read of it. -/
def toLinesFrom (line : Bytes) : Bytes → List Bytes
  | [] => [line]
  | c :: cs =>
    if c = 10 then line :: (match cs with | [] => [] | c' :: cs' => toLinesFrom [] (c' :: cs'))
    else toLinesFrom (line ++ [c]) cs

/-- Archive.cpp:63-85 `to_lines`; the null pointer is treated as an empty text. -/
def toLines : Bytes → List Bytes
  | [] => []
  | c :: cs => toLinesFrom [] (c :: cs)

/-- Archive.cpp:147-151 `entry`: the index of an entry. -/
def diffIndex (expectedLength e f : Nat) : Nat := e + f * expectedLength

/-- Archive.cpp:147-151 `entry`, read. -/
def diffEntry (t : List Nat) (expectedLength e f : Nat) : Nat := t.getD (diffIndex expectedLength e f) 0

/-- Archive.cpp:143-160: the table, first row and first column. -/
def diffInit (expectedLength foundLength : Nat) : List Nat :=
  let t := List.replicate (expectedLength * foundLength) 0
  let t := (List.range expectedLength).foldl (fun t i => t.set (diffIndex expectedLength i 0) i) t
  (List.range foundLength).foldl (fun t i => t.set (diffIndex expectedLength 0 i) i) t

/-- Archive.cpp:167-175, body of the loops. -/
def diffFill1 (expected found : List Bytes) (f : Nat) (t : List Nat) (e : Nat) : List Nat :=
  let L := expected.length + 1
  let cost := min (diffEntry t L e (f + 1) + 1) (diffEntry t L (e + 1) f + 1)
  let cost := if expected.getD e [] = found.getD f [] then min cost (diffEntry t L e f) else cost
  t.set (diffIndex L (e + 1) (f + 1)) cost

/-- Archive.cpp:163-177, the loops. -/
def diffTable (expected found : List Bytes) : List Nat :=
  (List.range found.length).foldl (fun t f => (List.range expected.length).foldl (diffFill1 expected found f) t)
    (diffInit (expected.length + 1) (found.length + 1))

/-- Archive.cpp:186-194 `check`: `next` is `(next_expected_pos, next_found_pos)`. -/
def diffCheck (t : List Nat) (L e f : Nat) (next : Nat × Nat) (newE newF transition : Nat) : Nat × Nat :=
  if diffEntry t L newE newF + transition = diffEntry t L e f then (newE, newF) else next

/-- Archive.cpp:184-208: where to go from `(expected_pos, found_pos)`. -/
def diffNext (expected found : List Bytes) (t : List Nat) (e f : Nat) : Nat × Nat :=
  let L := expected.length + 1
  let next := (e, f)
  let next := if f ≠ 0 then diffCheck t L e f next e (f - 1) 1 else next
  let next := if e ≠ 0 then diffCheck t L e f next (e - 1) f 1 else next
  if e ≠ 0 ∧ f ≠ 0 ∧ expected.getD (e - 1) [] = found.getD (f - 1) [] then diffCheck t L e f next (e - 1) (f - 1) 0 else next

/-- Archive.cpp:211-212, :216, :220: a line of the difference. -/
def diffText (sign : UInt8) (line : Bytes) : Bytes := [sign, 34] ++ line ++ [34]

/-- Archive.cpp:179-225, at most `n` iterations of the loop. `none`: it has not ended, an assertion fails (:209; there is no progress) or a
line that does not exist is accessed. -/
def diffWalk (expected found : List Bytes) (t : List Nat) : Nat → Nat → Nat → Option (List Bytes)
  | n, e, f =>
    if f ≠ 0 ∨ e ≠ 0 then
      match n with
      | 0 => none
      | n + 1 =>
        let next := diffNext expected found t e f
        if next.1 = e ∧ next.2 = f then none
        else
          let line := if next.2 = f then expected[next.1]?.map (diffText 45) else if next.1 = e then found[next.2]?.map (diffText 43) else expected[next.1]?.map (diffText 32)
          match line, diffWalk expected found t n next.1 next.2 with
          | some l, some ls => some (l :: ls)
          | _, _ => none
    else some []

/-- Archive.cpp:138-225, the vector `diff`: the last line comes first. (`n` iterations.) -/
def diffLines (expected found : List Bytes) (n : Nat) : Option (List Bytes) :=
  diffWalk expected found (diffTable expected found) n expected.length found.length

/-- Archive.cpp:94, :106: a line that begins with something else than a blank. -/
def diffChanged (line : Bytes) : Bool := line.getD 0 0 ≠ 32

/-- Archive.cpp:94-103, the writes to `result_mask` in the first loop: for `i = diff.size( ), …, 1` the value of `result_mask[ i ]`. -/
def contextWrites (diff : List Bytes) : Nat → Int → List (Nat × Bool)
  | 0, _ => []
  | i + 1, toGo =>
    let toGo := if diffChanged (diff.getD i []) then 3 else toGo
    (i + 1, decide (0 ≤ toGo)) :: contextWrites diff i (toGo - 1)

/-- Archive.cpp:104-113, the second loop, from some index on. -/
def contextSecond : List Bytes → List Bool → Int → List Bool
  | [], mask, _ => mask
  | _ :: _, [], _ => []
  | line :: diff, b :: mask, toGo =>
    let toGo := if diffChanged line then 3 else toGo
    (b || decide (0 ≤ toGo)) :: contextSecond diff mask (toGo - 1)

/-- `...` -/
def contextDots : Bytes := [46, 46, 46]

/-- Archive.cpp:114-127, the third loop, on the lines and the mask in the order of the loop. -/
def contextPrint : List (Bytes × Bool) → Bool → List Bytes
  | [], _ => []
  | (line, true) :: rest, _ => line :: contextPrint rest true
  | (_, false) :: rest, printedLast => if printedLast then contextDots :: contextPrint rest false else contextPrint rest false

/-- Archive.cpp:87-129 `create_context`: the lines of the result. The write to `result_mask[ diff.size( ) ]`, which is outside of the vector, has no
effect here. -/
def createContext (diff : List Bytes) : List Bytes :=
  let mask := (contextWrites diff diff.length (-1)).foldl (fun mask w => mask.set w.1 w.2) (List.replicate diff.length false)
  let mask := contextSecond diff mask (-1)
  contextPrint (diff.zip mask).reverse false

/-- Archive.cpp:131-229 `compute_diff`, for a schema that was found. -/
def computeDiff (expected found : Bytes) (n : Nat) : Option Bytes :=
  (diffLines (toLines expected) (toLines found) n).map fun diff => (createContext diff).flatMap fun line => line ++ [10]

end Model.Native
