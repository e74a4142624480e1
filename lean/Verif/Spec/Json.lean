import Verif.Model.Native.GoText

/-!
# JSON, and what Go objects describe themselves as
-/

namespace Spec
open Py Gen Model Model.Native

/-- JSON values with integral numbers. -/
inductive Json where
  | string (s : Text)
  | number (n : Int)
  | bool (b : Bool)
  | array (l : List Json)
  | object (l : List (Text × Json))

/-- Characters that stand for themselves in a JSON string. -/
def PlainText (s : Text) : Prop := ∀ c ∈ s, c ≠ '"' ∧ c ≠ '\\' ∧ 32 ≤ c.toNat

/-- Insignificant whitespace. -/
def JsonSpace (s : Text) : Prop := ∀ c ∈ s, c = ' ' ∨ c = '\t' ∨ c = '\n' ∨ c = '\r'

/-- The value of decimal digits. -/
def decimalValue (t : Text) : Nat := t.foldl (fun n c => 10 * n + (c.toNat - 48)) 0

/-- An unsigned integral JSON number: digits without leading zeros. -/
structure JsonDigits (n : Nat) (t : Text) : Prop where
  digits : ∀ c ∈ t, 48 ≤ c.toNat ∧ c.toNat ≤ 57
  nonempty : t ≠ []
  zero : t.head? = some '0' → t = ['0']
  value : decimalValue t = n

mutual
/-- The text is JSON (RFC 8259; strings without escapes, numbers without fractions and exponents) and denotes the value. -/
inductive IsJson : Json → Text → Prop
  | string {s} : PlainText s → IsJson (.string s) ('"' :: (s ++ ['"']))
  | true : IsJson (.bool true) "true".toList
  | false : IsJson (.bool false) "false".toList
  | natural {n t} : JsonDigits n t → IsJson (.number n) t
  | negative {n t} : JsonDigits n t → IsJson (.number (-(n : Int))) ('-' :: t)
  | emptyArray {w} : JsonSpace w → IsJson (.array []) ('[' :: (w ++ [']']))
  | array {l t} : JsonItems l t → IsJson (.array l) ('[' :: (t ++ [']']))
  | emptyObject {w} : JsonSpace w → IsJson (.object []) ('{' :: (w ++ ['}']))
  | object {l t} : JsonMembers l t → IsJson (.object l) ('{' :: (t ++ ['}']))
/-- Values separated by commas. -/
inductive JsonItems : List Json → Text → Prop
  | one {v t w w'} : IsJson v t → JsonSpace w → JsonSpace w' → JsonItems [v] (w ++ (t ++ w'))
  | more {v t w w' l r} : IsJson v t → JsonSpace w → JsonSpace w' → JsonItems l r → JsonItems (v :: l) (w ++ (t ++ (w' ++ ',' :: r)))
/-- Members separated by commas. -/
inductive JsonMembers : List (Text × Json) → Text → Prop
  | one {k v t w w' x x'} : PlainText k → IsJson v t → JsonSpace w → JsonSpace w' → JsonSpace x → JsonSpace x' →
    JsonMembers [(k, v)] (w ++ '"' :: (k ++ '"' :: (w' ++ ':' :: (x ++ (t ++ x')))))
  | more {k v t w w' x x' l r} : PlainText k → IsJson v t → JsonSpace w → JsonSpace w' → JsonSpace x → JsonSpace x' → JsonMembers l r →
    JsonMembers ((k, v) :: l) (w ++ '"' :: (k ++ '"' :: (w' ++ ':' :: (x ++ (t ++ (x' ++ ',' :: r))))))
end

/-! ## Sizes -/

mutual
/-- The data files of the resources of an archive: those of multivectors count if there is an index, which does not count. -/
def dataBytes (f : Files) : List RustResource → Nat
  | [] => 0
  | r :: rs => dataBytes1 f r + dataBytes f rs
/-- The same for one resource. -/
def dataBytes1 (f : Files) : RustResource → Nat
  | .vector name .. => ((f name).getD []).length
  | .instance name .. => ((f name).getD []).length
  | .rawData name .. => ((f name).getD []).length
  | .multivector name .. => if f (name ++ "_index") = none then 0 else ((f name).getD []).length
  | .archive name _ _ _ _ resources => dataBytes (subdir f name.toLower) resources
end

/-! ## Objects -/

mutual
/-- Every resource has been found. -/
def AllOpen : List (String × GoOpened) → Prop
  | [] => True
  | x :: l => Found x.2 ∧ AllOpen l
def Found : GoOpened → Prop
  | .data d => d ≠ none
  | .multivector m => m ≠ none
  | .archive _ l => AllOpen l
end

/-- The bytes of a file that is mapped. -/
def memoryBytes : GoMemory → Bytes
  | .mapped d => d
  | _ => []

/-- The size in a file: eight bytes, signed; 0 if there are less. -/
def payloadSize (d : Bytes) : Int := if d.length < 8 then 0 else (BitVec.ofNat 64 (fromLE (d.take 8))).toInt

def jsonText (x : String) : Text := x.toList

/-- A field of a structure. -/
def fieldJson (f : GoMember) : Json :=
  .object [(jsonText "name", .string f.name), (jsonText "offset", .number f.offset), (jsonText "width", .number f.width), (jsonText "is_signed", .bool f.isSigned)]

/-- A structure. -/
def elementJson (e : GoElement) : Json := .object [(jsonText "name", .string e.name), (jsonText "attributes", .array (e.fields.map fieldJson))]

mutual
/-- What an object is described as. -/
def objectJson : GoObject → Json
  | .vector e d _ => .object [(jsonText "container_type", .string (jsonText "Vector")), (jsonText "size", .number ((payloadSize (memoryBytes d)).tdiv e.size)),
      (jsonText "size_in_bytes", .number (memoryBytes d).length), (jsonText "element_types", .array [elementJson e])]
  | .instance e d _ => .object [(jsonText "container_type", .string (jsonText "Instance")), (jsonText "size", .number 1),
      (jsonText "size_in_bytes", .number (memoryBytes d).length), (jsonText "element_types", .array [elementJson e])]
  | .rawData d _ => .object [(jsonText "container_type", .string (jsonText "RawData")), (jsonText "size", .number (payloadSize (memoryBytes d))),
      (jsonText "size_in_bytes", .number (memoryBytes d).length), (jsonText "element_types", .array [])]
  | .multivector es ix d i _ => .object [(jsonText "container_type", .string (jsonText "Multivector")), (jsonText "size", .number ((payloadSize (memoryBytes i)).tdiv ix.size)),
      (jsonText "size_in_bytes", .number (memoryBytes d).length), (jsonText "element_types", .array (es.map elementJson)), (jsonText "index_type", elementJson ix)]
  | .archive n _ ms => .object [(jsonText "name", .string n), (jsonText "container_type", .string (jsonText "Archive")), (jsonText "size_in_bytes", .number (mappedBytes ms)),
      (jsonText "resources", .array (objectsJson ms))]
def objectsJson : List GoObject → List Json
  | [] => []
  | m :: ms => objectJson m :: objectsJson ms
/-- The data that is mapped by open resources. -/
def mappedBytes : List GoObject → Nat
  | [] => 0
  | m :: ms => mappedBytes1 m + mappedBytes ms
def mappedBytes1 : GoObject → Nat
  | .vector _ d o => if o then (memoryBytes d).length else 0
  | .instance _ d o => if o then (memoryBytes d).length else 0
  | .rawData d o => if o then (memoryBytes d).length else 0
  | .multivector _ _ d _ o => if o then (memoryBytes d).length else 0
  | .archive _ o ms => if o then mappedBytes ms else 0
end

def ElementNames (e : GoElement) : Prop := PlainText e.name ∧ ∀ f ∈ e.fields, PlainText f.name

mutual
/-- Names are plain texts. -/
def JsonNames : List GoObject → Prop
  | [] => True
  | m :: ms => JsonNames1 m ∧ JsonNames ms
def JsonNames1 : GoObject → Prop
  | .vector e _ _ => ElementNames e
  | .instance e _ _ => ElementNames e
  | .rawData _ _ => True
  | .multivector es ix _ _ _ => (∀ e ∈ es, ElementNames e) ∧ ElementNames ix
  | .archive n _ ms => PlainText n ∧ JsonNames ms
end

mutual
/-- All resources closed: no data is mapped. Indices of multivectors are as before. -/
inductive ClosedFrom : List GoObject → List GoObject → Prop
  | nil : ClosedFrom [] []
  | cons {m m' ms ms'} : ClosedFrom1 m m' → ClosedFrom ms ms' → ClosedFrom (m :: ms) (m' :: ms')
inductive ClosedFrom1 : GoObject → GoObject → Prop
  | vector {e d o d'} : (∀ x, d' ≠ .mapped x) → ClosedFrom1 (.vector e d o) (.vector e d' false)
  | instance {e d o d'} : (∀ x, d' ≠ .mapped x) → ClosedFrom1 (.instance e d o) (.instance e d' false)
  | rawData {d o d'} : (∀ x, d' ≠ .mapped x) → ClosedFrom1 (.rawData d o) (.rawData d' false)
  | multivector {es ix d i o d'} : (o = true → ∀ x, d' ≠ .mapped x) → (o = false → d' = d) → ClosedFrom1 (.multivector es ix d i o) (.multivector es ix d' i false)
  | archive {n o ms ms'} : ClosedFrom ms ms' → ClosedFrom1 (.archive n o ms) (.archive n o ms')
end

end Spec
