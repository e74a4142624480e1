import Verif.Model.Native.GoReader
import Verif.Model.Gen.NativeClasses
import Verif.Model.Gen.Literals

/-!
# Model of `GetSizeInBytes`, `Close` and `ToString` in generated Go code: `templates/go/*.jinja2`

`none` is a panic. Sizes of files do not overflow an `int`. `fmt.Sprintf` is written out: its arguments are numbers and booleans, and the
names in its format contain no `%`.
-/

namespace Model.Native
open Py Model Gen _root_.Native

/-! ## Names -/

/-- `str.title()` of a text of ASCII letters and digits: letters after letters in lower case, others in upper case. -/
def titleText : Bool → Text → Text
  | _, [] => []
  | after, c :: t => (if after then c.toLower else c.toUpper) :: titleText c.isAlpha t

/-- `text.split("_")`. -/
def splitUnderscore : Text → List Text
  | [] => [[]]
  | c :: t =>
    if c = '_' then [] :: splitUnderscore t
    else match splitUnderscore t with
      | [] => [[c]]
      | w :: ws => (c :: w) :: ws

/-- go.py:57-60 `to_go_case` with `exported=True`; `none` is an `IndexError`. -/
def goCase (name : Text) : Option Text :=
  let name := if '_' ∈ name then (splitUnderscore name).flatMap (titleText false) else name
  match name with
  | [] => none
  | c :: t => some (c.toUpper :: t)

/-! ## Objects -/

/-- A `MemoryDescriptor` of a file: the nil interface (resource.go:53-55), or `mmap.ReaderAt` of `golang.org/x/exp/mmap`, which has no
data after `Close`. -/
inductive GoMemory where
  | nil
  | mapped (d : Bytes)
  | closed
  deriving DecidableEq

/-- `v.descriptor.Len()`. -/
def GoMemory.len : GoMemory → Option Nat
  | .nil => none
  | .mapped d => some d.length
  | .closed => some 0

/-- rawdata.jinja2:17-24 `GetSize`, vector.jinja2:17-22: `ReadAt` of a closed descriptor is an error. -/
def GoMemory.size : GoMemory → Option Int
  | .nil => none
  | .mapped d => some (goSize d)
  | .closed => some 0

/-- `v.descriptor.Close()`. -/
def GoMemory.close : GoMemory → Option GoMemory
  | .nil => none
  | _ => some .closed

/-- What the text of a container knows of a structure: its name in Go's case, its size and its fields. -/
structure GoElement where
  name : Text
  size : Nat
  fields : List GoMember

/-- The members of an archive object: the memory of a resource and `IsOpen`. -/
inductive GoObject where
  | vector (e : GoElement) (d : GoMemory) (isOpen : Bool)
  | instance (e : GoElement) (d : GoMemory) (isOpen : Bool)
  | rawData (d : GoMemory) (isOpen : Bool)
  | multivector (es : List GoElement) (ix : GoElement) (d i : GoMemory) (isOpen : Bool)
  | archive (name : Text) (isOpen : Bool) (members : List GoObject)

def GoObject.isOpen : GoObject → Bool
  | .vector _ _ o => o
  | .instance _ _ o => o
  | .rawData _ o => o
  | .multivector _ _ _ _ o => o
  | .archive _ o _ => o

/-- archive.jinja2:145-173: the memory of a resource with one file. -/
def goMemoryOf : Option Bytes → GoMemory
  | some d => .mapped d
  | none => .nil

/-- archive.jinja2:145-173: the members of an archive object for what `Open` has found (`goOpen`). The members of a closed multivector
may have one of the two memories. (Archives are always open, see `goOpenResource`.) -/
inductive GoLoaded : List (String × GoOpened) → List GoObject → Prop
  | nil : GoLoaded [] []
  | vector {name d e l ms} (rest : GoLoaded l ms) : GoLoaded ((name, .data d) :: l) (.vector e (goMemoryOf d) d.isSome :: ms)
  | instance {name d e l ms} (rest : GoLoaded l ms) : GoLoaded ((name, .data d) :: l) (.instance e (goMemoryOf d) d.isSome :: ms)
  | rawData {name d l ms} (rest : GoLoaded l ms) : GoLoaded ((name, .data d) :: l) (.rawData (goMemoryOf d) d.isSome :: ms)
  | multivector {name m es ix l ms} (rest : GoLoaded l ms) :
    GoLoaded ((name, .multivector (some m)) :: l) (.multivector es ix (.mapped m.data) (.mapped m.index) true :: ms)
  | closed {name es ix d i l ms} (h : d = .nil ∨ i = .nil) (rest : GoLoaded l ms) :
    GoLoaded ((name, .multivector none) :: l) (.multivector es ix d i false :: ms)
  | archive {name o n l l' ms ms'} (h : o = false → l' = []) (inner : GoLoaded l' ms') (rest : GoLoaded l ms) :
    GoLoaded ((name, .archive o l') :: l) (.archive n o ms' :: ms)

/-! ## GetSizeInBytes -/

mutual
/-- vector.jinja2:44-46, instance.jinja2:24-26, rawdata.jinja2:31-33, multivector.jinja2:22-24, archive.jinja2:46-72. -/
def GoObject.sizeInBytes : GoObject → Option Nat
  | .vector _ d _ => d.len
  | .instance _ d _ => d.len
  | .rawData d _ => d.len
  | .multivector _ _ d _ _ => d.len
  | .archive _ _ ms => goSizes ms
/-- archive.jinja2:48-70: the sum over the open resources. -/
def goSizes : List GoObject → Option Nat
  | [] => some 0
  | m :: ms => (if m.isOpen then m.sizeInBytes else some 0).bind fun size => (goSizes ms).map (size + ·)
end

/-! ## Close -/

mutual
/-- vector.jinja2:39-42, instance.jinja2:19-22, rawdata.jinja2:26-29, multivector.jinja2:13-16, archive.jinja2:20-44. -/
def GoObject.close : GoObject → Option GoObject
  | .vector e d _ => do some (.vector e (← d.close) false)
  | .instance e d _ => do some (.instance e (← d.close) false)
  | .rawData d _ => do some (.rawData (← d.close) false)
  | .multivector es ix d i _ => do some (.multivector es ix (← d.close) i false)
  | .archive n o ms => do some (.archive n o (← goCloses ms))
/-- archive.jinja2:21-43: the open resources are closed. -/
def goCloses : List GoObject → Option (List GoObject)
  | [] => some []
  | m :: ms => (if m.isOpen then m.close else some m).bind fun m => (goCloses ms).map (m :: ·)
end

/-! ## ToString -/

def jString (s : Text) : Text := '"' :: (s ++ ['"'])
def jMember (k : String) (v : Text) : Text := jString k.toList ++ ':' :: ' ' :: v
def jObject (sep : String) (members : List Text) : Text := '{' :: (joinTexts sep.toList members ++ ['}'])
def jArray (sep : String) (items : List Text) : Text := '[' :: (joinTexts sep.toList items ++ [']'])
def jBool (b : Bool) : Text := if b then "true".toList else "false".toList

/-- vector.jinja2:51-56, and the same for instances and multivectors. -/
def goFieldText (f : GoMember) : Text :=
  jObject ", " [jMember "name" (jString f.name), jMember "offset" (natText f.offset), jMember "width" (natText f.width), jMember "is_signed" (jBool f.isSigned)]

/-- vector.jinja2:50-57, multivector.jinja2:70-80, :85-91; `space` is written after the brace. -/
def goElementText (space : Text) (e : GoElement) : Text :=
  jObject ", " [space ++ jMember "name" (jString e.name), jMember "attributes" (jArray "," (e.fields.map goFieldText))]

mutual
/-- vector.jinja2:48-60, instance.jinja2:28-40, rawdata.jinja2:35-37, multivector.jinja2:65-95, archive.jinja2:74-95. -/
def GoObject.text : GoObject → Option Text
  | .vector e d _ => do
    some (jObject ", " [jMember "container_type" (jString "Vector".toList), jMember "size" (intText ((← d.size).tdiv e.size)),
      jMember "size_in_bytes" (natText (← d.len)), jMember "element_types" (jArray "," [goElementText [' '] e])])
  | .instance e d _ => do
    some (jObject ", " [jMember "container_type" (jString "Instance".toList), jMember "size" (natText 1),
      jMember "size_in_bytes" (natText (← d.len)), jMember "element_types" (jArray "," [goElementText [' '] e])])
  | .rawData d _ => do
    some (jObject ", " [jMember "container_type" (jString "RawData".toList), jMember "size" (intText (← d.size)),
      jMember "size_in_bytes" (natText (← d.len)), jMember "element_types" (jArray "," [])])
  | .multivector es ix d i _ => do
    some (jObject ", " [jMember "container_type" (jString "Multivector".toList), jMember "size" (intText ((← i.size).tdiv ix.size)),
      jMember "size_in_bytes" (natText (← d.len)), jMember "element_types" (jArray "," (es.map (goElementText []))),
      jMember "index_type" (goElementText [] ix)])
  | .archive n _ ms => do
    some (jObject ", " [jMember "name" (jString n), jMember "container_type" (jString "Archive".toList), jMember "size_in_bytes" (natText (← goSizes ms)),
      jMember "resources" (jArray "," (← goTexts ms))])
/-- archive.jinja2:77-92: the resources, open or not. -/
def goTexts : List GoObject → Option (List Text)
  | [] => some []
  | m :: ms => do some ((← m.text) :: (← goTexts ms))
end

/-- structure.jinja2:33-34: `%v` of a field. -/
def goValueText (t : GoType) (v : Int) : Text :=
  match t with
  | .bool => jBool (v = 1)
  | .int _ _ => intText v

/-- structure.jinja2:31-40, the fields of a structure at `position` in `d`. -/
def goFieldTexts (ty : String → GoType) (fs : List FieldDecl) (d : Bytes) (position : Int) : List FieldDecl → Option (List Text)
  | [] => some []
  | f :: rest => do
    let v ← goField ty fs d position f.name
    some (jMember f.name (goValueText (ty f.name) v) :: (← goFieldTexts ty fs d position rest))

/-- structure.jinja2:26-43 `ToString` of a structure (on memory that is mapped). -/
def goStructText (name : String) (ty : String → GoType) (fs : List FieldDecl) (d : Bytes) (position : Int) : Option Text := do
  some (jObject ", " [jMember "name" (jString name.toList), jMember "position" (intText position),
    jMember "attributes" (jObject "," (← goFieldTexts ty fs d position fs))])

end Model.Native
