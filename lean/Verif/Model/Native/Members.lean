import Verif.Model.Native.Cpp
import Verif.Model.Native.Rust

/-!
# Model of the operations on whole structures: comparison, `fill_from`, and fields with an invalid value

`templates/cpp/structure.jinja2:117-147`, `templates/rust/structure.jinja2:97-105, :137-175` and
`flatdata-cpp/include/flatdata/internal/{Reader,Writer}.h` for `Tagged`.
-/

namespace Model.Native
open Py _root_.Native

/-! ## C++ -/

/-- A member of a generated C++ class (cpp/structure.jinja2:15-21): `Member< type, offset, width, ... >`, with `Tagged< type, invalid >` if
the field is optional. -/
structure CppSlot where
  type : CppType
  offset : Nat
  width : Nat
  invalid : Option Int
  deriving DecidableEq, Repr

/-- cpp/structure.jinja2:117-129 `operator==`: the loop from byte `i` on, `n` bytes are left. -/
def cppEqualFrom (a b : Bytes) : Nat → Nat → Option Bool
  | _, 0 => some true
  | i, n + 1 => do
    let x ← a[i]?
    let y ← b[i]?
    if x ≠ y then some false else cppEqualFrom a b (i + 1) n

/-- cpp/structure.jinja2:117-129 `operator==` of a structure of `size` bytes. -/
def cppEqual (size : Nat) (a b : Bytes) : Option Bool := cppEqualFrom a b 0 size

/-- cpp/structure.jinja2:138-147 `operator<`. (For optional members there is no `<`, this does not compile: `none`. Structures without fields,
which the grammar does not allow, do not compile either.) -/
def cppLess (a b : Bytes) : List CppSlot → Option Bool
  | [] => none
  | s :: ss =>
    if s.invalid.isSome then none
    else do
      let x ← cppRead s.type a s.offset s.width
      let y ← cppRead s.type b s.offset s.width
      match ss with
      | [] => some (decide (x < y))
      | _ => if x < y then cppLess a b ss else some false

/-- Reader.h:134-137 `operator bool` of a tagged member. -/
def cppHas (s : CppSlot) (invalid : Int) (d : Bytes) : Option Bool := do
  let x ← cppRead s.type d s.offset s.width
  some (decide (x ≠ invalid))

/-- Reader.h:145-156 conversion of a tagged member to `boost::optional`. -/
def cppOptional (s : CppSlot) (invalid : Int) (d : Bytes) : Option (Option Int) := do
  let x ← cppRead s.type d s.offset s.width
  if x = invalid then some none
  else do
    let y ← cppRead s.type d s.offset s.width
    some (some y)

/-- Writer.h:128-133 `operator=( T )` of a tagged member. (`operator=( boost::optional< T > )`, :135-146, does not compile: there is no
implicit conversion from `boost::optional< T >` to `T`.) -/
def cppTaggedAssign (s : CppSlot) (d : Bytes) (v : Int) : Option Bytes := cppWrite s.type d s.offset s.width v

/-! ## Rust -/

/-- A field of a generated Rust struct. -/
structure RustSlot where
  type : RustType
  offset : Nat
  width : Nat
  invalid : Option Int
  deriving DecidableEq, Repr

/-- rust/structure.jinja2:97-105, the getter. The result is an `Option` for optional fields; here it always is one, and `some` for the other
fields. -/
def rustGetField (s : RustSlot) (d : Bytes) : Option (Option Int) := do
  let value ← rustRead s.type d s.offset s.width
  match s.invalid with
  | some invalid => some (if value ≠ invalid then some value else none)
  | none => some (some value)

/-- rust/structure.jinja2:160-163, the setter. (Fields that are not optional take values only.) -/
def rustSetField (s : RustSlot) (d : Bytes) (value : Option Int) : Option Bytes :=
  match s.invalid, value with
  | some invalid, _ => rustWrite s.type d s.offset s.width (value.getD invalid)
  | none, some v => rustWrite s.type d s.offset s.width v
  | none, none => none

/-- rust/structure.jinja2:138-147 `PartialEq::eq`: `&&` does not evaluate the rest after a difference. -/
def rustEq (a b : Bytes) : List RustSlot → Option Bool
  | [] => some true
  | s :: ss => do
    let x ← rustGetField s a
    let y ← rustGetField s b
    if x = y then rustEq a b ss else some false

/-- rust/structure.jinja2:168-175 `fill_from`: what becomes of `a`. -/
def rustFillFrom (a b : Bytes) : List RustSlot → Option Bytes
  | [] => some a
  | s :: ss => do
    let x ← rustGetField s b
    let a ← rustSetField s a x
    rustFillFrom a b ss

end Model.Native
