import Verif.Model.Native.CppReader
import Verif.Model.Native.RustReader

/-!
# Model of opening an archive in C++: `flatdata-cpp/include/flatdata/Archive.h`, `src/Archive.cpp` and the generated class
(`templates/cpp/archive.jinja2`)
-/

namespace Model.Native
open Py Model _root_.Native

/-- What a member of the generated class holds. -/
inductive CppOpened where
  | vector (v : CppView)
  | instance (mem : Bytes)
  | rawData (b : Bytes)
  | multivector (m : CppMulti)
  | archive (resources : List (String × Option CppOpened))

/-- Archive.h:185-213 `read_resource`, in the version for mandatory resources (a failure makes the archive "not open", here: `none`) and
the one for optional resources (a failure leaves the member empty); then archive.jinja2:151-153, the check of the size. A mandatory
resource that failed has no value to check: the archive is not open already. -/
def cppRead1 {α : Type} (optional : Bool) (size : α → Nat) (maxSize : Option Nat) (x : Option α) : Option (Option α) :=
  match x with
  | none => if optional then some none else none
  | some a =>
    match maxSize with
    | none => some (some a)
    | some limit => if size a ≤ limit then some (some a) else none

mutual
/-- Archive.cpp:31-47 `initialize` (archive.jinja2:130-138 `open`): `none` if the archive is not open afterwards. (The members are filled
even then, and can be asked for; this is not modelled. That the simple resources are read before the archives makes no difference to
the result: reading has no effect.) -/
def cppOpen (f : Files) (archiveName schema : String) (resources : List RustResource) : Option (List (String × Option CppOpened)) :=
  match readAndCheckSchema f (archiveName ++ ".archive") schema with
  | none => none
  | some _ => cppOpenAll f resources

/-- archive.jinja2:145-159 `load_contents`. -/
def cppOpenAll (f : Files) : List RustResource → Option (List (String × Option CppOpened))
  | [] => some []
  | r :: rs =>
    match cppOpenResource f r, cppOpenAll f rs with
    | some x, some l => some (x :: l)
    | _, _ => none

/-- One line of `load_contents`. (The generated check of the size is modelled for vectors, multivectors and raw data; there is no
`size( )` for structures, and nothing is generated for archives.) Archive.h:215-251 `load_archive`: whether the
directory does not exist, or has no signature, makes no difference. -/
def cppOpenResource (f : Files) : RustResource → Option (String × Option CppOpened)
  | .vector name schema optional maxSize overlapping n =>
    (cppRead1 optional CppView.size maxSize (cppOpenVector overlapping f name schema n)).map fun x => (name, x.map .vector)
  | .instance name schema optional _ _ =>
    (cppRead1 optional (fun _ => 0) none (cppOpenStruct f name schema)).map fun x => (name, x.map .instance)
  | .rawData name schema optional maxSize =>
    (cppRead1 optional List.length maxSize (cppOpenRaw f name schema)).map fun x => (name, x.map .rawData)
  | .multivector name schema optional maxSize w =>
    (cppRead1 optional (fun m : CppMulti => m.index.size) maxSize (cppOpenMulti f name schema w)).map fun x => (name, x.map .multivector)
  | .archive name optional _ archiveName archiveSchema resources =>
    (cppRead1 optional (fun _ => 0) none (cppOpen (subdir f name) archiveName archiveSchema resources)).map fun x => (name, x.map .archive)
end

end Model.Native
