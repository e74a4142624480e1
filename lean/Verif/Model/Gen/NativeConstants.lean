import Verif.Model.Gen.NativeClasses
import Verif.Model.Gen.Literals

/-!
# Model of the C++ and Rust generators: constants and optional fields

`templates/{cpp,rust}/constant.jinja2` and the uses of constants in `templates/{cpp,rust}/structure.jinja2`. This is the part of the generated
text that `Model/Gen/NativeClasses.lean` leaves out: of structures only the names of their optional fields and the constants are kept.
-/

namespace Gen

/-- field.py:51-55 `invalid_value`. -/
def Tree.invalidValue (f : Tree) : Option Tree := (f.childrenLike fun k => k = .ref .invalidValue).head?

/-! ## C++ -/

/-- `path_with("::")` of a node, node.py:78-91. -/
def doubleColons (p : Path) : Text := p.flatMap fun k => "::".toList ++ k

/-- cpp/structure.jinja2:15-20: `name` is a member of type `flatdata::Tagged< type, invalid >`. -/
structure CppTagged where
  name : Text
  type : Text
  invalid : Text
  deriving DecidableEq, Repr

/-- cpp/constant.jinja2: `enum : base { name = value };`, and the optional fields of a structure. -/
inductive CppConstDecl where
  | constant (scope : List Text) (name base : Text) (value : Int)
  | structure (scope : List Text) (name : Text) (tagged : List CppTagged)
  deriving DecidableEq, Repr

/-- cpp/structure.jinja2:15-16, one field. (`invalid_value.node` raises if the reference leads nowhere.) -/
def cppTagged (root f : Tree) : M (Option CppTagged) :=
  match f.invalidValue with
  | none => pure none
  | some ref => do
    let ty ← f.kind.fieldType
    let _ ← root.find ref.target
    pure (some ⟨f.name, cppBaseType (← ty.nameText), doubleColons ref.targetPath⟩)

/-- cpp/cpp.jinja2:12-25: what a node contributes. -/
def cppConstNode (root : Tree) (e : Path × Tree) : M (List CppConstDecl) :=
  match e.2.kind with
  | .structure _ => do
    let tagged ← e.2.fields.mapM (cppTagged root)
    pure [.structure (namespacesOf root e.1) e.2.name (tagged.filterMap id)]
  | .constant b v => pure [.constant (namespacesOf root e.1) e.2.name b.name.cppText v]
  | _ => pure []

/-- generators/__init__.py:38-66 `render` with the C++ template; the traversal takes at most `n` steps. -/
def cppConstHeaderN (root : Tree) (n : Nat) : Option (M (List CppConstDecl)) :=
  match Dfs.run (depChildren root) n (Dfs.init []) with
  | none => none
  | some (.error e) => some (.error e)
  | some (.ok events) => some (do pure (← (cppNodes root (dependencyOrder events)).mapM (cppConstNode root)).flatten)

/-- `render` with the C++ template ends: it writes these constants and uses of constants, or it raises. -/
def CppConstHeader (root : Tree) (out : M (List CppConstDecl)) : Prop := ∃ n, cppConstHeaderN root n = some out

/-! ## Rust -/

/-- `[A-Z]`. -/
def isUpperChar (c : Char) : Bool := 65 ≤ c.toNat ∧ c.toNat ≤ 90

/-- `[a-z]`. -/
def isLowerChar (c : Char) : Bool := 97 ≤ c.toNat ∧ c.toNat ≤ 122

/-- rust.py:45 `re.sub('(.)([A-Z][a-z]+)', r'\1_\2', expr)`. After a match (`inside`) the remaining lower-case letters belong to it. -/
def splitCamel : Bool → Text → Text
  | _, [] => []
  | inside, c :: t =>
    if inside && isLowerChar c then c :: splitCamel true t
    else match t with
      | x :: y :: t' => if isUpperChar x && isLowerChar y then c :: '_' :: x :: y :: splitCamel true t' else c :: splitCamel false (x :: y :: t')
      | [x] => [c, x]
      | [] => [c]

/-- `str.lower` on ASCII. -/
def lowerChar (c : Char) : Char := if isUpperChar c then Char.ofNat (c.toNat + 32) else c

/-- `str.upper` on ASCII. -/
def upperChar (c : Char) : Char := if isLowerChar c then Char.ofNat (c.toNat - 32) else c

/-- rust.py:44-46 `_camel_to_snake_case`. (The second substitution looks for the text `A-Z`, which no identifier contains.) -/
def camelToSnake (t : Text) : Text := (splitCamel false t).map lowerChar

/-- rust/constant.jinja2: `camel_to_snake_case | upper`. -/
def rustConstName (t : Text) : Text := (camelToSnake t).map upperChar

/-- rust/constant.jinja2: `pub const name: type = value;` in the module `scope`; and the optional fields of a structure with their
types and the paths of their constants, rust/structure.jinja2:97-101, :160-161. -/
inductive RustConstItem where
  | constant (scope : Path) (name type value : Text)
  | structure (scope : Path) (name : Text) (optional : List (Text × Text × Text))
  deriving DecidableEq, Repr

/-- rust/structure.jinja2:97-101, one field of the structure at `p`. -/
def rustOptional (root : Tree) (p : Path) (f : Tree) : M (Option (Text × Text × Text)) :=
  match f.invalidValue with
  | none => pure none
  | some ref => do
    let ty ← f.kind.fieldType
    let _ ← root.find ref.target
    pure (some (escapeRust f.name, ← rustFieldType root p f ty, rustQualified p ref.targetPath))

/-- rust/rust.jinja2:8-33: what the node at `p` contributes. -/
def rustConstNode (root : Tree) (e : Path × Tree) : M (List RustConstItem) :=
  match e.2.kind with
  | .structure _ => do
    let optional ← e.2.fields.mapM (rustOptional root e.1)
    pure [.structure e.1.dropLast e.2.name (optional.filterMap id)]
  | .constant b v => pure [.constant e.1.dropLast (rustConstName e.2.name) b.name.text (formatNumericLiteral v)]
  | _ => pure []

/-- rust/rust.jinja2, constants and their uses. -/
def rustConstProgram (root : Tree) : M (List RustConstItem) := do
  pure (← ((root.iter []).filter fun e => rustVisited root e.1).mapM (rustConstNode root)).flatten

end Gen
