import Verif.Spec.Enumeration
import Verif.Spec.Resolve

/-!
# What the definitions of a schema say about the compiled tree

`t` is the compiled tree. A reference written as a text in the definition at `p` has to point to what the text means there
(`Means`). Computed attributes (offsets, sizes, maximal sizes) are the subject of other properties.
-/

namespace Spec
open Gen

/-- The declared members of a node: its children without namespaces nested in its path, the references of multivectors to
their index types, and the references to otherwise unreferenced constants, which the compiler adds to archives. -/
def members (n : Tree) : List Tree := n.children.filter fun c =>
  ¬ (c.kind = .namespace ∨ c.kind = .ref .builtinStructure ∨ n.kind = .archive ∧ c.kind = .ref .constantValue)

/-- The node `r` is a reference of the class `d.1` to what the text `d.2` means at `p`, and that is of the right class. -/
structure RefersAs (t : Tree) (p : Path) (d : RefKind × Text) (r : Tree) : Prop where
  kind : r.kind = .ref d.1
  target : ∃ q m, Means t p d.2 q ∧ r.target = pathText q ∧ t.descend q = some m ∧ KindFits d.1 m.kind

/-- `@const` and `@optional` in the order they are written. -/
def decorationRefs (f : PField) : List (RefKind × Text) := f.decorations.filterMap fun
  | .range _ => none
  | .constRef n => some (.constantValue, n)
  | .invalidValue n => some (.invalidValue, n)

/-- The first `@range`. -/
def declaredRange (f : PField) : Option Text := f.decorations.findSome? fun
  | .range n => some n
  | _ => none

/-- The type of a declared field, and the reference it needs: either a basic type, whose width is the declared one and
otherwise the natural one, or an enumeration, whose width has to agree with a declared one unless that is zero. -/
inductive TypeAs (t : Tree) (p : Path) (f : PField) : FieldType → List (RefKind × Text) → Prop
  | basic {b : BasicName} (hb : b.text = f.type) (hw : f.width.getD b.width ≤ b.width) :
      TypeAs t p f (.basic ⟨b, f.width.getD b.width⟩) []
  | enumeration {q : Path} {m : Tree} {bt : BasicType} {n : Text} (hb : ∀ b : BasicName, b.text ≠ f.type)
      (hq : Means t p f.type q) (hm : t.descend q = some m) (hk : m.kind = .enumeration bt) (hn : dereferencify n = pathText q)
      (hw : ∀ w, f.width = some w → w ≠ 0 → w = bt.width) : TypeAs t p f (.enum n bt) [(.enumeration f.width, f.type)]

/-- The node `c` below the structure at `p` is the declared field. -/
structure FieldAs (t : Tree) (p : Path) (f : PField) (c : Tree) : Prop where
  name : c.name = f.name
  is : ∃ ty off refs, c.kind = .field ty (declaredRange f) off ∧ TypeAs t (p ++ [f.name]) f ty refs ∧
    List.Forall₂ (RefersAs t (p ++ [f.name])) (decorationRefs f ++ refs) (members c)

/-- The node `n` at `p` is the declared structure: its members are the declared fields in order. -/
structure StructAs (t : Tree) (p : Path) (s : PStruct) (n : Tree) : Prop where
  name : n.name = s.name
  kind : ∃ size, n.kind = .structure size
  fields : List.Forall₂ (FieldAs t p) s.fields (members n)

/-- The node is the declared constant, which fits its type. -/
structure ConstantAs (c : PConstant) (n : Tree) : Prop where
  name : n.name = c.name
  kind : n.kind = .constant ⟨c.type, c.type.width⟩ c.value
  fits : InRange c.type.width c.type.isSigned c.value
  members : members n = []

/-- The node is the declared enumeration: its members are the declared enumerators with the values of the assignment in
the order of declaration, and then generated ones, so that every value of the type has exactly one enumerator. -/
structure EnumAs (e : PEnum) (n : Tree) : Prop where
  name : n.name = e.name
  kind : n.kind = .enumeration ⟨e.type, e.width.getD e.type.width⟩
  fits : e.width.getD e.type.width ≤ e.type.width
  declared : ∀ vals, Assignment e.values vals → ∃ gen : List Int,
    (members n).map (fun c => (c.name, c.kind)) =
      ((e.values.map (·.1)).zip vals).map (fun x => (x.1, Kind.enumValue x.2 false)) ++
        gen.map (fun v => (generatedName v, Kind.enumValue v true)) ∧
    (vals ++ gen).Nodup ∧ ∀ v, v ∈ vals ++ gen ↔ InRange (e.width.getD e.type.width) e.type.isSigned v

/-- The container class of a resource. -/
inductive ContainerAs : PResType → ResKind → List (RefKind × Text) → Prop
  | vector {s} : ContainerAs (.vector s) .vector [(.structure, s)]
  | multivector {w ss} : ContainerAs (.multivector w ss) (.multivector w) (ss.map fun s => (.structure, s))
  | object {s} : ContainerAs (.object s) .instance [(.structure, s)]
  | rawData : ContainerAs .rawData .rawData []
  | archive {a} : ContainerAs (.archive a) .archive [(.archive, a)]

/-- The node `c` below the resource at `p` is an explicit reference from the field `f` of the structure `s` to the resource
`d`. -/
structure ExplicitAs (t : Tree) (p : Path) (x : Text × Text × Text) (c : Tree) : Prop where
  kind : c.kind = .explicitReference
  refs : List.Forall₂ (RefersAs t (p ++ [c.name]))
    [(.resource, x.2.2), (.field, x.1 ++ '.' :: x.2.1), (.structure, x.1)] (members c)

/-- The explicit references of a resource in the order they are written. -/
def explicitReferences (r : PResource) : List (Text × Text × Text) := r.decorations.filterMap fun
  | .optional => none
  | .explicitReference s f d => some (s, f, d)

/-- The node `c` below the archive at `p` is the declared resource. -/
structure ResourceAs (t : Tree) (p : Path) (r : PResource) (c : Tree) : Prop where
  name : c.name = r.name
  is : ∃ k max refs es rs, ContainerAs r.type k refs ∧ c.kind = .resource k (.optional ∈ r.decorations) max ∧
    members c = es ++ rs ∧ List.Forall₂ (ExplicitAs t (p ++ [r.name])) (explicitReferences r) es ∧
    List.Forall₂ (RefersAs t (p ++ [r.name])) refs rs

/-- The node `c` below the archive at `p` is the declared group of implicitly bound resources. -/
structure BoundAs (t : Tree) (p : Path) (g : Text × List Text) (c : Tree) : Prop where
  name : c.name = g.1
  kind : ∃ max, c.kind = .resource .bound false max
  members : List.Forall₂ (RefersAs t (p ++ [g.1])) (g.2.map fun r => (.resource, r)) (members c)

/-- The node `n` at `p` is the declared archive: its members are the declared resources and the bound groups in order. -/
structure ArchiveAs (t : Tree) (p : Path) (a : PArchive) (n : Tree) : Prop where
  name : n.name = a.name
  kind : n.kind = .archive
  resources : ∃ rs gs, members n = rs ++ gs ∧ List.Forall₂ (ResourceAs t p) a.resources rs ∧
    List.Forall₂ (BoundAs t p) a.bounds gs

/-- The schema declares something at `p`. -/
def DeclaredAt (blocks : List PBlock) (p : Path) : Prop :=
  ∃ b ∈ blocks, ∃ name ∈ b.constants.map (·.name) ++ b.enumerations.map (·.name) ++ b.structures.map (·.name) ++ b.archives.map (·.name),
    p = splitDot b.name ++ [name]

end Spec
