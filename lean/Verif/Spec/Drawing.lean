import Verif.Model.Gen.Drawing

/-!
# What a drawing of a schema shows
-/

namespace Spec
open Gen

/-- Names joined by underscores, with one in front. -/
def idText (p : Path) : Text := p.flatMap fun n => '_' :: n

/-- `x` occurs in a graph at some depth. -/
inductive Occurs : List Dot → Dot → Prop
  | here {l x} : x ∈ l → Occurs l x
  | inside {l i lab inner x} : Dot.cluster i lab inner ∈ l → Occurs inner x → Occurs l x

/-- The node `g` is a group of bound resources. -/
def IsGroup (g : Tree) : Prop := ∃ o m, g.kind = .resource .bound o m

/-- The group at `q` is in the archive of the resource at `p`, and lists this resource. -/
def GroupOf (t : Tree) (p q : Path) : Prop :=
  ∃ a k ar g ref, p = a ++ [k] ∧ q = a ++ [g.name] ∧ t.descend a = some ar ∧ g ∈ ar.children ∧ IsGroup g ∧
    ref ∈ g.children ∧ (ref.kind = .ref .resource ∨ ref.kind = .ref .vector) ∧ ref.target = pathText p

/-- The resource at `p` is shown at `q`: in the groups that list it, or by itself if there are none. -/
def ShownAt (t : Tree) (p q : Path) : Prop := GroupOf t p q ∨ q = p ∧ ∀ g, ¬ GroupOf t p g

/-- No group lists a group. -/
def GroupsOfResources (t : Tree) : Prop :=
  ∀ p g ref m, t.descend p = some g → IsGroup g → ref ∈ g.children → t.descend ref.targetPath = some m → ¬ IsGroup m

/-- The types of a resource that is not a group: paths of structures, with those generated for it first. -/
def typesOf (r : Tree) : List Path :=
  ((r.children.filter fun c => c.kind = .ref .builtinStructure) ++ r.children.filter fun c => c.kind = .ref .structure).map Tree.targetPath

/-- The types shown for a node: those of the resource, or those of the listed resources one after the other. -/
inductive TypesShown (t : Tree) (r : Tree) : List Path → Prop
  | single : ¬ IsGroup r → TypesShown t r (typesOf r)
  | group {ms : List Tree} : IsGroup r →
      List.Forall₂ (fun ref m => t.descend ref.targetPath = some m) (r.children.filter fun c => c.kind = .ref .resource) ms →
      TypesShown t r (ms.flatMap typesOf)

/-- The label of the type at `q` in the table of the structure at `s`: without the namespace of the structure if it is in there, and
with all its namespaces if its name does not begin, as a text, with the name of this namespace. -/
structure TypeLabel (s q : Path) (label : Text) : Prop where
  near : ∀ rest, q = s.dropLast ++ rest → '.' :: label = pathText rest
  far : ¬ pathText s.dropLast <+: pathText q → '.' :: label = pathText q

/-- The row of the field `f` of the structure at `s`, in the table for the resource at `p`. -/
structure RowOf (t : Tree) (p s : Path) (f : Tree) (row : DotRow) : Prop where
  port : row.port = "port_".toList ++ idText p ++ idText s ++ '_' :: f.name
  name : row.name = f.name
  type : ∃ ty rg o, f.kind = .field ty rg o ∧
    ((∃ b, ty = .basic b ∧ row.type = b.name.text ∧ row.width = b.width) ∨
      ∃ n b ref m, ty = .enum n b ∧ ref ∈ f.children ∧ t.descend ref.targetPath = some m ∧ m.kind = .enumeration b ∧
        TypeLabel s ref.targetPath row.type ∧ row.width = b.width)

/-- The table of the structure at `s` for the resource at `p`: a row for every field. -/
def TableOf (t : Tree) (p s : Path) (x : Dot) : Prop :=
  ∃ n sz rows, t.descend s = some n ∧ n.kind = .structure sz ∧ x = .table (idText p ++ idText s) n.name rows ∧
    List.Forall₂ (RowOf t p s) (n.children.filter fun c => c.kind.isField) rows

def clusterId (p : Path) : Text := "cluster_".toList ++ idText p

/-- The label of a resource: name, class and whether it is optional. -/
def resourceLabel (r : Tree) : List Text :=
  match r.kind with
  | .resource k o _ => [r.name, match k with
      | .vector => "Vector".toList
      | .multivector _ => "Multivector".toList
      | .instance => "Instance".toList
      | .rawData => "RawData".toList
      | .archive => "Archive".toList
      | .bound => "BoundResource".toList] ++ if o then ["optional".toList] else []
  | _ => []

/-- The explicit reference `e` of the resource at `p` leads from the field at `f` of the structure at `s` to the resource
at `d`. -/
structure ExplicitAt (t : Tree) (p s f d : Path) : Prop where
  is : ∃ r k o m e, t.descend p = some r ∧ r.kind = .resource k o m ∧ e ∈ r.children ∧ e.kind = .explicitReference ∧
    (∃ x ∈ e.children, x.kind = .ref .structure ∧ x.targetPath = s) ∧ (∃ x ∈ e.children, x.kind = .ref .field ∧ x.targetPath = f) ∧
    ∃ x ∈ e.children, (x.kind = .ref .resource ∨ x.kind = .ref .vector) ∧ x.targetPath = d

/-- The edge from the field at `f` of the structure at `s`, as shown at `o`, to what is shown at `q`: to its first table, or to an
invisible node if it has none. -/
structure EdgeOf (t : Tree) (s f o q : Path) (e : DotEdge) : Prop where
  table : e.table = idText o ++ idText s
  port : e.port = "port_".toList ++ idText o ++ idText f
  head : e.head = clusterId q
  node : ∃ g types, t.descend q = some g ∧ TypesShown t g types ∧ e.node = idText q ++ idText (types.headD [])

/-- The drawing shows the schema. -/
structure DrawingOf (t : Tree) (d : Drawing) : Prop where
  /-- Namespaces and archives. -/
  scopes : ∀ p n, t.descend p = some n → n.kind = .namespace ∨ n.kind = .archive → ∃ inner, Occurs d.graph (.cluster (clusterId p) [n.name] inner)
  /-- Groups, and resources in no group, in the subgraph of their archive: a table for every type, or an invisible node. -/
  resources : ∀ a ar r k o m, t.descend a = some ar → r ∈ ar.children → r.kind = .resource k o m → (∀ g, ¬ GroupOf t (a ++ [r.name]) g) →
    ∃ outer types nodes rest, Occurs d.graph (.cluster (clusterId a) [ar.name] outer) ∧
      Dot.cluster (clusterId (a ++ [r.name])) (resourceLabel r) (nodes ++ rest) ∈ outer ∧
      TypesShown t r types ∧ (types = [] → nodes = [.invisible (idText (a ++ [r.name]))]) ∧
      (types ≠ [] → List.Forall₂ (TableOf t (a ++ [r.name])) types nodes)
  /-- Nothing else. -/
  only : ∀ i lab inner, Occurs d.graph (.cluster i lab inner) → ∃ p n, t.descend p = some n ∧ i = clusterId p ∧
    (((n.kind = .namespace ∨ n.kind = .archive) ∧ lab = [n.name]) ∨
      (∃ k o m, n.kind = .resource k o m) ∧ (∀ g, ¬ GroupOf t p g) ∧ lab = resourceLabel n)
  /-- An edge for every explicit reference, every place where its resource is shown, and every place where the resource to which
  it refers is shown. -/
  edges : ∀ e, e ∈ d.edges ↔ ∃ p s f x o q, ExplicitAt t p s f x ∧ ShownAt t p o ∧ ShownAt t x q ∧ EdgeOf t s f o q e
  /-- Edges start at a row that is drawn. -/
  starts : ∀ e ∈ d.edges, ∃ title rows, Occurs d.graph (.table e.table title rows) ∧ ∃ row ∈ rows, row.port = e.port
  /-- Edges end at a node that is drawn in the subgraph to which the edge is clipped. -/
  ends : ∀ e ∈ d.edges, ∃ label inner, Occurs d.graph (.cluster e.head label inner) ∧
    ∃ x ∈ inner, x = .invisible e.node ∨ ∃ title rows, x = .table e.node title rows

end Spec
