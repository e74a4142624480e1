import Verif.Model.Gen.Schema
import Verif.Model.Gen.Bound

/-!
# Model of the dot generator: `generators/dot.py` and `templates/dot/*.jinja2`

The graph description is modelled by what the templates put into it: nested subgraphs, nodes, edges. Colours, fonts and other
constant attributes are left out.
-/

namespace Gen

/-- node.py:87-91 `path_with("_")`. -/
def pathWith (p : Path) : Text := (pathText p).map fun c => if c = '.' then '_' else c

/-- dot/structure.jinja2:11-17: the row of a field. -/
structure DotRow where
  port : Text
  name : Text
  type : Text
  width : Nat
  deriving DecidableEq, Repr

/-- The contents of subgraphs. The second argument of a cluster are the lines of its label. -/
inductive Dot where
  | cluster (id : Text) (label : List Text) (inner : List Dot)
  | invisible (id : Text)
  | table (id : Text) (title : Text) (rows : List DotRow)

/-- dot/references.jinja2:10: `table:port -> node [lhead=head]`. -/
structure DotEdge where
  table : Text
  port : Text
  node : Text
  head : Text
  deriving DecidableEq, Repr

structure Drawing where
  graph : List Dot
  edges : List DotEdge

/-- `resource.__class__.__name__`. -/
def ResKind.className : ResKind → Text
  | .vector => "Vector".toList
  | .multivector _ => "Multivector".toList
  | .instance => "Instance".toList
  | .rawData => "RawData".toList
  | .archive => "Archive".toList
  | .bound => "BoundResource".toList

/-- `text[len(prefix):] if text.startswith(prefix) else text`. -/
def withoutPrefix (pre text : Text) : Text := if pre.isPrefixOf text then text.drop pre.length else text

/-- dot.py:23-31 `_field_value_type` of the field at `p`. -/
def dotTypeLabel (p : Path) (typeName : Text) : Text :=
  withoutPrefix ['.'] (withoutPrefix (pathText p.dropLast.dropLast) (fieldTypeText typeName))

/-- dot/structure.jinja2:11-17: the row of the field `f` of the structure at `s`, for the resource at `p`. -/
def dotRow (p s : Path) (f : Tree) : M DotRow :=
  match f.kind with
  | .field ty _ _ => do
    let name ← ty.nameText
    let width ← ty.width
    pure ⟨"port_".toList ++ (pathWith p ++ pathWith (s ++ [f.name])), f.name, dotTypeLabel (s ++ [f.name]) name, width⟩
  | _ => throw .attributeError

/-- dot/structure.jinja2 `render`: the table of the structure to which `ref` refers, for the resource at `p`. -/
def dotTable (root : Tree) (p : Path) (ref : Tree) : M Dot := do
  let n ← root.find ref.target
  let rows ← n.fields.mapM (dotRow p ref.targetPath)
  pure (.table (pathWith p ++ pathWith ref.targetPath) n.name rows)

/-- base.py:40-42 and bound_resource.py:21-24 `referenced_structures`. If groups are nested more than `depth` times Python raises a
`RecursionError`, which is a `RuntimeError`. -/
def structuresOf (root : Tree) : Nat → Tree → M (List Tree)
  | 0, _ => throw .runtimeError
  | depth + 1, r =>
    if r.kind.isBoundResource then do
      let parts ← (r.childrenLike Kind.isResourceReference).mapM fun ref => do structuresOf root depth (← root.find ref.target)
      pure parts.flatten
    else pure (referencedStructures r)

/-- dot/resource.jinja2:7: the lines of the label of a resource. -/
def dotLabel (n : Text) (k : ResKind) (o : Bool) : List Text := [n, k.className] ++ if o then ["optional".toList] else []

mutual
/-- dot/render.jinja2 `_render_node_recursive` (with namespace.jinja2, archive.jinja2 and resource.jinja2) for the node at `p`. -/
def drawNode (root : Tree) (depth : Nat) (p : Path) : Tree → M (List Dot)
  | .mk n k cs =>
    match k with
    | .namespace => do pure [.cluster ("cluster_".toList ++ pathWith p) [n] (← drawNodes root depth p cs)]
    | .archive => do pure [.cluster ("cluster_".toList ++ pathWith p) [n] (← drawNodes root depth p cs)]
    | .resource rk o m => do
      if ← isBoundImplicitly root p then drawNodes root depth p cs
      else do
        let refs ← structuresOf root depth (.mk n (.resource rk o m) cs)
        let tables ← refs.mapM (dotTable root p)
        let nodes := if refs = [] then [Dot.invisible (pathWith p)] else tables
        pure [.cluster ("cluster_".toList ++ pathWith p) (dotLabel n rk o) (nodes ++ (← drawNodes root depth p cs))]
    | _ => drawNodes root depth p cs
/-- dot/render.jinja2: the loop over the children. -/
def drawNodes (root : Tree) (depth : Nat) (p : Path) : List Tree → M (List Dot)
  | [] => pure []
  | c :: cs => do pure ((← drawNode root depth (p ++ [c.name]) c) ++ (← drawNodes root depth p cs))
end

/-- dot/references.jinja2 `_render_edge`, for the explicit reference of the field at `f` of the structure at `s`. -/
def dotEdge (root : Tree) (depth : Nat) (s f origin destination : Path) : M DotEdge := do
  let d ← root.find (pathText destination)
  let refs ← structuresOf root depth d
  let node ← match refs with
    | [] => pure (pathWith destination)
    | ref :: _ => do pure (pathWith destination ++ pathWith (← refPath root ref))
  pure ⟨pathWith origin ++ pathWith s, "port_".toList ++ (pathWith origin ++ pathWith f), node, "cluster_".toList ++ pathWith destination⟩

/-- dot/references.jinja2 `_render_explicit_reference`, for an explicit reference of the resource at `p`. -/
def dotReference (root : Tree) (depth : Nat) (p : Path) (e : Tree) : M (List DotEdge) := do
  let s ← refPath root (← e.onlyChild fun k => k = .ref .structure)
  let f ← refPath root (← e.onlyChild fun k => k = .ref .field)
  let d ← refPath root (← e.onlyChild Kind.isResourceReference)
  let origins ← bindingResourcesOrSelf root p
  let destinations ← bindingResourcesOrSelf root d
  let edges ← origins.mapM fun o => destinations.mapM (dotEdge root depth s f o)
  pure edges.flatten

/-- dot/references.jinja2 `render_explicit_references`, for the archive at `p`. -/
def dotArchive (root : Tree) (depth : Nat) (p : Path) : M (List DotEdge) :=
  match root.descend p with
  | none => pure []
  | some n => do
    let edges ← (n.childrenLike Kind.isResource).mapM fun r => do
      let edges ← (r.childrenLike fun k => k = .explicitReference).mapM (dotReference root depth (p ++ [r.name]))
      pure edges.flatten
    pure edges.flatten

/-- dot.py:36-37 `supported_nodes` and generators/__init__.py:64-65: archives in dependency order. -/
def dotArchives (root : Tree) (order : List Path) : List Path :=
  order.filter fun p => match root.descend p with
    | some n => n.kind = .archive
    | none => false

/-- generators/__init__.py:38-66 `render` with dot/dot.jinja2; the traversal takes at most `n` steps. -/
def drawingN (root : Tree) (depth n : Nat) : Option (M Drawing) :=
  match Dfs.run (depChildren root) n (Dfs.init []) with
  | none => none
  | some (.error e) => some (.error e)
  | some (.ok events) => some (do
    let graph ← drawNode root depth [] root
    let edges ← (dotArchives root (dependencyOrder events)).mapM (dotArchive root depth)
    pure ⟨graph, edges.flatten⟩)

/-- The dot generator ends: it writes this drawing, or it raises. -/
def Draws (root : Tree) (depth : Nat) (out : M Drawing) : Prop := ∃ n, drawingN root depth n = some out

end Gen
