import Verif.Props.Gen.Drawing
import Verif.Props.Gen.AgainSamples
import Verif.Props.Gen.Engine

/-!
# C108: drawings
-/

namespace Props
open Gen Spec

/-- No group lists a group. -/
def groupsCheck (t : Tree) : Bool :=
  (t.iter []).all fun e => !e.2.kind.isBoundResource || e.2.children.all fun ref => match t.descend ref.targetPath with
    | some m => !m.kind.isBoundResource
    | none => true

theorem groups_check {t : Tree} (hc : Compiled t) (h : groupsCheck t = true) : GroupsOfResources t := by
  intro p g ref m hp hg href hm hgm
  have := List.all_eq_true.mp h _ ((iter_descend hc.lk.good).mpr hp)
  simp only [isGroup_iff'.mpr hg, Bool.not_true, Bool.false_or] at this
  have := List.all_eq_true.mp this ref href
  simp only [hm, isGroup_iff'.mpr hgm, Bool.not_true] at this
  cases this

mutual
/-- The identifiers of subgraphs and nodes. -/
def dotIds : Dot → List Text
  | .cluster i _ inner => i :: dotIdsAll inner
  | .invisible i => [i]
  | .table i _ _ => [i]
def dotIdsAll : List Dot → List Text
  | [] => []
  | d :: ds => dotIds d ++ dotIdsAll ds
end

/-- What the generator draws for a source: identifiers of subgraphs and nodes, and edges. -/
def drawn (s : Text) : Option (List String × List (String × String × String × String)) :=
  match compileN s with
  | some (.ok t) => match drawingN t 3 500 with
    | some (.ok d) => some ((dotIdsAll d.graph).map String.ofList, d.edges.map fun e => (String.ofList e.table, String.ofList e.port, String.ofList e.node, String.ofList e.head))
    | _ => none
  | _ => none

theorem drawn_is {s : Text} {ids : List String} {edges : List (String × String × String × String)} (h : drawn s = some (ids, edges)) :
    ∃ t d, Compile s (.ok t) ∧ Draws t 3 (.ok d) ∧ (dotIdsAll d.graph).map String.ofList = ids ∧
      d.edges.map (fun e => (String.ofList e.table, String.ofList e.port, String.ofList e.node, String.ofList e.head)) = edges := by
  unfold drawn at h
  split at h
  · rename_i t ht
    split at h
    · rename_i d hd
      simp only [Option.some.injEq, Prod.mk.injEq] at h
      exact ⟨t, d, compileN_ok ht, ⟨500, hd⟩, h.1, h.2⟩
    · cases h
  · cases h

/-! ## A drawing -/

/-- The hypotheses of the theorem. -/
def drawable (s : Text) : Bool :=
  match compileN s with
  | some (.ok t) => flatCheck t && groupsCheck t
  | _ => false

theorem drawable_is {s : Text} (h : drawable s = true) : ∃ t, Compile s (.ok t) ∧ Flat t ∧ GroupsOfResources t := by
  unfold drawable at h
  split at h
  · rename_i t ht
    rw [Bool.and_eq_true] at h
    have hc := compile_compiled (compileN_ok ht)
    exact ⟨t, compileN_ok ht, flat_check hc h.1, groups_check hc h.2⟩
  · cases h

theorem drawableStore : drawable sourceStore = true := by decide +kernel

/-- The multivector `w` is shown in the group `b`, with the table generated for its index, and the edge leads to another archive. -/
theorem drawnStore : drawn sourceStore = some (["cluster__m", "cluster__n", "cluster__n_R", "cluster__n_R_v", "_n_R_v_n_S", "cluster__n_Q", "cluster__n_Q_r", "_n_Q_r",
    "cluster__n_Q_b", "_n_Q_b_n__builtin_multivector_IndexType33", "_n_Q_b_n_S", "_n_Q_b_n_S", "cluster__n_Other", "cluster__n_Other_d", "_n_Other_d",
    "cluster__n__builtin", "cluster__n__builtin_multivector"],
    [("_n_Q_b_n_S", "port__n_Q_b_n_S_f", "_n_R_v_n_S", "cluster__n_R_v")]) := by decide +kernel

attribute [local irreducible] sourceStore Compile in
/-- C108 (witness). The hypotheses hold for a schema with a group, an explicit reference and resources without types. -/
theorem C108_witness : ∃ t d, Compile sourceStore (.ok t) ∧ Flat t ∧ GroupsOfResources t ∧ Draws t 3 (.ok d) ∧ DrawingOf t d ∧ d.edges ≠ [] := by
  obtain ⟨t, h1, h2, h3⟩ := drawable_is drawableStore
  obtain ⟨d, h4, h5⟩ := C108_drawing h1 h2 h3 (depth := 3) (by decide)
  obtain ⟨t', d', e1, e2, _, e4⟩ := drawn_is drawnStore
  have := compile_unique h1 e1
  cases this
  have hdd := draws_unique h4 e2
  cases hdd
  refine ⟨t, d, h1, h2, h3, h4, h5, ?_⟩
  intro h
  rw [h] at e4
  cases e4

/-! ## Drawings that are wrong -/

def nestedGroups : Text := "namespace n { struct S { f : u32; }
@bound_implicitly(g: a)
@bound_implicitly(h: g)
archive A { @explicit_reference(S.f, d) a : vector< S >; d : raw_data; } }".toList

theorem drawnNested : drawn nestedGroups = some (["cluster__n", "cluster__n_A", "cluster__n_A_d", "_n_A_d", "cluster__n_A_h", "_n_A_h_n_S"],
    [("_n_A_g_n_S", "port__n_A_g_n_S_f", "_n_A_d", "cluster__n_A_d")]) := by decide +kernel

attribute [local irreducible] nestedGroups Compile in
/-- If a group lists a group, edges start at tables that are not drawn: this accepted source has an edge that starts at the table
`_n_A_g_n_S`. -/
theorem C108_counterexample_nested : ∃ t d, Compile nestedGroups (.ok t) ∧ Draws t 3 (.ok d) ∧
    (dotIdsAll d.graph).map String.ofList = ["cluster__n", "cluster__n_A", "cluster__n_A_d", "_n_A_d", "cluster__n_A_h", "_n_A_h_n_S"] ∧
    d.edges.map (fun e => String.ofList e.table) = ["_n_A_g_n_S"] := by
  obtain ⟨t, d, h1, h2, h3, h4⟩ := drawn_is drawnNested
  refine ⟨t, d, h1, h2, h3, ?_⟩
  have := congrArg (List.map Prod.fst) h4
  rw [List.map_map] at this
  exact this

def sameIds : Text := "namespace a { archive b_c { x : raw_data; } } namespace a.b { archive c { y : raw_data; } }".toList

theorem drawnSame : drawn sameIds = some (["cluster__a", "cluster__a_b_c", "cluster__a_b_c_x", "_a_b_c_x", "cluster__a_b", "cluster__a_b_c",
    "cluster__a_b_c_y", "_a_b_c_y"], []) := by decide +kernel

attribute [local irreducible] sameIds Compile in
/-- Identifiers of different archives can be equal: `a.b_c` and `a.b.c` are both drawn as `cluster__a_b_c`. -/
theorem C108_counterexample_ids : ∃ t d, Compile sameIds (.ok t) ∧ Draws t 3 (.ok d) ∧
    ((dotIdsAll d.graph).map String.ofList).count "cluster__a_b_c" = 2 := by
  obtain ⟨t, d, h1, h2, h3, _⟩ := drawn_is drawnSame
  exact ⟨t, d, h1, h2, by rw [h3]; decide⟩

def selfGroup : Text := "namespace n { struct S { f : u32; }
@bound_implicitly(g: a, g)
archive A { @explicit_reference(S.f, a) a : vector< S >; } }".toList

/-- An explicit reference leads to the resource `n.A.a`, which the group `n.A.g` lists, which also lists itself. -/
def selfCheck (t : Gen.Tree) : Bool :=
  match t.descend (pathOf "n.A.a"), t.descend (pathOf "n.A.g") with
  | some r, some g => r.kind.isResource && g.kind.isBoundResource &&
    (r.children.any fun e => decide (e.kind = .explicitReference) && (e.children.any fun x => decide (x.kind = .ref .structure)) &&
      (e.children.any fun x => decide (x.kind = .ref .field)) && e.children.any fun x => decide (x.kind = .ref .resource) && decide (x.targetPath = pathOf "n.A.a")) &&
    (g.children.any fun x => decide (x.kind = .ref .resource) && decide (x.target = pathText (pathOf "n.A.a"))) &&
    g.children.any fun x => decide (x.kind = .ref .resource) && decide (x.targetPath = pathOf "n.A.g")
  | _, _ => false

theorem self_check {s : Text} {t : Gen.Tree} (ht : Compile s (.ok t)) (h : selfCheck t = true) (depth : Nat) (d : Drawing) : ¬ Draws t depth (.ok d) := by
  unfold selfCheck at h
  split at h
  · rename_i r g hr hg
    simp only [Bool.and_eq_true, List.any_eq_true, decide_eq_true_eq] at h
    obtain ⟨⟨⟨⟨h1, h2⟩, e, he, ⟨⟨he1, xs, hxs, hxs2⟩, xf, hxf, hxf2⟩, xd, hxd, hxd2, hxd3⟩, ref, href, href2, href3⟩, self, hself, hself2, hself3⟩ := h
    obtain ⟨k, o, m, hk⟩ : ∃ k o m, r.kind = .resource k o m := by
      cases hk : r.kind with
      | resource k o m => exact ⟨k, o, m, rfl⟩
      | _ => rw [hk] at h1; cases h1
    have e1 : pathOf "n.A.g" = pathOf "n.A" ++ [['g']] := by decide
    have e2 : pathOf "n.A.a" = pathOf "n.A" ++ [['a']] := by decide
    have hg' := hg
    rw [e1] at hg'
    obtain ⟨ar, ha, hm, hname⟩ := descend_parent hg'
    refine C108_no_drawing ht (p := pathOf "n.A.a") (q := pathOf "n.A.g") (x := pathOf "n.A.a") ⟨r, k, o, m, e, hr, hk, he, he1, ⟨xs, hxs, hxs2, rfl⟩, ⟨xf, hxf, hxf2, rfl⟩, xd, hxd, .inl hxd2, hxd3⟩
      (.inl ⟨_, _, ar, g, ref, e2, by rw [e1, hname], ha, hm, isGroup_iff'.mp h2, href, .inl href2, href3⟩) hg (isGroup_iff'.mp h2) hself hself2 hself3
  · cases h

theorem selfGroup_check : (match compileN selfGroup with
  | some (.ok t) => selfCheck t
  | _ => false) = true := by decide +kernel

attribute [local irreducible] selfGroup Compile in
/-- The group `g` lists itself: this accepted source cannot be drawn. -/
theorem C108_counterexample_self : ∃ t, Compile selfGroup (.ok t) ∧ ∀ depth d, ¬ Draws t depth (.ok d) := by
  have h := selfGroup_check
  split at h
  · rename_i t ht
    exact ⟨t, compileN_ok ht, fun depth d => self_check (compileN_ok ht) h depth d⟩
  · cases h

mutual
/-- Names and types of all rows. -/
def dotRowsOf : Dot → List (String × String)
  | .cluster _ _ inner => dotRowsOfAll inner
  | .invisible _ => []
  | .table _ _ rows => rows.map fun r => (String.ofList r.name, String.ofList r.type)
def dotRowsOfAll : List Dot → List (String × String)
  | [] => []
  | d :: ds => dotRowsOf d ++ dotRowsOfAll ds
end

def typeLabels : Text := "namespace nx { enum F : u8 : 1 { A, B } } namespace m { enum G : u8 : 1 { A, B } }
namespace n { enum E : u8 : 1 { A, B } struct S { f : .nx.F; g : E; h : .m.G; i : u8; } archive R { s : S; } }".toList

def labels (s : Text) : Option (List (String × String)) :=
  match compileN s with
  | some (.ok t) => match drawingN t 3 500 with
    | some (.ok d) => some (dotRowsOfAll d.graph)
    | _ => none
  | _ => none

/-- The namespace of a structure is cut off the names of types as a text: in the namespace `n` the type `nx.F` is labelled `x.F`. -/
theorem C108_counterexample_labels : labels typeLabels = some [("f", "x.F"), ("g", "E"), ("h", "m.G"), ("i", "u8")] := by decide +kernel

end Props
