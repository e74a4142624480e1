import Verif.Props.Gen.NativeReads
import Verif.Props.Gen.PythonSamples
import Verif.Props.Gen.NativeSamples

/-!
# C98: a concrete schema, and what the theorems exclude
-/

namespace Props
open Py Gen Spec Model Model.Native _root_.Native

/-! ## Checks -/

/-- A check for `RustArchivesNameable`. -/
def rustArchivesCheck (t : Tree) : Bool :=
  (t.descend ["super".toList]).isNone && (t.iter []).all fun e => match e.2.kind with
    | .namespace => decide ("schema".toList :: e.2.children.flatMap moduleNames).Nodup &&
        e.2.children.all fun a => e.2.children.all fun b => decide (a.kind ≠ .archive ∨ b.kind ≠ .archive ∨ camelToSnake a.name ≠ camelToSnake b.name ∨ a.name = b.name)
    | .archive => (resourcesOf e.2).all fun a => (resourcesOf e.2).all fun b => decide (upperName a.name ≠ upperName b.name ∨ a.name = b.name)
    | .resource (.multivector _) _ _ => decide ((childrenOf e.2 (.ref .structure)).map fun ref => camelToSnake (ref.targetPath.getLastD [])).Nodup
    | _ => true

theorem same_child {t : Tree} (hc : Compiled t) {p : Path} {n a b : Tree} (hn : t.descend p = some n) (ha : a ∈ n.children) (hb : b ∈ n.children)
    (he : a.name = b.name) : a = b := by
  have : b ∈ n.children.filter fun d => d.name = a.name := List.mem_filter.mpr ⟨hb, by simp [he]⟩
  rw [hc.uniqueChild hn ha, List.mem_singleton] at this
  exact this.symm

theorem rust_archives_check {t : Tree} (hc : Compiled t) (h : rustArchivesCheck t = true) : RustArchivesNameable t := by
  unfold rustArchivesCheck at h
  rw [Bool.and_eq_true] at h
  obtain ⟨h0, h⟩ := h
  have key := fun q m (hm : t.descend q = some m) => List.all_eq_true.mp h (q, m) ((iter_descend hc.lk.good).mpr hm)
  refine ⟨?_, ?_, ?_, ?_, ?_⟩
  · intro n hn
    rw [hn] at h0; cases h0
  · intro p n hn hk
    have := key p n hn
    simp only [hk, Bool.and_eq_true, decide_eq_true_eq] at this
    exact this.1
  · intro p n hn hk a ha b hb hka hkb he
    have := key p n hn
    simp only [hk, Bool.and_eq_true] at this
    have := of_decide_eq_true (List.all_eq_true.mp (List.all_eq_true.mp this.2 a ha) b hb)
    refine same_child hc hn ha hb ?_
    rcases this with h1 | h1 | h1 | h1
    · exact absurd hka h1
    · exact absurd hkb h1
    · exact absurd he h1
    · exact h1
  · intro p n hn hk a ha b hb he
    have := key p n hn
    simp only [hk] at this
    have := of_decide_eq_true (List.all_eq_true.mp (List.all_eq_true.mp this a ha) b hb)
    exact same_child hc hn (List.mem_filter.mp ha).1 (List.mem_filter.mp hb).1 (this.resolve_left fun h1 => h1 he)
  · intro q r w o m hq hk
    have := key q r hq
    simp only [hk] at this
    exact of_decide_eq_true this

/-- The program of a tree (the number bounds the steps of the traversals). -/
def rustProgramOf (t : Tree) : List RustDecl :=
  match rustArchivesN t 500 with
  | some (.ok m) => m
  | _ => []

theorem rustProgramOf_ok {t : Tree} (h : rustProgramOf t ≠ []) : RustArchives t (.ok (rustProgramOf t)) := by
  refine ⟨500, ?_⟩
  unfold rustProgramOf at h ⊢
  cases hs : rustArchivesN t 500 with
  | none => rw [hs] at h; exact absurd rfl h
  | some o =>
    cases o with
    | error e => rw [hs] at h; exact absurd rfl h
    | ok x => rfl

/-- The program without the texts of schemas. -/
def withoutSchemas (l : List RustDecl) : List RustDecl := l.map fun
  | .constant scope name _ => .constant scope name []
  | d => d

/-! ## A schema -/

def sourceR : Text := "namespace a { struct Point { x : i32; y : i32; } struct Edge { @range(points) first : u32; } }
namespace n.m { struct PointA { z : u8 : 3; }
archive Sub { @optional raw : raw_data; }
archive BigGraph {
points : vector< .a.Point >; edges : vector< .a.Edge >; head : .a.Point;
@optional attributes : multivector< 33, PointA, .a.Point >; @optional sub : archive Sub; } }".toList

def blocksR : List PBlock :=
  [{ name := "a".toList, constants := [], enumerations := [], archives := []
     structures := [⟨"Point".toList, [⟨"x".toList, [], "i32".toList, none⟩, ⟨"y".toList, [], "i32".toList, none⟩]⟩,
       ⟨"Edge".toList, [⟨"first".toList, [.range "points".toList], "u32".toList, none⟩]⟩] },
   { name := "n.m".toList, constants := [], enumerations := []
     structures := [⟨"PointA".toList, [⟨"z".toList, [], "u8".toList, some 3⟩]⟩]
     archives := [⟨"Sub".toList, [], [⟨"raw".toList, [.optional], .rawData⟩]⟩,
       ⟨"BigGraph".toList, [], [⟨"points".toList, [], .vector ".a.Point".toList⟩, ⟨"edges".toList, [], .vector ".a.Edge".toList⟩,
         ⟨"head".toList, [], .object ".a.Point".toList⟩, ⟨"attributes".toList, [.optional], .multivector 33 ["PointA".toList, ".a.Point".toList]⟩,
         ⟨"sub".toList, [.optional], .archive "Sub".toList⟩]⟩] }]

theorem sourceR_parses : parsesTo sourceR blocksR = true := by decide +kernel
theorem blocksR_ok : accepted blocksR = true := by decide +kernel
theorem checksR : (flatCheck (treeOf blocksR) && builtinCheck (treeOf blocksR) && rustArchivesCheck (treeOf blocksR) &&
    lettersCheck (treeOf blocksR) && classesCheck (treeOf blocksR) && resourcesCheck (treeOf blocksR)) = true := by decide +kernel

/-- What is written for the archive `BigGraph`: its resources with the types as they are written in the module `n::m`. -/
def bigGraph : List RustResourceText :=
  let schema := fun name => "schema::big_graph::resources::".toList ++ name
  [⟨"points".toList, .vector "super::super::a::Point".toList, schema "POINTS".toList, false, none⟩,
   ⟨"edges".toList, .vector "super::super::a::Edge".toList, schema "EDGES".toList, false, none⟩,
   ⟨"head".toList, .instance "super::super::a::Point".toList, schema "HEAD".toList, false, none⟩,
   ⟨"attributes".toList, .multivector "super::super::n::m::_builtin::multivector::IndexType33".toList "Attributes".toList
      [("PointA".toList, "add_pointa".toList, "super::super::n::m::PointA".toList), ("Point".toList, "add_point".toList, "super::super::a::Point".toList)],
      schema "ATTRIBUTES".toList, true, none⟩,
   ⟨"sub".toList, .archive "super::super::n::m::Sub".toList, schema "SUB".toList, true, none⟩]

/-- Values of the functions that look up things, in the program of the sample schema. -/
def lookupsR (prog : List RustDecl) : Bool :=
  rustArchiveAt prog (pathOf "n.m.BigGraph") = some ("BigGraph".toList, "schema::big_graph::BIG_GRAPH".toList, bigGraph) &&
  rustStructNamed prog (pathOf "n.m") "super::super::a::Edge".toList = some (4, [("points".toList, 0, 32)], false) &&
  rustPlainSize prog (pathOf "n.m") "super::super::a::Edge".toList = none &&
  rustPlainSize prog (pathOf "n.m") "super::super::a::Point".toList = some 8 &&
  rustIndexWidth prog (pathOf "n.m") "super::super::n::m::_builtin::multivector::IndexType33".toList = some 33 &&
  (rustConstantNamed prog (pathOf "n.m") "schema::big_graph::resources::HEAD".toList).isSome &&
  rustConstantNamed prog (pathOf "n.m") "schema::big_graph::resources::FOOT".toList = none

theorem lookupsR_ok : lookupsR (rustProgramOf (treeOf blocksR)) = true := by decide +kernel

def widthsCheck (t : Tree) : Bool := (t.iter []).all fun e => match e.2.kind with
  | .resource (.multivector 0) _ _ => false
  | _ => true

theorem widths_check {t : Tree} (hc : Compiled t) (h : widthsCheck t = true) : ∀ q r o m, t.descend q = some r → r.kind ≠ .resource (.multivector 0) o m := by
  intro q r o m hq hk
  have := List.all_eq_true.mp h (q, r) ((iter_descend hc.lk.good).mpr hq)
  simp only [hk] at this
  cases this

theorem widthsR : widthsCheck (treeOf blocksR) = true := by decide +kernel
theorem builtinR : ∀ b ∈ blocksR, NoBuiltinEnd (splitDot b.name) := by unfold NoBuiltinEnd; decide +kernel

theorem parses_to {s : Text} {blocks : List PBlock} (hp : parsesTo s blocks = true) : parseSource s = .ok blocks := by
  unfold parsesTo at hp
  cases h : parseSource s with
  | error e => rw [h] at hp; cases hp
  | ok b => rw [h] at hp; simp only [decide_eq_true_eq] at hp; rw [hp]

attribute [local irreducible] Compile in
/-- The hypotheses of C98 hold of this schema, and its program is as described above. -/
theorem C98_witness : ∃ blocks t, parseSource sourceR = .ok blocks ∧ Compile sourceR (.ok t) ∧ Flat t ∧ NoBuiltin t ∧
    (∀ b ∈ blocks, NoBuiltinEnd (splitDot b.name)) ∧ RustArchivesNameable t ∧ Importable t ∧
    (∀ q r o m, t.descend q = some r → r.kind ≠ .resource (.multivector 0) o m) ∧
    ∃ prog, RustArchives t (.ok prog) ∧ rustArchiveAt prog (pathOf "n.m.BigGraph") = some ("BigGraph".toList, "schema::big_graph::BIG_GRAPH".toList, bigGraph) ∧
      lookupsR prog = true := by
  have h := compile_accepted sourceR_parses blocksR_ok
  have hc := compile_compiled h
  have := checksR
  simp only [Bool.and_eq_true] at this
  obtain ⟨⟨⟨⟨⟨h1, h2⟩, h3⟩, h4⟩, h5⟩, h6⟩ := this
  have hl := lookupsR_ok
  have hl' := hl
  simp only [lookupsR, Bool.and_eq_true, decide_eq_true_eq] at hl'
  refine ⟨_, _, parses_to sourceR_parses, h, flat_check hc h1, builtin_check hc h2, builtinR, rust_archives_check hc h3, import_check hc h4 h5 h6,
    widths_check hc widthsR, _, rustProgramOf_ok ?_, hl'.1.1.1.1.1.1, hl⟩
  intro h0
  rw [h0] at hl
  cases hl

/-! ## What is excluded -/

/-- A program that was generated from an accepted schema with plain names of namespaces. -/
def Generated (source : Text) (prog : List RustDecl) : Prop :=
  ∃ blocks t, parseSource source = .ok blocks ∧ Compile source (.ok t) ∧ Flat t ∧ NoBuiltin t ∧ RustArchives t (.ok prog)

def generatedCheck (source : Text) (blocks : List PBlock) : Bool :=
  parsesTo source blocks && accepted blocks && flatCheck (treeOf blocks) && builtinCheck (treeOf blocks) && !(rustProgramOf (treeOf blocks)).isEmpty

attribute [local irreducible] Compile in
theorem generated_check {source : Text} {blocks : List PBlock} (h : generatedCheck source blocks = true) : Generated source (rustProgramOf (treeOf blocks)) := by
  simp only [generatedCheck, Bool.and_eq_true] at h
  obtain ⟨⟨⟨⟨h1, h2⟩, h3⟩, h4⟩, h5⟩ := h
  have hc := compile_accepted h1 h2
  refine ⟨_, _, parses_to h1, hc, flat_check (compile_compiled hc) h3, builtin_check (compile_compiled hc) h4, rustProgramOf_ok ?_⟩
  intro h0
  rw [h0] at h5; cases h5

/-- Names that are defined twice. -/
def clash (blocks : List PBlock) (types : Bool) : Bool :=
  !decide (((rustProgramOf (treeOf blocks)).flatMap (if types then rustTypeNames else rustValueNames)).Nodup)

theorem clash_check {source : Text} {blocks : List PBlock} {types : Bool} (h : (generatedCheck source blocks && clash blocks types) = true) :
    ∃ prog, Generated source prog ∧ ¬ RustDistinct prog := by
  simp only [clash, Bool.and_eq_true] at h
  refine ⟨_, generated_check h.1, fun hd => ?_⟩
  have := h.2
  cases types
  · rw [if_neg (by simp), decide_eq_true hd.2.1] at this
    cases this
  · rw [if_pos rfl, decide_eq_true hd.1] at this
    cases this

/-- A namespace with these structures and archives. -/
def blockWith (name : String) (structures : List PStruct) (archives : List PArchive) : PBlock :=
  { name := name.toList, constants := [], structures := structures, enumerations := [], archives := archives }

/-- **C98 (limits).** Two archives with the same name in snake case: their modules of schemas have the same name. -/
theorem C98_counterexample_archives : ∃ prog, Generated "namespace n { archive BigGraph { a : raw_data; } archive big_graph { b : raw_data; } }".toList prog ∧ ¬ RustDistinct prog :=
  clash_check (types := true) (blocks := [blockWith "n" [] [⟨"BigGraph".toList, [], [⟨"a".toList, [], .rawData⟩]⟩, ⟨"big_graph".toList, [], [⟨"b".toList, [], .rawData⟩]⟩]])
    (by decide +kernel)

/-- **C98 (limits).** Two resources that differ in case only: their constants have the same name. -/
theorem C98_counterexample_resources : ∃ prog, Generated "namespace n { archive A { a : raw_data; A : raw_data; } }".toList prog ∧ ¬ RustDistinct prog :=
  clash_check (types := false) (blocks := [blockWith "n" [] [⟨"A".toList, [], [⟨"a".toList, [], .rawData⟩, ⟨"A".toList, [], .rawData⟩]⟩]]) (by decide +kernel)

/-- **C98 (limits).** A multivector that is called like a structure in camel case. -/
theorem C98_counterexample_multivector : ∃ prog, Generated "namespace n { struct Point { x : u8; } archive A { point : multivector< 8, Point >; } }".toList prog ∧
    ¬ RustDistinct prog :=
  clash_check (types := true) (blocks := [blockWith "n" [⟨"Point".toList, [⟨"x".toList, [], "u8".toList, none⟩]⟩]
    [⟨"A".toList, [], [⟨"point".toList, [], .multivector 8 ["Point".toList]⟩]⟩]]) (by decide +kernel)

/-- **C98 (limits).** Multivectors of two archives with the same name. -/
theorem C98_counterexample_two_archives : ∃ prog, Generated "namespace n { struct P { x : u8; }
    archive A { data : multivector< 8, P >; } archive B { data : multivector< 8, P >; } }".toList prog ∧ ¬ RustDistinct prog :=
  clash_check (types := true) (blocks := [blockWith "n" [⟨"P".toList, [⟨"x".toList, [], "u8".toList, none⟩]⟩]
    [⟨"A".toList, [], [⟨"data".toList, [], .multivector 8 ["P".toList]⟩]⟩, ⟨"B".toList, [], [⟨"data".toList, [], .multivector 8 ["P".toList]⟩]⟩]]) (by decide +kernel)

def twoS : List PBlock := [blockWith "a" [⟨"S".toList, [⟨"x".toList, [], "u8".toList, none⟩]⟩] [], blockWith "b" [⟨"S".toList, [⟨"y".toList, [], "u8".toList, none⟩]⟩] [],
  blockWith "n" [] [⟨"A".toList, [], [⟨"m".toList, [], .multivector 8 [".a.S".toList, ".b.S".toList]⟩]⟩]]

theorem twoS_generated : generatedCheck "namespace a { struct S { x : u8; } } namespace b { struct S { y : u8; } }
    namespace n { archive A { m : multivector< 8, .a.S, .b.S >; } }".toList twoS = true := by decide +kernel
theorem twoS_texts : (rustArchiveAt (rustProgramOf (treeOf twoS)) (pathOf "n.A")).map (·.2.2) =
    some [⟨"m".toList, .multivector "super::n::_builtin::multivector::IndexType8".toList "M".toList
      [("S".toList, "add_s".toList, "super::a::S".toList), ("S".toList, "add_s".toList, "super::b::S".toList)], "schema::a::resources::M".toList, false, none⟩] := by
  decide +kernel

/-- **C98 (limits).** A multivector of two structures with the same name, from different namespaces: two variants have the same name. -/
theorem C98_counterexample_elements : ∃ source prog, Generated source prog ∧ ∀ a x l, ¬ RustOpens prog (pathOf "n.A") a x l := by
  refine ⟨_, _, generated_check twoS_generated, ?_⟩
  obtain ⟨⟨a, b, rs⟩, e1, e2⟩ := Option.map_eq_some_iff.mp twoS_texts
  simp only at e2
  subst e2
  intro a x l ho
  cases ho with
  | mk h1 h2 h3 =>
    rw [e1] at h1; cases h1
    cases h3 with
    | cons h4 _ =>
      cases h4 with
      | multivector k1 k2 k3 =>
        cases k1
        unfold rustVariants at k3
        rw [if_neg (by decide)] at k3
        cases k3
      | vector k1 => cases k1
      | rawData k1 => cases k1
      | «instance» k1 => cases k1
      | archive k1 => cases k1

def builtinEnd : Text := "namespace x_builtin.multivector { struct S { a : u8; } } namespace n { archive A { s : multivector< 8, .x_builtin.multivector.S >; } }".toList

def builtinEndBlocks : List PBlock := [blockWith "x_builtin.multivector" [⟨"S".toList, [⟨"a".toList, [], "u8".toList, none⟩]⟩] [],
  blockWith "n" [] [⟨"A".toList, [], [⟨"s".toList, [], .multivector 8 [".x_builtin.multivector.S".toList]⟩]⟩]]

theorem builtinEnd_generated : generatedCheck builtinEnd builtinEndBlocks = true := by decide +kernel
theorem builtinEnd_texts : (rustArchiveAt (rustProgramOf (treeOf builtinEndBlocks)) (pathOf "n.A")).map (·.2.2) =
    some [⟨"s".toList, .multivector "super::n::_builtin::multivector::IndexType8".toList "S".toList [], "schema::a::resources::S".toList, false, none⟩] ∧
    (rustProgramOf (treeOf builtinEndBlocks)).any (fun d => d = .structure (pathOf "x_builtin.multivector") "S".toList 1 [] ["set_a".toList] true) = true := by
  decide +kernel

/-- **C98 (limits).** A namespace whose name ends with `_builtin`: its structure is taken for an index type. It is not among the elements of the
multivector, and the implementation of `IndexStruct` uses a range that it does not have. -/
theorem C98_counterexample_builtin : ∃ prog index, Generated builtinEnd prog ∧
    (rustArchiveAt prog (pathOf "n.A")).map (·.2.2) = some [⟨"s".toList, .multivector index "S".toList [], "schema::a::resources::S".toList, false, none⟩] ∧
    ¬ RustDistinct prog := by
  obtain ⟨h1, h2⟩ := builtinEnd_texts
  refine ⟨_, _, generated_check builtinEnd_generated, h1, fun hd => ?_⟩
  obtain ⟨d, hm, he⟩ := List.any_eq_true.mp h2
  have he := of_decide_eq_true he
  subst he
  obtain ⟨⟨x, hx, _⟩, _⟩ := hd.2.2 _ hm
  cases hx

end Props
