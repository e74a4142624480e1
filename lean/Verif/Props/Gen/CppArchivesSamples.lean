import Verif.Props.Gen.CppArchives
import Verif.Props.Gen.NativeArchivesSamples

/-!
# C100: a concrete schema, and what the theorems exclude
-/

namespace Props
open Py Gen Spec Model Model.Native _root_.Native

/-! ## Checks -/

/-- A check for `CppArchivesNameable`. -/
def cppArchivesCheck (t : Tree) : Bool :=
  (t.iter []).all fun e => match e.2.kind with
    | .namespace => decide ("internal".toList :: "to_string".toList :: e.2.children.flatMap spaceNames).Nodup && decide (e.2.children.flatMap schemaNames).Nodup
    | .resource k _ (some m) => decide (k ≠ .instance ∧ k ≠ .archive ∧ m < 2 ^ 63)
    | _ => true

theorem cpp_archives_check {t : Tree} (hc : Compiled t) (h : cppArchivesCheck t = true) : CppArchivesNameable t := by
  unfold cppArchivesCheck at h
  have key := fun q m (hm : t.descend q = some m) => List.all_eq_true.mp h (q, m) ((iter_descend hc.lk.good).mpr hm)
  refine ⟨?_, ?_, ?_⟩
  · intro p n hn hk
    have := key p n hn
    simp only [hk, Bool.and_eq_true, decide_eq_true_eq] at this
    exact this.1
  · intro p n hn hk
    have := key p n hn
    simp only [hk, Bool.and_eq_true, decide_eq_true_eq] at this
    exact this.2
  · intro q r k o m hq hk
    have := key q r hq
    simp only [hk] at this
    exact of_decide_eq_true this

/-- The header of a tree (the number bounds the steps of the traversals). -/
def cppProgramOf (t : Tree) : List CppItem :=
  match cppArchivesN t 500 with
  | some (.ok m) => m
  | _ => []

theorem cppProgramOf_ok {t : Tree} (h : cppProgramOf t ≠ []) : CppArchives t (.ok (cppProgramOf t)) := by
  refine ⟨500, ?_⟩
  unfold cppProgramOf at h ⊢
  cases hs : cppArchivesN t 500 with
  | none => rw [hs] at h; exact absurd rfl h
  | some o =>
    cases o with
    | error e => rw [hs] at h; exact absurd rfl h
    | ok x => rfl

/-! ## A schema -/

def sourceK : Text := "namespace a { struct Point { x : i32; y : i32; } struct Edge { @range(points) first : u32; to : u16 : 13; } }
namespace n.m { struct PointA { z : u8 : 3; } const u8 LIMIT = 3; enum Color : u8 : 2 { Red, Green, }
archive Sub { @optional raw : raw_data; }
archive BigGraph {
points : vector< .a.Point >;
@explicit_reference( .a.Edge.to, points )
edges : vector< .a.Edge >; head : .a.Point;
@optional attributes : multivector< 33, PointA, .a.Point >; @optional sub : archive Sub; } }".toList

def blocksK : List PBlock :=
  [{ name := "a".toList, constants := [], enumerations := [], archives := []
     structures := [⟨"Point".toList, [⟨"x".toList, [], "i32".toList, none⟩, ⟨"y".toList, [], "i32".toList, none⟩]⟩,
       ⟨"Edge".toList, [⟨"first".toList, [.range "points".toList], "u32".toList, none⟩, ⟨"to".toList, [], "u16".toList, some 13⟩]⟩] },
   { name := "n.m".toList, constants := [⟨"LIMIT".toList, .u8, 3⟩]
     enumerations := [⟨"Color".toList, .u8, some 2, [("Red".toList, none), ("Green".toList, none)]⟩]
     structures := [⟨"PointA".toList, [⟨"z".toList, [], "u8".toList, some 3⟩]⟩]
     archives := [⟨"Sub".toList, [], [⟨"raw".toList, [.optional], .rawData⟩]⟩,
       ⟨"BigGraph".toList, [], [⟨"points".toList, [], .vector ".a.Point".toList⟩,
         ⟨"edges".toList, [.explicitReference ".a.Edge".toList "to".toList "points".toList], .vector ".a.Edge".toList⟩,
         ⟨"head".toList, [], .object ".a.Point".toList⟩, ⟨"attributes".toList, [.optional], .multivector 33 ["PointA".toList, ".a.Point".toList]⟩,
         ⟨"sub".toList, [.optional], .archive "Sub".toList⟩]⟩] }]

theorem sourceK_parses : parsesTo sourceK blocksK = true := by decide +kernel
theorem blocksK_ok : accepted blocksK = true := by decide +kernel
theorem checksK : (flatCheck (treeOf blocksK) && builtinCheck (treeOf blocksK) && rustArchivesCheck (treeOf blocksK) &&
    cppArchivesCheck (treeOf blocksK)) = true := by decide +kernel
theorem builtinK : ∀ b ∈ blocksK, NoBuiltinEnd (splitDot b.name) := by unfold NoBuiltinEnd; decide +kernel

/-- The members of the archive `BigGraph`. -/
def bigGraphMembers : List CppResourceMember :=
  [⟨"PointsType".toList, .arrayView ["::a::Point".toList], "points".toList, false⟩,
   ⟨"EdgesType".toList, .arrayView ["::a::Edge".toList], "edges".toList, false⟩,
   ⟨"HeadType".toList, .structures ["::a::Point".toList], "head".toList, false⟩,
   ⟨"AttributesType".toList, .multiArrayView ["::n::m::_builtin::multivector::IndexType33".toList, "::n::m::PointA".toList, "::a::Point".toList],
      "attributes".toList, true⟩,
   ⟨"SubType".toList, .archive "::n::m::Sub".toList, "sub".toList, true⟩]

/-- The types of the resources in its builder: archives come last. -/
def bigGraphBuilders : List (Text × CppWriterType) :=
  [("points".toList, .externalVector ["::a::Point".toList]), ("edges".toList, .externalVector ["::a::Edge".toList]),
   ("head".toList, .structures ["::a::Point".toList]),
   ("attributes".toList, .multiVector ["::n::m::_builtin::multivector::IndexType33".toList, "::n::m::PointA".toList, "::a::Point".toList]),
   ("sub".toList, .builder "::n::m::SubBuilder".toList)]

/-- What is read when it is opened. -/
def bigGraphReads : List CppReadLine :=
  [⟨"m_points".toList, "points".toList, "BigGraph__points__schema__".toList, some (false, 8192)⟩,
   ⟨"m_edges".toList, "edges".toList, "BigGraph__edges__schema__".toList, none⟩,
   ⟨"m_head".toList, "head".toList, "BigGraph__head__schema__".toList, none⟩,
   ⟨"m_attributes".toList, "attributes".toList, "BigGraph__attributes__schema__".toList, none⟩]

/-- Values of the functions that look up things, in the program of the sample schema. -/
def lookupsK (prog : List CppItem) : Bool :=
  decide (cppArchiveAt prog "::n::m::BigGraph".toList = some (pathOf "n.m", bigGraphMembers, bigGraphBuilders)) &&
  decide ((cppInitializeAt prog "::n::m::BigGraph".toList).map (fun x => (x.1, x.2.1)) = some ("BigGraph".toList, "BigGraph__schema__".toList)) &&
  decide ((cppInitializeAt prog "::n::m::BigGraph".toList).map (fun x => x.2.2.1) = some bigGraphReads) &&
  decide ((cppInitializeAt prog "::n::m::BigGraph".toList).map (fun x => x.2.2.2) = some [("m_sub".toList, "sub".toList)]) &&
  cppStructAt prog "::a::Edge".toList = some (6, true, [("points".toList, 0, 32)]) &&
  cppStructAt prog "::a::Point".toList = some (8, false, []) &&
  cppIndexWidth prog "::n::m::_builtin::multivector::IndexType33".toList = some 33 &&
  cppIndexWidth prog "::a::Edge".toList = none &&
  (cppSchemaAt prog (pathOf "n.m") "BigGraph__head__schema__".toList).isSome &&
  cppSchemaAt prog (pathOf "n.m") "BigGraph__foot__schema__".toList = none &&
  cppLimit false (some (false, 8192)) = some (some 8192) && cppLimit true (some (false, 8192)) = none

theorem lookupsK_ok : lookupsK (cppProgramOf (treeOf blocksK)) = true := by decide +kernel

attribute [local irreducible] Compile in
/-- The hypotheses of C100 hold of this schema, and its program is as described above. -/
theorem C100_witness : ∃ blocks t, parseSource sourceK = .ok blocks ∧ Compile sourceK (.ok t) ∧ Flat t ∧ NoBuiltin t ∧
    (∀ b ∈ blocks, NoBuiltinEnd (splitDot b.name)) ∧ RustArchivesNameable t ∧ CppArchivesNameable t ∧
    ∃ prog, CppArchives t (.ok prog) ∧ cppArchiveAt prog "::n::m::BigGraph".toList = some (pathOf "n.m", bigGraphMembers, bigGraphBuilders) ∧
      lookupsK prog = true := by
  have h := compile_accepted sourceK_parses blocksK_ok
  have hc := compile_compiled h
  have := checksK
  simp only [Bool.and_eq_true] at this
  obtain ⟨⟨⟨h1, h2⟩, h3⟩, h4⟩ := this
  have hl := lookupsK_ok
  have hl' := hl
  simp only [lookupsK, Bool.and_eq_true, decide_eq_true_eq] at hl'
  refine ⟨_, _, parses_to sourceK_parses, h, flat_check hc h1, builtin_check hc h2, builtinK, rust_archives_check hc h3, cpp_archives_check hc h4,
    _, cppProgramOf_ok ?_, hl'.1.1.1.1.1.1.1.1.1.1.1, hl⟩
  intro h0
  rw [h0] at hl
  cases hl

/-! ## What is excluded -/

/-- A header that was generated from an accepted schema with plain names of namespaces. -/
def CppGenerated (source : Text) (prog : List CppItem) : Prop :=
  ∃ blocks t, parseSource source = .ok blocks ∧ Compile source (.ok t) ∧ Flat t ∧ NoBuiltin t ∧ CppArchives t (.ok prog)

def cppGeneratedCheck (source : Text) (blocks : List PBlock) : Bool :=
  parsesTo source blocks && accepted blocks && flatCheck (treeOf blocks) && builtinCheck (treeOf blocks) && !(cppProgramOf (treeOf blocks)).isEmpty

attribute [local irreducible] Compile in
theorem cpp_generated_check {source : Text} {blocks : List PBlock} (h : cppGeneratedCheck source blocks = true) :
    CppGenerated source (cppProgramOf (treeOf blocks)) := by
  simp only [cppGeneratedCheck, Bool.and_eq_true] at h
  obtain ⟨⟨⟨⟨h1, h2⟩, h3⟩, h4⟩, h5⟩ := h
  have hc := compile_accepted h1 h2
  refine ⟨_, _, parses_to h1, hc, flat_check (compile_compiled hc) h3, builtin_check (compile_compiled hc) h4, cppProgramOf_ok ?_⟩
  intro h0
  rw [h0] at h5; cases h5

/-- Some name is defined twice, or for a type and a namespace. -/
def cppClash (blocks : List PBlock) : Bool :=
  !(decide ((cppProgramOf (treeOf blocks)).flatMap cppNames).Nodup &&
    ((cppProgramOf (treeOf blocks)).flatMap cppSpaces).all fun x => decide (x ∉ (cppProgramOf (treeOf blocks)).flatMap cppNames))

theorem cpp_clash_check {source : Text} {blocks : List PBlock} (h : (cppGeneratedCheck source blocks && cppClash blocks) = true) :
    ∃ prog, CppGenerated source prog ∧ ¬ CppDistinct prog := by
  simp only [cppClash, Bool.and_eq_true] at h
  refine ⟨_, cpp_generated_check h.1, fun hd => ?_⟩
  have := h.2
  rw [decide_eq_true hd.1, Bool.true_and, List.all_eq_true.mpr fun x hx => decide_eq_true (hd.2.1 x hx)] at this
  cases this

/-- A structure with one field. -/
def oneField (name field : String) : PStruct := ⟨name.toList, [⟨field.toList, [], "u8".toList, none⟩]⟩

/-- **C100 (limits).** A structure that is called like the mutator of another one. -/
theorem C100_counterexample_mutator : ∃ prog, CppGenerated "namespace n { struct S { x : u8; } struct SMutator { x : u8; } }".toList prog ∧ ¬ CppDistinct prog :=
  cpp_clash_check (blocks := [blockWith "n" [oneField "S" "x", oneField "SMutator" "x"] []]) (by decide +kernel)

/-- **C100 (limits).** A structure that is called like the builder of an archive. -/
theorem C100_counterexample_builder : ∃ prog, CppGenerated "namespace n { struct ABuilder { x : u8; } archive A { r : raw_data; } }".toList prog ∧ ¬ CppDistinct prog :=
  cpp_clash_check (blocks := [blockWith "n" [oneField "ABuilder" "x"] [⟨"A".toList, [], [⟨"r".toList, [], .rawData⟩]⟩]]) (by decide +kernel)

/-- **C100 (limits).** A structure whose schema has the same name as the schema of a resource. -/
theorem C100_counterexample_schema : ∃ prog, CppGenerated "namespace n { struct A__r { x : u8; } archive A { r : raw_data; } }".toList prog ∧ ¬ CppDistinct prog :=
  cpp_clash_check (blocks := [blockWith "n" [oneField "A__r" "x"] [⟨"A".toList, [], [⟨"r".toList, [], .rawData⟩]⟩]]) (by decide +kernel)

/-- **C100 (limits).** A structure called `internal`. -/
theorem C100_counterexample_internal : ∃ prog, CppGenerated "namespace n { struct internal { x : u8; } }".toList prog ∧ ¬ CppDistinct prog :=
  cpp_clash_check (blocks := [blockWith "n" [oneField "internal" "x"] []]) (by decide +kernel)

/-! ### Explicit references -/

def instanceTarget : Text := "namespace n { struct S { x : u8; } archive A { s : S; @explicit_reference( S.x, s ) l : vector< S >; } }".toList

def instanceBlocks : List PBlock := [blockWith "n" [oneField "S" "x"]
  [⟨"A".toList, [], [⟨"s".toList, [], .object "S".toList⟩, ⟨"l".toList, [.explicitReference "S".toList "x".toList "s".toList], .vector "S".toList⟩]⟩]]

theorem instance_generated : cppGeneratedCheck instanceTarget instanceBlocks = true := by decide +kernel
theorem instance_texts : ((cppArchiveAt (cppProgramOf (treeOf instanceBlocks)) "::n::A".toList).map (·.2.1) =
      some [⟨"SType".toList, .structures ["::n::S".toList], "s".toList, false⟩, ⟨"LType".toList, .arrayView ["::n::S".toList], "l".toList, false⟩]) ∧
    ((cppInitializeAt (cppProgramOf (treeOf instanceBlocks)) "::n::A".toList).map (·.2.2.1) =
      some [⟨"m_s".toList, "s".toList, "A__s__schema__".toList, some (false, 256)⟩, ⟨"m_l".toList, "l".toList, "A__l__schema__".toList, none⟩]) := by
  decide +kernel

/-- **C100 (limits).** An explicit reference to an instance: `load_contents` asks the structure for its `size( )`, which it does not have. -/
theorem C100_counterexample_instance : ∃ prog, CppGenerated instanceTarget prog ∧ ∀ name x rs, ¬ CppOpens prog "::n::A".toList name x rs := by
  refine ⟨_, cpp_generated_check instance_generated, fun name x rs ho => ?_⟩
  obtain ⟨h1, h2⟩ := instance_texts
  cases ho with
  | mk o1 o2 _ _ o5 =>
    rw [o1] at h1
    rw [o2] at h2
    simp only [Option.map_some, Option.some.injEq] at h1 h2
    subst h1 h2
    cases o5 with
    | cons o6 _ =>
      cases o6 with
      | vector k1 => cases k1
      | «instance» k1 k2 k3 k4 k5 =>
        have : cppReadOf [⟨"m_s".toList, "s".toList, "A__s__schema__".toList, some (false, 256)⟩, ⟨"m_l".toList, "l".toList, "A__l__schema__".toList, none⟩] "s".toList =
          some ⟨"m_s".toList, "s".toList, "A__s__schema__".toList, some (false, 256)⟩ := by decide +kernel
        rw [this] at k3
        cases k3
        cases k5
      | rawData k1 => cases k1
      | multivector k1 => cases k1
      | archive k1 => cases k1

def wideTarget : Text := "namespace n { struct S { x : u64 : 63; } archive A { s : vector< S >; @explicit_reference( S.x, s ) l : vector< S >; } }".toList

def wideBlocks : List PBlock := [blockWith "n" [⟨"S".toList, [⟨"x".toList, [], "u64".toList, some 63⟩]⟩]
  [⟨"A".toList, [], [⟨"s".toList, [], .vector "S".toList⟩, ⟨"l".toList, [.explicitReference "S".toList "x".toList "s".toList], .vector "S".toList⟩]⟩]]

theorem wide_generated : cppGeneratedCheck wideTarget wideBlocks = true := by decide +kernel
theorem wide_texts : ((cppArchiveAt (cppProgramOf (treeOf wideBlocks)) "::n::A".toList).map (·.2.1) =
      some [⟨"SType".toList, .arrayView ["::n::S".toList], "s".toList, false⟩, ⟨"LType".toList, .arrayView ["::n::S".toList], "l".toList, false⟩]) ∧
    ((cppInitializeAt (cppProgramOf (treeOf wideBlocks)) "::n::A".toList).map (·.2.2.1) =
      some [⟨"m_s".toList, "s".toList, "A__s__schema__".toList, some (false, 9223372036854775808)⟩, ⟨"m_l".toList, "l".toList, "A__l__schema__".toList, none⟩]) := by
  decide +kernel

/-- **C100 (limits).** An explicit reference of 63 bits: the limit that is written, 2⁶³, is not a value of `long long`, the largest type that an
integer literal without suffix can have in C++. (Compilers may accept it, with a warning. References of 64 bits set no limit.) -/
theorem C100_counterexample_wide : ∃ prog, CppGenerated wideTarget prog ∧ ∀ name x rs, ¬ CppOpens prog "::n::A".toList name x rs := by
  refine ⟨_, cpp_generated_check wide_generated, fun name x rs ho => ?_⟩
  obtain ⟨h1, h2⟩ := wide_texts
  cases ho with
  | mk o1 o2 _ _ o5 =>
    rw [o1] at h1
    rw [o2] at h2
    simp only [Option.map_some, Option.some.injEq] at h1 h2
    subst h1 h2
    cases o5 with
    | cons o6 _ =>
      cases o6 with
      | vector k1 k2 k3 k4 k5 =>
        have : cppReadOf [⟨"m_s".toList, "s".toList, "A__s__schema__".toList, some (false, 9223372036854775808)⟩, ⟨"m_l".toList, "l".toList, "A__l__schema__".toList, none⟩]
          "s".toList = some ⟨"m_s".toList, "s".toList, "A__s__schema__".toList, some (false, 9223372036854775808)⟩ := by decide +kernel
        rw [this] at k3
        cases k3
        simp [cppLimit] at k5
      | «instance» k1 => cases k1
      | rawData k1 => cases k1
      | multivector k1 => cases k1
      | archive k1 => cases k1

end Props
