import Verif.Props.Gen.DeclaredOnly
import Verif.Props.Gen.SchemaSamples

/-! # C66: a concrete schema -/

namespace Props
open Gen Spec

def sourceD : Text := "namespace n { const u8 LIMIT = 7; const u8 NONE = 0;
enum E : u8 : 1 { A, B }
struct S { @const(LIMIT) f : u8 : 5; @optional(NONE) h : u8; g : E; } struct T { @range(r) i : u32; } }
namespace n.a { archive R { v : vector< .n.S >; }
@bound_implicitly(both : v, w) archive Q { v : vector< .n.S >; @optional @explicit_reference(.n.S.f, v) w : multivector< 33, .n.S >; x : .n.S; y : archive R; } }".toList

def structD : PStruct :=
  ⟨"S".toList, [⟨"f".toList, [.constRef "LIMIT".toList], "u8".toList, some 5⟩, ⟨"h".toList, [.invalidValue "NONE".toList], "u8".toList, none⟩,
    ⟨"g".toList, [], "E".toList, none⟩]⟩

def archiveD : PArchive :=
  ⟨"Q".toList, [("both".toList, ["v".toList, "w".toList])], [⟨"v".toList, [], .vector ".n.S".toList⟩,
    ⟨"w".toList, [.optional, .explicitReference ".n.S".toList "f".toList "v".toList], .multivector 33 [".n.S".toList]⟩,
    ⟨"x".toList, [], .object ".n.S".toList⟩, ⟨"y".toList, [], .archive "R".toList⟩]⟩

def blockD : PBlock :=
  { name := "n".toList
    constants := [⟨"LIMIT".toList, .u8, 7⟩, ⟨"NONE".toList, .u8, 0⟩]
    structures := [structD, ⟨"T".toList, [⟨"i".toList, [.range "r".toList], "u32".toList, none⟩]⟩]
    enumerations := [⟨"E".toList, .u8, some 1, [("A".toList, none), ("B".toList, none)]⟩]
    archives := [] }

def blockD' : PBlock :=
  { name := "n.a".toList
    constants := [], structures := [], enumerations := []
    archives := [⟨"R".toList, [], [⟨"v".toList, [], .vector ".n.S".toList⟩]⟩, archiveD] }

def blocksD : List PBlock := [blockD, blockD']

theorem sourceD_parses : parsesTo sourceD blocksD = true := by decide +kernel
theorem blocksD_ok : accepted blocksD = true := by decide +kernel

attribute [local irreducible] Compile in
theorem sourceD_ok : Compile sourceD (.ok (treeOf blocksD)) := compile_accepted sourceD_parses blocksD_ok

theorem parses_blocks {s : Text} {blocks : List PBlock} (hp : parsesTo s blocks = true) : parseSource s = .ok blocks := by
  unfold parsesTo at hp
  cases h : parseSource s with
  | error e => rw [h] at hp; cases hp
  | ok b => rw [h] at hp; simp only [decide_eq_true_eq] at hp; rw [hp]

theorem sourceD_blocks : parseSource sourceD = .ok blocksD := parses_blocks sourceD_parses

attribute [local irreducible] Compile in
/-- C66 has instances: the structure and the archive with a bound group of this schema. -/
theorem C66_witness : ∃ t, Compile sourceD (.ok t) ∧
    (∃ n, t.descend ["n".toList, "S".toList] = some n ∧ StructAs t ["n".toList, "S".toList] structD n) ∧
    ∃ n, t.descend ["n".toList, "a".toList, "Q".toList] = some n ∧ ArchiveAs t ["n".toList, "a".toList, "Q".toList] archiveD n := by
  refine ⟨_, sourceD_ok, ?_⟩
  have h := sourceD_ok
  generalize treeOf blocksD = t at h
  exact ⟨C66_structures sourceD_blocks h (b := blockD) (List.mem_cons_self ..) (x := structD) (List.mem_cons_self ..),
    C66_archives sourceD_blocks h (b := blockD') (List.mem_cons_of_mem _ (List.mem_cons_self ..)) (x := archiveD) (List.mem_cons_of_mem _ (List.mem_cons_self ..))⟩

/-- What the compiled nodes look like. -/
example : (((treeOf blocksD).descend (pathOf "n.S")).map fun n => n.children.map fun c => (c.name, c.kind, c.children.map fun r => (r.target, r.kind))) =
    some [("f".toList, .field (.basic ⟨.u8, 5⟩) none (some 0), [(".n.LIMIT".toList, .ref .constantValue)]),
      ("h".toList, .field (.basic ⟨.u8, 8⟩) none (some 5), [(".n.NONE".toList, .ref .invalidValue)]),
      ("g".toList, .field (.enum "@@n@E".toList ⟨.u8, 1⟩) none (some 13), [(".n.E".toList, .ref (.enumeration none))])] := by
  decide +kernel

end Props
