import Verif.Props.Gen.NativeEnums
import Verif.Props.Gen.EvolutionSamples

/-!
# C89, C90: a concrete schema, and what the theorems exclude
-/

namespace Props
open Py Gen Spec Model Model.Native _root_.Native

def sourceN : Text := "namespace n { enum E : i8 : 2 { A = 1, B = -1 } struct T { x : u64; } }
namespace n.m { struct S { a : u32 : 29; e : .n.E; type : i16 : 12; b : bool; } }".toList

def blocksN : List PBlock := blocksOf sourceN

theorem sourceN_parses : parsesTo sourceN blocksN = true := by decide +kernel
theorem blocksN_ok : accepted blocksN = true := by decide +kernel
theorem sourceN_flat : flatCheck (treeOf blocksN) = true := by decide +kernel

attribute [local irreducible] Compile in
theorem sourceN_ok : Compile sourceN (.ok (treeOf blocksN)) := compile_accepted sourceN_parses blocksN_ok

/-- A check for `RustNameable`. -/
def rustCheckTree (t : Tree) : Bool := (t.iter []).all fun e => match e.2.kind with
  | .enumeration b => decide (b.name ≠ .bool ∧ e.1.head? ≠ some "super".toList)
  | _ => true

theorem rust_check {t : Tree} (hc : Compiled t) (h : rustCheckTree t = true) : RustNameable t := by
  have key : ∀ q m b, t.descend q = some m → m.kind = .enumeration b → b.name ≠ .bool ∧ q.head? ≠ some "super".toList := by
    intro q m b hm hk
    have := List.all_eq_true.mp h _ ((iter_descend hc.lk.good).mpr hm)
    simp only [hk] at this
    exact of_decide_eq_true this
  exact ⟨fun q m b hm hk => (key q m b hm hk).1, fun q m b hm hk => (key q m b hm hk).2⟩

theorem sourceN_rust : rustCheckTree (treeOf blocksN) = true := by decide +kernel

def rustGives (t : Tree) (l : List RustItem) : Bool := match rustProgram t with
  | .ok x => decide (x = l)
  | .error _ => false

theorem rustGives_ok {t : Tree} {l : List RustItem} (h : rustGives t l = true) : rustProgram t = .ok l := by
  unfold rustGives at h
  cases hp : rustProgram t with
  | error e => rw [hp] at h; cases h
  | ok x => rw [hp] at h; rw [of_decide_eq_true h]

def cppGives (t : Tree) (n : Nat) (l : List CppDecl) : Bool := match cppHeaderN t n with
  | some (.ok x) => decide (x = l)
  | _ => false

theorem cppGives_ok {t : Tree} {n : Nat} {l : List CppDecl} (h : cppGives t n l = true) : CppHeader t (.ok l) := by
  refine ⟨n, ?_⟩
  unfold cppGives at h
  cases hp : cppHeaderN t n with
  | none => rw [hp] at h; cases h
  | some r => cases r with
    | error e => rw [hp] at h; cases h
    | ok x => rw [hp] at h; rw [of_decide_eq_true h]

def programN : List RustItem :=
  [.structure ["n".toList] "T".toList 8 [⟨"x".toList, "u64".toList, "u64".toList, 0, 64⟩],
    .enumeration ["n".toList] "E".toList "i8".toList [1, -1, -2, 0],
    .structure ["n".toList, "m".toList] "S".toList 6 [⟨"a".toList, "u32".toList, "u32".toList, 0, 29⟩,
      ⟨"e".toList, "i8".toList, "super::super::n::E".toList, 29, 2⟩, ⟨"type_".toList, "i16".toList, "i16".toList, 31, 12⟩,
      ⟨"b".toList, "bool".toList, "bool".toList, 43, 1⟩]]

def headerN : List CppDecl :=
  [.structure ["n".toList] "T".toList 8 [⟨"x".toList, "uint64_t".toList, 0, 64, 8⟩],
    .enumeration ["n".toList] "E".toList "int8_t".toList [1, -1, -2, 0],
    .structure ["n".toList, "m".toList] "S".toList 6 [⟨"a".toList, "uint32_t".toList, 0, 29, 6⟩,
      ⟨"e".toList, "::n::E".toList, 29, 2, 6⟩, ⟨"type".toList, "int16_t".toList, 31, 12, 6⟩, ⟨"b".toList, "bool".toList, 43, 1, 6⟩]]

theorem programN_dec : rustGives (treeOf blocksN) programN = true := by decide +kernel
theorem headerN_dec : cppGives (treeOf blocksN) 1000 headerN = true := by decide +kernel

theorem programN_ok : rustProgram (treeOf blocksN) = .ok programN := rustGives_ok programN_dec
theorem headerN_ok : CppHeader (treeOf blocksN) (.ok headerN) := cppGives_ok headerN_dec

def rustSN : NativeClass (RustType × Option (List Int)) := ⟨6, [("a".toList, (.int 32 false, none), 0, 29), ("e".toList, (.int 8 true, some [1, -1, -2, 0]), 29, 2),
  ("type_".toList, (.int 16 true, none), 31, 12), ("b".toList, (.bool, none), 43, 1)]⟩
def cppSN : NativeClass (CppType × Option (List Int)) := ⟨6, [("a".toList, (.int 32 false, none), 0, 29), ("e".toList, (.enum 8 true, some [1, -1, -2, 0]), 29, 2),
  ("type".toList, (.int 16 true, none), 31, 12), ("b".toList, (.bool, none), 43, 1)]⟩

instance : DecidableEq (NativeClass (RustType × Option (List Int))) := inferInstance
instance : DecidableEq (NativeClass (CppType × Option (List Int))) := inferInstance
instance : DecidableEq (Path × NativeClass (RustType × Option (List Int))) := @instDecidableEqProd _ _ inferInstance inferInstance
instance : DecidableEq (Text × NativeClass (CppType × Option (List Int))) := @instDecidableEqProd _ _ inferInstance inferInstance

theorem programN_compiles : rustCompile programN = some [(["n".toList, "T".toList], ⟨8, [("x".toList, (.int 64 false, none), 0, 64)]⟩),
    (["n".toList, "m".toList, "S".toList], rustSN)] := by decide +kernel
theorem headerN_compiles : cppCompile [] headerN = some [("::n::T".toList, ⟨8, [("x".toList, (.int 64 false, none), 0, 64)]⟩), ("::n::m::S".toList, cppSN)] := by
  decide +kernel

attribute [local irreducible] Compile in
/-- The hypotheses of C89 and C90 hold of this schema, and the generated program and header are those above. -/
theorem C89_witness : Compile sourceN (.ok (treeOf blocksN)) ∧ Flat (treeOf blocksN) ∧ RustNameable (treeOf blocksN) ∧
    rustProgram (treeOf blocksN) = .ok programN ∧ CppHeader (treeOf blocksN) (.ok headerN) ∧
    (∃ classes, rustCompile programN = some classes ∧ (["n".toList, "m".toList, "S".toList], rustSN) ∈ classes) ∧
    ∃ classes, cppCompile [] headerN = some classes ∧ ("::n::m::S".toList, cppSN) ∈ classes :=
  ⟨sourceN_ok, flat_check (compile_compiled sourceN_ok) sourceN_flat, rust_check (compile_compiled sourceN_ok) sourceN_rust, programN_ok, headerN_ok,
    ⟨_, programN_compiles, List.mem_cons_of_mem _ (List.mem_singleton.mpr rfl)⟩, ⟨_, headerN_compiles, List.mem_cons_of_mem _ (List.mem_singleton.mpr rfl)⟩⟩

/-- In Go `T` gets a class, and `S` a `KeyError`. -/
theorem C89_witness_go : (((treeOf blocksN).descend (pathOf "n.T")).map fun n => match goStructure n with
      | .ok g => decide (g = ⟨"T".toList, 8, [⟨"x".toList, "uint64".toList, 0, 64, false⟩]⟩) | .error _ => false) = some true ∧
    (((treeOf blocksN).descend (pathOf "n.m.S")).map fun n => match goStructure n with
      | .ok _ => false | .error e => decide (e = .keyError)) = some true := by decide +kernel

attribute [local irreducible] Compile in
/-- C90 has instances: the field `e`, in any memory. -/
theorem C90_witness (d : Bytes) {v : Int} (hv : rustRead (.int 8 true) d 29 2 = some v) : v ∈ [1, -1, -2, 0] := by
  obtain ⟨h1, h2, h3, h4, _, ⟨classes, h5, h6⟩, _⟩ := C89_witness
  exact C90_rust h1 h2 h3 h4 h5 h6 (name := "e".toList) (List.mem_cons_of_mem _ List.mem_cons_self) (by simp) d hv

/-- ... and there are such reads. -/
example : rustRead (.int 8 true) [0, 0, 0, 0x40] 29 2 = some (-2) := by decide +kernel

/-! ## Signed enumerations of one bit -/

def sourceN1 : Text := "namespace n { enum E : i8 : 1 { A = 0 } struct S { e : E; } }".toList

theorem sourceN1_parses : parsesTo sourceN1 (blocksOf sourceN1) = true := by decide +kernel
theorem blocksN1_ok : accepted (blocksOf sourceN1) = true := by decide +kernel
theorem sourceN1_ok : flatCheck (treeOf (blocksOf sourceN1)) = true ∧ rustCheckTree (treeOf (blocksOf sourceN1)) = true := by decide +kernel

def programN1 : List RustItem :=
  [.structure ["n".toList] "S".toList 1 [⟨"e".toList, "i8".toList, "super::n::E".toList, 0, 1⟩],
    .enumeration ["n".toList] "E".toList "i8".toList [0, -1]]
def rustSN1 : NativeClass (RustType × Option (List Int)) := ⟨1, [("e".toList, (.int 8 true, some [0, -1]), 0, 1)]⟩

theorem programN1_dec : rustGives (treeOf (blocksOf sourceN1)) programN1 = true := by decide +kernel
theorem programN1_compiles : rustCompile programN1 = some [(["n".toList, "S".toList], rustSN1)] := by decide +kernel

attribute [local irreducible] Compile in
/-- **C90 (limits).** An accepted schema with a signed enumeration of one bit: it has the values 0 and -1, the getters of Rust and C++ return 1. -/
theorem C90_counterexample : ∃ t items classes c, Compile sourceN1 (.ok t) ∧ Flat t ∧ RustNameable t ∧ rustProgram t = .ok items ∧
    rustCompile items = some classes ∧ (["n".toList, "S".toList], c) ∈ classes ∧
    ("e".toList, ((.int 8 true : RustType), some [0, -1]), 0, 1) ∈ c.members ∧ rustRead (.int 8 true) [1] 0 1 = some 1 ∧
    cppRead (.enum 8 true) [1] 0 1 = some 1 := by
  have h := compile_accepted sourceN1_parses blocksN1_ok
  have h1 := sourceN1_ok
  have h2 := rustGives_ok programN1_dec
  exact ⟨treeOf (blocksOf sourceN1), programN1, _, rustSN1, h, flat_check (compile_compiled h) h1.1, rust_check (compile_compiled h) h1.2, h2, programN1_compiles,
    List.mem_singleton.mpr rfl, List.mem_singleton.mpr rfl, by decide +kernel, by decide +kernel⟩

end Props
