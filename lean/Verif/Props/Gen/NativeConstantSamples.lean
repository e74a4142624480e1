import Verif.Props.Gen.NativeConstants
import Verif.Props.Gen.NativeSamples

/-!
# C93: a concrete schema, and what the theorems exclude
-/

namespace Props
open Py Gen Spec Model Model.Native _root_.Native

def sourceC : Text := "namespace n { const i32 NO_VALUE = -100000; const u8 MAX = 255; }
namespace n.m { struct S { @optional(.n.NO_VALUE) a : i32 : 20; b : u8; @optional(.n.MAX) type : u8; } }".toList

def blocksC : List PBlock := blocksOf sourceC

theorem sourceC_parses : parsesTo sourceC blocksC = true := by decide +kernel
theorem blocksC_ok : accepted blocksC = true := by decide +kernel
theorem sourceC_flat : flatCheck (treeOf blocksC) = true := by decide +kernel

/-- A check for `RustConstsNameable`. -/
def rustConstCheck (t : Tree) : Bool := (t.iter []).all fun e => match e.2.kind with
  | .constant b _ => decide (b.name ≠ .bool ∧ e.1.head? ≠ some "super".toList ∧ ∀ k ∈ e.1.getLast?, ∀ c ∈ k, isLowerChar c = false)
  | _ => true

theorem rust_const_check {t : Tree} (hc : Compiled t) (h : rustConstCheck t = true) : RustConstsNameable t := by
  have key : ∀ q m b z, t.descend q = some m → m.kind = .constant b z →
      b.name ≠ .bool ∧ q.head? ≠ some "super".toList ∧ ∀ k ∈ q.getLast?, ∀ c ∈ k, isLowerChar c = false := by
    intro q m b z hm hk
    have := List.all_eq_true.mp h _ ((iter_descend hc.lk.good).mpr hm)
    simp only [hk] at this
    exact of_decide_eq_true this
  exact ⟨fun ns k m b z hm hk => (key _ m b z hm hk).2.2 k (by simp), fun q m b z hm hk => (key q m b z hm hk).1, fun q m b z hm hk => (key q m b z hm hk).2.1⟩

theorem sourceC_rust : rustConstCheck (treeOf blocksC) = true := by decide +kernel

def rustConstGives (t : Tree) (l : List RustConstItem) : Bool := match rustConstProgram t with
  | .ok x => decide (x = l)
  | .error _ => false

theorem rustConstGives_ok {t : Tree} {l : List RustConstItem} (h : rustConstGives t l = true) : rustConstProgram t = .ok l := by
  unfold rustConstGives at h
  cases hp : rustConstProgram t with
  | error e => rw [hp] at h; cases h
  | ok x => rw [hp] at h; rw [of_decide_eq_true h]

def cppConstGives (t : Tree) (n : Nat) (l : List CppConstDecl) : Bool := match cppConstHeaderN t n with
  | some (.ok x) => decide (x = l)
  | _ => false

theorem cppConstGives_ok {t : Tree} {n : Nat} {l : List CppConstDecl} (h : cppConstGives t n l = true) : CppConstHeader t (.ok l) := by
  refine ⟨n, ?_⟩
  unfold cppConstGives at h
  cases hp : cppConstHeaderN t n with
  | none => rw [hp] at h; cases h
  | some r => cases r with
    | error e => rw [hp] at h; cases h
    | ok x => rw [hp] at h; rw [of_decide_eq_true h]

def programC : List RustConstItem :=
  [.constant ["n".toList] "NO_VALUE".toList "i32".toList "-100_000".toList, .constant ["n".toList] "MAX".toList "u8".toList "255".toList,
    .structure ["n".toList, "m".toList] "S".toList
      [("a".toList, "i32".toList, "super::super::n::NO_VALUE".toList), ("type_".toList, "u8".toList, "super::super::n::MAX".toList)]]

def headerC : List CppConstDecl :=
  [.constant ["n".toList] "NO_VALUE".toList "int32_t".toList (-100000), .constant ["n".toList] "MAX".toList "uint8_t".toList 255,
    .structure ["n".toList, "m".toList] "S".toList
      [⟨"a".toList, "int32_t".toList, "::n::NO_VALUE".toList⟩, ⟨"type".toList, "uint8_t".toList, "::n::MAX".toList⟩]]

theorem programC_dec : rustConstGives (treeOf blocksC) programC = true := by decide +kernel
theorem headerC_dec : cppConstGives (treeOf blocksC) 1000 headerC = true := by decide +kernel

instance decEqRustMember : DecidableEq (Text × RustType × Int) := @instDecidableEqProd _ _ inferInstance inferInstance
instance decEqRustUse : DecidableEq (Path × List (Text × RustType × Int)) := @instDecidableEqProd _ _ inferInstance inferInstance
instance decEqCppMember : DecidableEq (Text × CppType × Int) := @instDecidableEqProd _ _ inferInstance inferInstance
instance decEqCppUse : DecidableEq (Text × List (Text × CppType × Int)) := @instDecidableEqProd _ _ inferInstance inferInstance
instance decEqCppUses : DecidableEq (List (Text × CppType × Int) × List (Text × List (Text × CppType × Int))) := @instDecidableEqProd _ _ inferInstance inferInstance

theorem programC_compiles : rustConstCompile programC = some [(["n".toList, "m".toList, "S".toList],
    [("a".toList, .int 32 true, -100000), ("type_".toList, .int 8 false, 255)])] := by decide +kernel
theorem headerC_compiles : cppConstCompile [] headerC = some (
    [("::n::MAX".toList, .int 8 false, 255), ("::n::NO_VALUE".toList, .int 32 true, -100000)],
    [("::n::m::S".toList, [("a".toList, .int 32 true, -100000), ("type".toList, .int 8 false, 255)])]) := by decide +kernel

attribute [local irreducible] Compile in
/-- The hypotheses of C93 hold of this schema, and the generated program and header are those above. -/
theorem C93_witness : Compile sourceC (.ok (treeOf blocksC)) ∧ Flat (treeOf blocksC) ∧ RustConstsNameable (treeOf blocksC) ∧
    rustConstProgram (treeOf blocksC) = .ok programC ∧ CppConstHeader (treeOf blocksC) (.ok headerC) := by
  have h := compile_accepted sourceC_parses blocksC_ok
  exact ⟨h, flat_check (compile_compiled h) sourceC_flat, rust_const_check (compile_compiled h) sourceC_rust, rustConstGives_ok programC_dec, cppConstGives_ok headerC_dec⟩

/-! ## Constants with lower-case letters -/

def sourceC1 : Text := "namespace n { const u8 noValue = 255; struct S { @optional(noValue) a : u8; } }".toList

theorem sourceC1_parses : parsesTo sourceC1 (blocksOf sourceC1) = true := by decide +kernel
theorem blocksC1_ok : accepted (blocksOf sourceC1) = true := by decide +kernel
theorem sourceC1_flat : flatCheck (treeOf (blocksOf sourceC1)) = true := by decide +kernel

def programC1 : List RustConstItem :=
  [.constant ["n".toList] "NO_VALUE".toList "u8".toList "255".toList,
    .structure ["n".toList] "S".toList [("a".toList, "u8".toList, "super::n::noValue".toList)]]

theorem programC1_dec : rustConstGives (treeOf (blocksOf sourceC1)) programC1 = true := by decide +kernel

attribute [local irreducible] Compile in
/-- **C93 (limits).** An accepted schema whose Rust code does not compile, because the constant is declared as `NO_VALUE` and used as `noValue`. -/
theorem C93_counterexample_lower_case : ∃ t items, Compile sourceC1 (.ok t) ∧ Flat t ∧ rustConstProgram t = .ok items ∧ rustConstCompile items = none := by
  have h := compile_accepted sourceC1_parses blocksC1_ok
  exact ⟨treeOf (blocksOf sourceC1), programC1, h, flat_check (compile_compiled h) sourceC1_flat, rustConstGives_ok programC1_dec, by decide +kernel⟩

def sourceC2 : Text := "namespace n { const u8 fooBar = 1; const u8 FOO_BAR = 2; }".toList

theorem sourceC2_parses : parsesTo sourceC2 (blocksOf sourceC2) = true := by decide +kernel
theorem blocksC2_ok : accepted (blocksOf sourceC2) = true := by decide +kernel

def programC2 : List RustConstItem :=
  [.constant ["n".toList] "FOO_BAR".toList "u8".toList "1".toList, .constant ["n".toList] "FOO_BAR".toList "u8".toList "2".toList]

theorem programC2_dec : rustConstGives (treeOf (blocksOf sourceC2)) programC2 = true := by decide +kernel

attribute [local irreducible] Compile in
/-- **C93 (limits).** Two constants of an accepted schema that get the same name in Rust. -/
theorem C93_counterexample_same_name : ∃ t items, Compile sourceC2 (.ok t) ∧ rustConstProgram t = .ok items ∧ rustConstCompile items = none :=
  ⟨treeOf (blocksOf sourceC2), programC2, compile_accepted sourceC2_parses blocksC2_ok, rustConstGives_ok programC2_dec, by decide +kernel⟩

def sourceC3 : Text := "namespace n { const bool YES = 1; }".toList

theorem sourceC3_parses : parsesTo sourceC3 (blocksOf sourceC3) = true := by decide +kernel
theorem blocksC3_ok : accepted (blocksOf sourceC3) = true := by decide +kernel

def programC3 : List RustConstItem := [.constant ["n".toList] "YES".toList "bool".toList "1".toList]

theorem programC3_dec : rustConstGives (treeOf (blocksOf sourceC3)) programC3 = true := by decide +kernel

attribute [local irreducible] Compile in
/-- **C93 (limits).** A constant of type `bool` is declared with an integer in Rust. -/
theorem C93_counterexample_bool : ∃ t items, Compile sourceC3 (.ok t) ∧ rustConstProgram t = .ok items ∧ rustConstCompile items = none :=
  ⟨treeOf (blocksOf sourceC3), programC3, compile_accepted sourceC3_parses blocksC3_ok, rustConstGives_ok programC3_dec, by decide +kernel⟩

end Props
