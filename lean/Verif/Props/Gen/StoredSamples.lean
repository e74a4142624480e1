import Verif.Props.Gen.Stored
import Verif.Props.Gen.AgainSamples
import Verif.Props.Gen.EngineSamples

/-!
# C107: stored schemas that are fixpoints
-/

namespace Props
open Gen Spec Model

/-- `@optional` is last, and archives list the same constants in the same order. -/
def settledCheck (t t' : Tree) : Bool :=
  (t.iter []).all fun e => match e.2.kind with
    | .structure _ => e.2.children.all fun f => decide (f.children.Pairwise fun x y => ¬ (x.kind = .ref .invalidValue ∧ y.kind = .ref .constantValue))
    | .archive => match t'.descend e.1 with
      | some m' => decide (constantsListed e.2 = constantsListed m') && decide (constantsListed e.2).Nodup
      | none => true
    | _ => true

theorem sameOrder_refl {V : Type} {l : List V} (h : l.Nodup) : SameOrder l l := by
  intro a b h1 h2
  induction l with
  | nil => cases h1
  | cons c l ih =>
    obtain ⟨n1, n2⟩ := List.nodup_cons.mp h
    cases h1 with
    | cons _ h1 =>
      cases h2 with
      | cons _ h2 => exact ih n2 h1 h2
      | cons_cons _ h2 => exact n1 (h1.subset (by simp))
    | cons_cons _ h1 =>
      cases h2 with
      | cons _ h2 => exact n1 (h2.subset (by simp))
      | cons_cons _ h2 => exact n1 (h1.subset (by simp))

theorem settled_check {t t' : Tree} (hc : Compiled t) (h : settledCheck t t' = true) : Settled t t' := by
  have key : ∀ p m, t.descend p = some m → _ := fun p m hm => List.all_eq_true.mp h _ ((iter_descend hc.lk.good).mpr hm)
  constructor
  · intro p m sz hm hk f hf
    have := key p m hm
    simp only [hk] at this
    have := List.all_eq_true.mp this f hf
    rw [decide_eq_true_eq] at this
    exact this
  · intro p m m' hm hm' hk
    have := key p m hm
    simp only [hk, hm', Bool.and_eq_true, decide_eq_true_eq] at this
    rw [← this.1]
    exact sameOrder_refl this.2

/-- What is compiled from the source and from the text is as `Settled` says. -/
def settledTexts (s stored : Text) : Bool :=
  match compileN s, compileN stored with
  | some (.ok t), some (.ok t') => settledCheck t t'
  | _, _ => false

attribute [local irreducible] Compile in
theorem settled_texts {s stored : Text} (h : settledTexts s stored = true) {t t' : Tree} (ht : Compile s (.ok t)) (ht' : Compile stored (.ok t')) : Settled t t' := by
  unfold settledTexts at h
  split at h
  · rename_i u u' hu hu'
    have e := compile_unique ht (compileN_ok hu)
    have e' := compile_unique ht' (compileN_ok hu')
    cases e; cases e'
    exact settled_check (compile_compiled ht) h
  · cases h

/-! ## The archive of C106 -/

theorem settledStore : settledTexts sourceStore storedStore = true := by decide +kernel

attribute [local irreducible] storedStore sourceStore Compile in
/-- The hypotheses of C107, with a constant, an enumeration, explicit references and an archive in an archive. -/
theorem C107_witness : storedStore ≠ sourceStore ∧ ∃ t t', Storable sourceStore t (pathOf "n.Q") ∧ Schema t (pathOf "n.Q") (.ok storedStore) ∧
    Compile storedStore (.ok t') ∧ Settled t t' ∧ Schema t' (pathOf "n.Q") (.ok storedStore) := by
  obtain ⟨t, hs, hx⟩ := storable_of_check store_check outsideStore
  obtain ⟨t', ht⟩ := C106_compiles hs hx
  have hset := settled_texts settledStore hs.compiled ht
  exact ⟨storedStore_other, t, t', hs, hx, ht, hset, C107_fixpoint hs hx ht hset⟩

/-! ## Two constants -/

def sourceTwo : Text := "namespace n { const u8 A = 1; const i8 B = -2; struct S { @optional(.n.C) f : u8; } const u8 C = 3; archive R { v : vector< S >; r : archive T; } archive T { d : raw_data; } }".toList

def storedTwo : Text := "namespace n {
const u8 C = 3;
}

namespace n {
struct S
{
    @optional( .n.C )
    f : u8 : 8;
}
}

namespace n {
const u8 A = 1;
}

namespace n {
const i8 B = -2;
}

namespace n {
archive T
{
    d : raw_data;
}
}

namespace n {
archive R
{
    v : vector< .n.S >;
    r : archive .n.T;
}
}

".toList

theorem two_check : storeCheck sourceTwo (pathOf "n.R") (pathOf "n.R.r") (pathOf "n.T") storedTwo = true := by decide +kernel
theorem settledTwo : settledTexts sourceTwo storedTwo = true := by decide +kernel
theorem outsideTwo : ¬ InBuiltin (pathOf "n.R") := by decide +kernel

attribute [local irreducible] storedTwo sourceTwo Compile in
theorem C107_witness_two : ∃ t t', Storable sourceTwo t (pathOf "n.R") ∧ Schema t (pathOf "n.R") (.ok storedTwo) ∧
    Compile storedTwo (.ok t') ∧ Settled t t' ∧ Schema t' (pathOf "n.R") (.ok storedTwo) := by
  obtain ⟨t, hs, hx⟩ := storable_of_check two_check outsideTwo
  obtain ⟨t', ht⟩ := C106_compiles hs hx
  have hset := settled_texts settledTwo hs.compiled ht
  exact ⟨t, t', hs, hx, ht, hset, C107_fixpoint hs hx ht hset⟩

/-! ## A directory written by a generated builder -/

theorem storableA : (simpleCheck (treeOf blocksA) && storableCheck (treeOf blocksA) [pathOf "n.R"]) = true := by decide +kernel
theorem settledA : settledCheck (treeOf blocksA) (treeOf blocksStored) = true := by decide +kernel
theorem rootA : (match findRootNamespace (treeOf blocksA) with | .ok n => n.name = "n".toList | _ => false) = true := by decide +kernel
theorem definitionA : ((treeOf blocksA).descend (pathOf "n.R")).map (fun n => Spec.Kind.isDefinition n.kind) = some true := by decide +kernel
theorem pathR : pathOf "n.R" = ["n".toList, "R".toList] ∧ ¬ InBuiltin (pathOf "n.R") := by decide +kernel

attribute [local irreducible] Compile in
/-- The inspector opens the directory of C67: the case of C107. -/
theorem C107_witness_inspector : ∃ engine A node l v, IsEngine engine ∧ Storable sourceA (treeOf blocksA) (pathOf "n.R") ∧ Importable (treeOf blocksA) ∧
    ArchiveAt (treeOf blocksA) (pathOf "n.R") A ∧ openArchive A .files node = .ok l ∧
    inspectorOpen engine (.dir ["R.archive".toList] node) none = .ok (A, l) ∧ l.lookup "v" = some (.vector v) ∧ v.len = .ok 2 := by
  obtain ⟨_, _, A, l, v, _, _, _, hA, _, _, ho, hl, hv, _⟩ := C67_witness
  obtain ⟨engine, hE⟩ := engine_exists
  obtain ⟨h1, h2, h3, hi⟩ := C60_witness
  have hc := compile_compiled h1
  have hck := storableA
  simp only [Bool.and_eq_true] at hck
  obtain ⟨r1, r2⟩ := storable_check hc hck.2 (q := pathOf "n.R") (by
    intro a ha
    simp only [List.mem_cons, List.not_mem_nil, or_false] at ha
    rw [ha]; exact ⟨0, .refl _⟩)
  obtain ⟨n, hn, hd⟩ := Option.map_eq_some_iff.mp definitionA
  have hst : Storable sourceA (treeOf blocksA) (pathOf "n.R") := {
    compiled := h1
    flat := h2
    noBuiltin := h3
    noBuiltinBlock := fun blocks hb => by
      rw [parses_blocks sourceA_parses] at hb
      cases hb
      exact builtinA
    simple := simple_check hc hck.1
    definition := ⟨n, hn, hd⟩
    outside := pathR.2
    resources := r1
    explicit := r2 }
  have hroot : OnlyNamespace (treeOf blocksA) "n".toList := by
    have hr := rootA
    cases hx : findRootNamespace (treeOf blocksA) with
    | error e => rw [hx] at hr; cases hr
    | ok n =>
      rw [hx] at hr
      exact (C104_root_namespace hc.lk.good _).mp ⟨n, hx, by simpa using hr⟩
  have hch : Chosen ["R.archive".toList] none "R".toList := by
    refine ⟨by unfold HasArchive; decide +kernel, fun b hb => ?_⟩
    simp only [HasArchive, List.mem_singleton] at hb
    have : "R.archive".toList = "R".toList ++ ".archive".toList := by decide +kernel
    rw [this] at hb
    exact List.append_cancel_right hb
  have hx : Schema (treeOf blocksA) (pathOf "n.R") (.ok storedA) := schemaOf_ok schemasR.2
  refine ⟨engine, A, _, l, v, hE, hst, hi, hA, ho, ?_, hl, hv⟩
  rw [pathR.1] at hst hx hA
  refine C107_inspector hE hst hx (fun t' ht => ?_) hi hroot hA (by simp) hch ho
  have e := compile_unique ht storedA_ok
  subst e
  exact settled_check hc settledA

end Props
