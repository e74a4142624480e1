import Verif.Props.Gen.Again
import Verif.Props.Gen.EvolutionSamples

/-!
# C106: a stored schema that compiles, and schemas that do not
-/

namespace Props
open Gen Spec

/-- Every node: no two explicit references get the same name with full paths, and resources that are referred to are in archives of the list. -/
def storableCheck (t : Tree) (archives : List Path) : Bool :=
  (t.iter []).all fun e =>
    (e.2.children.all fun r => r.children.all fun a => r.children.all fun b =>
      !decide (a.kind = .explicitReference) || !decide (b.kind = .explicitReference) || !decide (fullExplicitName a = fullExplicitName b) || decide (a.name = b.name)) &&
    (e.2.children.all fun r => !r.kind.isResourceReference || decide (r.targetPath.dropLast ∈ archives))

theorem storable_check {t : Tree} (hc : Compiled t) {archives : List Path} (h : storableCheck t archives = true) {q : Path} (ha : ∀ a ∈ archives, Reachable (depChildren t) q a) :
    ResourcesWithin t q ∧ ∀ p m, Reachable (depChildren t) q p → t.descend p = some m → ∀ r ∈ m.children, ExplicitApart r := by
  have key : ∀ p m, t.descend p = some m → _ := fun p m hm => List.all_eq_true.mp h _ ((iter_descend hc.lk.good).mpr hm)
  constructor
  · intro p m r _ hm hr hk
    have := key p m hm
    simp only [Bool.and_eq_true] at this
    have := List.all_eq_true.mp this.2 r hr
    simp only [hk, Bool.not_true, Bool.false_or, decide_eq_true_eq] at this
    exact ha _ this
  · intro p m _ hm r hr a hka b hkb h1 h2 h3
    have := key p m hm
    simp only [Bool.and_eq_true] at this
    have := List.all_eq_true.mp (List.all_eq_true.mp (List.all_eq_true.mp this.1 r hr) a hka) b hkb
    have hn : a.name = b.name := by simpa [h1, h2, h3] using this
    have hrd := hc.child hm hr
    have ea := descend_child hc.lk.good hrd hka
    have eb := descend_child hc.lk.good hrd hkb
    rw [hn, eb] at ea
    cases ea; rfl

/-! ## An archive with a constant, an enumeration, explicit references, bound resources, and another archive -/

def sourceStore : Text := "namespace m { enum E : u8 : 1 { A, B } const u32 LIMIT = 7; }
namespace n { struct S { @const(.m.LIMIT) f : u32 : 9; g : .m.E; }
archive R { v : vector< S >; }
@bound_implicitly(b: w, .n.R.v)
archive Q { r : archive R; @explicit_reference(S.f, .n.R.v) w : multivector< 33, S >; }
archive Other { d : raw_data; } }".toList

/-- What the generator does with a source (the number bounds the steps of the traversal). -/
def compileN (s : Text) : Option (M Tree) :=
  match parseSource s with
  | .ok b => buildAst 500 b
  | .error e => some (.error e)

theorem compileN_ok {s : Text} {t : Tree} (h : compileN s = some (.ok t)) : Compile s (.ok t) := by
  unfold compileN at h
  unfold Compile
  cases hp : parseSource s with
  | error e => rw [hp] at h; cases h
  | ok b => rw [hp] at h; exact ⟨500, h⟩

attribute [local irreducible] Compile in
theorem compileN_error {s : Text} {e : Err} (h : compileN s = some (.error e)) (t : Tree) : ¬ Compile s (.ok t) := by
  intro ht
  obtain ⟨bl, e1, e2, e3⟩ := compile_blocks ht
  unfold compileN at h
  rw [e1] at h
  obtain ⟨o, _, hu⟩ := C64_total fun b hb => lexical_plain (e2 b hb)
  have a1 := hu _ ⟨500, h⟩
  have a2 := hu _ e3
  rw [← a2] at a1
  cases a1

/-- The schema that is stored for the archive `n.Q`. -/
def storedStore : Text := "namespace m {
const u32 LIMIT = 7;
}

namespace m {
enum E : u8 : 1
{
    A = 0,
    B = 1,
}
}

namespace n {
struct S
{
    @const( .m.LIMIT )
    f : u32 : 9;
    g : .m.E : 1;
}
}

namespace n {
archive R
{
    v : vector< .n.S >;
}
}

namespace n {
@bound_implicitly( b : .n.Q.w, .n.R.v )
archive Q
{
    r : archive .n.R;
    @explicit_reference( .n.S.f, .n.R.v )
    w : multivector< 33, .n.S >;
}
}

".toList

/-- The schema of the archive at `q`, which refers to the archive at `c` in its resource at `d`, is the text, and it can be compiled. -/
def storeCheck (s : Text) (q d c : Path) (stored : Text) : Bool :=
  match parseSource s with
  | .ok b => b.all (fun b => decide ("_builtin".toList ∉ splitDot b.name)) && (match buildAst 500 b with
    | some (.ok t) => flatCheck t && builtinCheck t && simpleCheck t && storableCheck t [c, q] &&
        decide (d ∈ depChildren t q) && decide (c ∈ depChildren t d) &&
        decide (((t.descend q).map fun n => Spec.Kind.isDefinition n.kind) = some true) &&
        (match schemaN t q 500 with
          | some (.ok x) => decide (x = stored)
          | _ => false)
    | _ => false)
  | .error _ => false

theorem storable_of_check {s : Text} {q d c : Path} {stored : Text} (h : storeCheck s q d c stored = true) (hq : ¬ InBuiltin q) :
    ∃ t, Storable s t q ∧ Schema t q (.ok stored) := by
  unfold storeCheck at h
  cases hp : parseSource s with
  | error e => rw [hp] at h; cases h
  | ok b =>
  rw [hp] at h
  simp only [Bool.and_eq_true] at h
  obtain ⟨h0, h⟩ := h
  split at h
  · rename_i t ht
    simp only [Bool.and_eq_true, decide_eq_true_eq] at h
    obtain ⟨⟨⟨⟨⟨⟨⟨h1, h2⟩, h3⟩, h4⟩, h5⟩, h6⟩, h7⟩, h8⟩ := h
    have hco : Compile s (.ok t) := compileN_ok (by unfold compileN; rw [hp]; exact ht)
    have hc := compile_compiled hco
    obtain ⟨r1, r2⟩ := storable_check hc h4 (q := q) (by
      intro a ha
      simp only [List.mem_cons, List.not_mem_nil, or_false] at ha
      rcases ha with rfl | rfl
      · exact ⟨2, .step (.step (.refl _) h5) h6⟩
      · exact ⟨0, .refl _⟩)
    obtain ⟨n, hn, hd⟩ := Option.map_eq_some_iff.mp h7
    refine ⟨t, {
      compiled := hco
      flat := flat_check hc h1
      noBuiltin := builtin_check hc h2
      noBuiltinBlock := fun blocks hb => by
        rw [hp] at hb
        cases hb
        intro b hb
        exact of_decide_eq_true (List.all_eq_true.mp h0 b hb)
      simple := simple_check hc h3
      definition := ⟨n, hn, hd⟩
      outside := hq
      resources := r1
      explicit := r2 }, ?_⟩
    split at h8
    · rename_i x hx
      simp only [decide_eq_true_eq] at h8
      subst h8
      exact ⟨500, hx⟩
    · cases h8
  · cases h

theorem store_check : storeCheck sourceStore (pathOf "n.Q") (pathOf "n.Q.r") (pathOf "n.R") storedStore = true := by decide +kernel
theorem storedStore_other : storedStore ≠ sourceStore := by decide +kernel
theorem outsideStore : ¬ InBuiltin (pathOf "n.Q") := by decide +kernel

attribute [local irreducible] storedStore sourceStore Compile in
/-- The hypotheses of C106, and what it says about the archive. -/
theorem C106_witness : storedStore ≠ sourceStore ∧ ∃ t t' m m', Storable sourceStore t (pathOf "n.Q") ∧ Schema t (pathOf "n.Q") (.ok storedStore) ∧
    Compile storedStore (.ok t') ∧ t.descend (pathOf "n.Q") = some m ∧ t'.descend (pathOf "n.Q") = some m' ∧ meaning m' = meaning m := by
  obtain ⟨t, hs, hx⟩ := storable_of_check store_check outsideStore
  obtain ⟨t', ht⟩ := C106_compiles hs hx
  obtain ⟨m, hm, hd⟩ := hs.definition
  obtain ⟨m', h1, _, h2⟩ := C106_same hs hx ht ⟨0, .refl _⟩ hm hd hs.outside
  exact ⟨storedStore_other, t, t', m, m', hs, hx, ht, hm, h1, h2⟩

/-! ## What C106 excludes -/

/-- The source is accepted, but the schema of the definition is not. -/
def rejectedCheck (s : Text) (q : Path) : Bool :=
  match compileN s with
  | some (.ok t) => match schemaN t q 500 with
    | some (.ok x) => match compileN x with
      | some (.error _) => true
      | _ => false
    | _ => false
  | _ => false

attribute [local irreducible] Compile in
theorem rejected_check {s : Text} {q : Path} (h : rejectedCheck s q = true) :
    ∃ t x, Compile s (.ok t) ∧ Schema t q (.ok x) ∧ ∀ t', ¬ Compile x (.ok t') := by
  unfold rejectedCheck at h
  split at h
  · rename_i t ht
    split at h
    · rename_i x hx
      split at h
      · rename_i e he
        exact ⟨t, x, compileN_ok ht, ⟨500, hx⟩, compileN_error he⟩
      · cases h
    · cases h
  · cases h

/-- A reference to a resource of an archive that is not part of the schema: the stored text does not define that archive. -/
def sourceOutside : Text := "namespace n { struct S { f : u8; } archive R { v : vector< S >; } archive Q { @explicit_reference(S.f, .n.R.v) w : vector< S >; } }".toList

theorem outside_check : rejectedCheck sourceOutside (pathOf "n.Q") = true := by decide +kernel

/-- C106 needs `Storable.resources`. -/
theorem C106_counterexample_outside : ∃ t x, Compile sourceOutside (.ok t) ∧ Schema t (pathOf "n.Q") (.ok x) ∧ ∀ t', ¬ Compile x (.ok t') := rejected_check outside_check

/-- The same explicit reference, once with a relative and once with a full path: with full paths it is defined twice. -/
def sourceTwice : Text := "namespace n { struct S { f : u8; } archive R { v : vector< S >; @explicit_reference(S.f, v) @explicit_reference(.n.S.f, v) w : vector< S >; } }".toList

theorem twice_check : rejectedCheck sourceTwice (pathOf "n.R") = true := by decide +kernel

/-- C106 needs `Storable.explicit`. -/
theorem C106_counterexample_twice : ∃ t x, Compile sourceTwice (.ok t) ∧ Schema t (pathOf "n.R") (.ok x) ∧ ∀ t', ¬ Compile x (.ok t') := rejected_check twice_check

/-- The source and the schema of the definition are accepted, but the schemas of the definition differ. -/
def unstableCheck (s : Text) (q : Path) : Bool :=
  match compileN s with
  | some (.ok t) => match schemaN t q 500 with
    | some (.ok x) => match compileN x with
      | some (.ok t') => match schemaN t' q 500 with
        | some (.ok y) => !decide (x = y)
        | _ => false
      | _ => false
    | _ => false
  | _ => false

attribute [local irreducible] Compile in
theorem unstable_check {s : Text} {q : Path} (h : unstableCheck s q = true) :
    ∃ t x t' y, Compile s (.ok t) ∧ Schema t q (.ok x) ∧ Compile x (.ok t') ∧ Schema t' q (.ok y) ∧ x ≠ y := by
  unfold unstableCheck at h
  split at h
  · rename_i t ht
    split at h
    · rename_i x hx
      split at h
      · rename_i t' ht'
        split at h
        · rename_i y hy
          exact ⟨t, x, t', y, compileN_ok ht, ⟨500, hx⟩, compileN_ok ht', ⟨500, hy⟩, by simpa using h⟩
        · cases h
      · cases h
    · cases h
  · cases h

/-- `@optional` before `@const`: the schema prints them in the other order, so that the constants are found in the other order. -/
def sourceOptionalFirst : Text := "namespace n { const u8 A = 1; const u8 B = 2; struct S { @optional(B) @const(A) f : u8; } archive R { v : vector< S >; } }".toList

/-- Constants in several namespaces: in the stored text the namespaces begin in another order. -/
def sourceConstants : Text := "namespace a { const u8 A = 1; } namespace b { const u8 B = 2; struct S { f : u8; } } namespace c { archive R { v : vector< .b.S >; } }".toList

theorem optional_first_check : unstableCheck sourceOptionalFirst (pathOf "n.R") = true := by decide +kernel
theorem constants_check : unstableCheck sourceConstants (pathOf "c.R") = true := by decide +kernel

/-- What is compiled from a stored schema means the same by C106, but its schemas are not always the stored ones: a class generated from
the text stored in a directory may refuse that very directory, because it compares schemas literally. -/
theorem C106_unstable_decorations : ∃ t x t' y, Compile sourceOptionalFirst (.ok t) ∧ Schema t (pathOf "n.R") (.ok x) ∧ Compile x (.ok t') ∧
    Schema t' (pathOf "n.R") (.ok y) ∧ x ≠ y := unstable_check optional_first_check

theorem C106_unstable_constants : ∃ t x t' y, Compile sourceConstants (.ok t) ∧ Schema t (pathOf "c.R") (.ok x) ∧ Compile x (.ok t') ∧
    Schema t' (pathOf "c.R") (.ok y) ∧ x ≠ y := unstable_check constants_check

end Props
