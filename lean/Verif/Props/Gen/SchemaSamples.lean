import Verif.Props.Gen.Schema

/-!
# C56, C57: concrete schemas, and what the theorems exclude
-/

namespace Props
open Gen Spec

/-- The tree of parsed text, if it is accepted (the number bounds the steps of the traversal). -/
def treeOf (blocks : List PBlock) : Tree :=
  match buildAst 500 blocks with
  | some (.ok t) => t
  | _ => .root

def accepted (blocks : List PBlock) : Bool :=
  match buildAst 500 blocks with
  | some (.ok _) => true
  | _ => false

def parsesTo (s : Text) (blocks : List PBlock) : Bool :=
  match parseSource s with
  | .ok b => b = blocks
  | _ => false

theorem compile_accepted {s : Text} {blocks : List PBlock} (hp : parsesTo s blocks = true) (h : accepted blocks = true) : Compile s (.ok (treeOf blocks)) := by
  have hp : parseSource s = .ok blocks := by
    unfold parsesTo at hp
    cases h : parseSource s with
    | error e => rw [h] at hp; cases hp
    | ok b => rw [h] at hp; simp only [decide_eq_true_eq] at hp; rw [hp]
  unfold accepted at h
  unfold Compile treeOf
  rw [hp]
  simp only
  cases hb : buildAst 500 blocks with
  | none => rw [hb] at h; cases h
  | some o =>
    cases o with
    | error e => rw [hb] at h; cases h
    | ok t => exact ⟨500, hb⟩

def schemaOf (t : Tree) (q : Path) : Text :=
  match schemaN t q 500 with
  | some (.ok x) => x
  | _ => []

theorem schemaOf_ok {t : Tree} {q : Path} (h : schemaOf t q ≠ []) : Schema t q (.ok (schemaOf t q)) := by
  refine ⟨500, ?_⟩
  unfold schemaOf at h ⊢
  cases hs : schemaN t q 500 with
  | none => rw [hs] at h; exact absurd rfl h
  | some o =>
    cases o with
    | error e => rw [hs] at h; exact absurd rfl h
    | ok x => rfl

def flatCheck (t : Tree) : Bool :=
  (t.iter []).all fun e => e.2.kind ≠ .namespace || e.1.length ≤ 1 || (match t.descend e.1.dropLast with
    | some m => m.kind = .namespace
    | none => false)

theorem flat_check {t : Tree} (hc : Compiled t) (h : flatCheck t = true) : Flat t := by
  intro q k n hn hk
  have := List.all_eq_true.mp h _ ((iter_descend hc.lk.good).mpr hn)
  simp only [hk, List.dropLast_concat, List.length_append, List.length_cons, List.length_nil, Bool.or_eq_true, decide_eq_true_eq, ne_eq, not_true_eq_false,
    decide_false, Bool.false_eq_true, false_or] at this
  rcases this with h | h
  · left; exact List.length_eq_zero_iff.mp (by omega)
  · right
    cases hm : t.descend q with
    | none => rw [hm] at h; cases h
    | some m => rw [hm] at h; exact ⟨m, rfl, by simpa using h⟩

def builtinCheck (t : Tree) : Bool :=
  (t.iter []).all fun e => match e.2.kind with
    | .ref rk => rk = .builtinStructure || decide ("_builtin".toList ∉ e.2.targetPath)
    | _ => true

theorem builtin_check {t : Tree} (hc : Compiled t) (h : builtinCheck t = true) : NoBuiltin t := by
  intro q r rk hr hk hne
  have := List.all_eq_true.mp h _ ((iter_descend hc.lk.good).mpr hr)
  simp only [hk, Bool.or_eq_true, decide_eq_true_eq] at this
  exact this.resolve_left hne

def identCheck (t : Tree) : Bool := (t.iter []).all fun e => e.2.kind ≠ .namespace || (e.2.name.head?.any isIdStart && e.2.name.all isIdChar)

theorem ident_check {t : Tree} (hc : Compiled t) (h : identCheck t = true) : ∀ p m, t.descend p = some m → m.kind = .namespace → Ident m.name := by
  intro p m hm hk
  have := List.all_eq_true.mp h _ ((iter_descend hc.lk.good).mpr hm)
  simp only [hk, Bool.and_eq_true, Bool.or_eq_true, decide_eq_true_eq, ne_eq, not_true_eq_false, decide_false, Bool.false_eq_true, false_or] at this
  obtain ⟨h1, h2⟩ := this
  refine ⟨?_, fun c hc => (isIdChar_iff c).mp (List.all_eq_true.mp h2 c hc)⟩
  cases hh : m.name.head? with
  | none => rw [hh] at h1; cases h1
  | some c => rw [hh] at h1; exact ⟨c, rfl, (isIdStart_iff c).mp h1⟩

def simpleCheck (t : Tree) : Bool :=
  ((t.iter []).all fun e => !(Spec.Kind.isDefinition e.2.kind) || decide (InBuiltin e.1) || e.1.length = 2) && identCheck t

theorem simple_check {t : Tree} (hc : Compiled t) (h : simpleCheck t = true) : SimpleNamespaces t := by
  simp only [simpleCheck, Bool.and_eq_true] at h
  refine ⟨?_, ident_check hc h.2⟩
  intro p m hm hd hp
  have := List.all_eq_true.mp h.1 _ ((iter_descend hc.lk.good).mpr hm)
  simp only [hd, Bool.or_eq_true, decide_eq_true_eq, Bool.not_true, Bool.false_eq_true, false_or] at this
  exact this.resolve_left hp

/-! ## A schema, written in two ways -/

def sourceA : Text := "namespace n {
enum E : u8 : 1 { A, B }
struct S { f : u8 : 5; g : E; }
archive R {
v : vector< S >;
@optional @explicit_reference(S.f, v) w : multivector< 33, S >;
} }".toList

def blocksA : List PBlock :=
  [{ name := "n".toList
     constants := []
     structures := [⟨"S".toList, [⟨"f".toList, [], "u8".toList, some 5⟩, ⟨"g".toList, [], "E".toList, none⟩]⟩]
     enumerations := [⟨"E".toList, .u8, some 1, [("A".toList, none), ("B".toList, none)]⟩]
     archives := [⟨"R".toList, [], [⟨"v".toList, [], .vector "S".toList⟩,
       ⟨"w".toList, [.optional, .explicitReference "S".toList "f".toList "v".toList], .multivector 33 ["S".toList]⟩]⟩] }]

def sourceB : Text := "namespace m { archive Q { r : archive .n.R; } }
/* E */ namespace n { enum E : u8 : 1 { A, B = 1 } struct S { f : u8 : 0005; g : .n.E; } }
namespace n { archive R {
v : vector< .n.S >;
@optional @explicit_reference(.n.S.f, v) w : multivector< 33, .n.S >;
} }".toList

def blocksB : List PBlock :=
  [{ name := "m".toList, constants := [], structures := [], enumerations := [],
     archives := [⟨"Q".toList, [], [⟨"r".toList, [], .archive ".n.R".toList⟩]⟩] },
   { name := "n".toList, constants := [], structures := [⟨"S".toList, [⟨"f".toList, [], "u8".toList, some 5⟩, ⟨"g".toList, [], ".n.E".toList, none⟩]⟩],
     enumerations := [⟨"E".toList, .u8, some 1, [("A".toList, none), ("B".toList, some 1)]⟩], archives := [] },
   { name := "n".toList, constants := [], structures := [], enumerations := [],
     archives := [⟨"R".toList, [], [⟨"v".toList, [], .vector ".n.S".toList⟩,
       ⟨"w".toList, [.optional, .explicitReference ".n.S".toList "f".toList "v".toList], .multivector 33 [".n.S".toList]⟩]⟩] }]

def pathOf (s : String) : Path := (splitDot s.toList)


theorem sourceA_parses : parsesTo sourceA blocksA = true := by decide +kernel
theorem sourceB_parses : parsesTo sourceB blocksB = true := by decide +kernel
theorem blocksA_ok : accepted blocksA = true := by decide +kernel
theorem blocksB_ok : accepted blocksB = true := by decide +kernel
attribute [local irreducible] Compile in
theorem sourceA_ok : Compile sourceA (.ok (treeOf blocksA)) := compile_accepted sourceA_parses blocksA_ok
attribute [local irreducible] Compile in
theorem sourceB_ok : Compile sourceB (.ok (treeOf blocksB)) := compile_accepted sourceB_parses blocksB_ok

/-! ### The facts about the two sources, one by one -/

theorem checksA : (flatCheck (treeOf blocksA) && builtinCheck (treeOf blocksA) && simpleCheck (treeOf blocksA)) = true := by decide +kernel
theorem checksB : (flatCheck (treeOf blocksB) && builtinCheck (treeOf blocksB) && simpleCheck (treeOf blocksB)) = true := by decide +kernel

def schemaR : Text := "namespace n {
enum E : u8 : 1
{
    A = 0,
    B = 1,
}
}

namespace n {
struct S
{
    f : u8 : 5;
    g : .n.E : 1;
}
}

namespace n {
archive R
{
    v : vector< .n.S >;
    @explicit_reference( .n.S.f, .n.R.v )
    @optional
    w : multivector< 33, .n.S >;
}
}

".toList

def schemaRw : Text := "namespace n {
enum E : u8 : 1
{
    A = 0,
    B = 1,
}
}

namespace n {
struct S
{
    f : u8 : 5;
    g : .n.E : 1;
}
}

namespace n {
archive R
{
    @explicit_reference( .n.S.f, .n.R.v )
    @optional
    w : multivector< 33, .n.S >;
}
}

".toList

theorem schemaOf_is {t : Tree} {q : Path} {x : Text} (hne : x ≠ []) (h : schemaOf t q = x) : Schema t q (.ok x) := by
  subst h
  exact schemaOf_ok hne

theorem schemaA_R : schemaOf (treeOf blocksA) (pathOf "n.R") = schemaR := by decide +kernel
theorem schemaB_R : schemaOf (treeOf blocksB) (pathOf "n.R") = schemaR := by decide +kernel
theorem schemaA_Rw : schemaOf (treeOf blocksA) (pathOf "n.R.w") = schemaRw := by decide +kernel
theorem schemaB_Rw : schemaOf (treeOf blocksB) (pathOf "n.R.w") = schemaRw := by decide +kernel
theorem kindsA : (((treeOf blocksA).descend (pathOf "n.R")).map Tree.kind = some .archive ∧
    (((treeOf blocksA).descend (pathOf "n.R.w")).map fun n => n.kind.isResource) = some true) := by decide +kernel
theorem countsAB : (treeOf blocksA).children.length ≠ (treeOf blocksB).children.length := by decide +kernel

attribute [local irreducible] Compile in
/-- All hypotheses of `C56_definitions`, `C57_definitions`, `C56_resources` and `C57_resources`, for the archive `n.R` and its
resource `w` in both sources. -/
theorem C57_witness : Flat (treeOf blocksA) ∧ Flat (treeOf blocksB) ∧ NoBuiltin (treeOf blocksA) ∧ NoBuiltin (treeOf blocksB) ∧
    SimpleNamespaces (treeOf blocksA) ∧ SimpleNamespaces (treeOf blocksB) ∧
    (Schema (treeOf blocksA) (pathOf "n.R") (.ok schemaR) ∧ Schema (treeOf blocksB) (pathOf "n.R") (.ok schemaR)) ∧
    (Schema (treeOf blocksA) (pathOf "n.R.w") (.ok schemaRw) ∧ Schema (treeOf blocksB) (pathOf "n.R.w") (.ok schemaRw)) ∧
    ((treeOf blocksA).descend (pathOf "n.R")).map Tree.kind = some .archive ∧
    (((treeOf blocksA).descend (pathOf "n.R.w")).map fun n => n.kind.isResource) = some true ∧
    treeOf blocksA ≠ treeOf blocksB := by
  have ha := compile_compiled sourceA_ok
  have hb := compile_compiled sourceB_ok
  have h1 := checksA
  have h2 := checksB
  simp only [Bool.and_eq_true] at h1 h2
  have e1 : schemaR ≠ [] := by decide +kernel
  have e2 : schemaRw ≠ [] := by decide +kernel
  exact ⟨flat_check ha h1.1.1, flat_check hb h2.1.1, builtin_check ha h1.1.2, builtin_check hb h2.1.2, simple_check ha h1.2, simple_check hb h2.2,
    ⟨schemaOf_is e1 schemaA_R, schemaOf_is e1 schemaB_R⟩, ⟨schemaOf_is e2 schemaA_Rw, schemaOf_is e2 schemaB_Rw⟩, kindsA.1, kindsA.2,
    fun h => countsAB (by rw [h])⟩

/-- The layouts the two sources agree on. -/
example : ((treeOf blocksB).descend (pathOf "n.S")).bind meaning = some (.structure "S".toList (some 6) [⟨"f".toList, some 0, 5, false⟩, ⟨"g".toList, some 5, 1, false⟩]) := by
  decide +kernel

/-! ## What the theorems exclude -/

/-- A structure in a namespace called `_builtin`. -/
def sourceBuiltin (type : String) : Text :=
  "namespace _builtin { struct S { a : ".toList ++ type.toList ++ "; } } namespace n { archive A { v : vector< ._builtin.S >; } }".toList

def blocksBuiltin (type : String) : List PBlock :=
  [{ name := "_builtin".toList, constants := [], structures := [⟨"S".toList, [⟨"a".toList, [], type.toList, none⟩]⟩], enumerations := [], archives := [] },
   { name := "n".toList, constants := [], structures := [], enumerations := [], archives := [⟨"A".toList, [], [⟨"v".toList, [], .vector "._builtin.S".toList⟩]⟩] }]

def schemaAv : Text := "namespace n {\narchive A\n{\n    v : vector<  >;\n}\n}\n\n".toList

theorem builtin8 : parsesTo (sourceBuiltin "u8") (blocksBuiltin "u8") = true ∧ accepted (blocksBuiltin "u8") = true ∧ flatCheck (treeOf (blocksBuiltin "u8")) = true ∧
    schemaOf (treeOf (blocksBuiltin "u8")) (pathOf "n.A.v") = schemaAv ∧ pathOf "_builtin.S" ∈ depChildren (treeOf (blocksBuiltin "u8")) (pathOf "n.A.v") := by
  refine ⟨by decide +kernel, by decide +kernel, by decide +kernel, by decide +kernel, by decide +kernel⟩
theorem builtin64 : parsesTo (sourceBuiltin "i64") (blocksBuiltin "i64") = true ∧ accepted (blocksBuiltin "i64") = true ∧ flatCheck (treeOf (blocksBuiltin "i64")) = true ∧
    schemaOf (treeOf (blocksBuiltin "i64")) (pathOf "n.A.v") = schemaAv := by
  refine ⟨by decide +kernel, by decide +kernel, by decide +kernel, by decide +kernel⟩
theorem builtins_differ : ((treeOf (blocksBuiltin "u8")).descend (pathOf "_builtin.S")).bind meaning ≠
    ((treeOf (blocksBuiltin "i64")).descend (pathOf "_builtin.S")).bind meaning := by decide +kernel

attribute [local irreducible] Compile in
/-- C57 is false for schemas that refer into a namespace called `_builtin`: structures there do not appear in schema texts.
A reader and a writer whose structures have different layouts accept each other's data. -/
theorem C57_counterexample_builtin : ∃ s s' t t' x, Compile s (.ok t) ∧ Compile s' (.ok t') ∧ Flat t ∧ Flat t' ∧ Schema t (pathOf "n.A.v") (.ok x) ∧
    Schema t' (pathOf "n.A.v") (.ok x) ∧ Reachable (depChildren t) (pathOf "n.A.v") (pathOf "_builtin.S") ∧
    (t.descend (pathOf "_builtin.S")).bind meaning ≠ (t'.descend (pathOf "_builtin.S")).bind meaning := by
  obtain ⟨a1, a2, a3, a4, a5⟩ := builtin8
  obtain ⟨b1, b2, b3, b4⟩ := builtin64
  have h1 := compile_accepted a1 a2
  have h2 := compile_accepted b1 b2
  have e1 : schemaAv ≠ [] := by decide +kernel
  exact ⟨_, _, _, _, schemaAv, h1, h2, flat_check (compile_compiled h1) a3, flat_check (compile_compiled h2) b3, schemaOf_is e1 a4, schemaOf_is e1 b4,
    ⟨1, .step (.refl _) a5⟩, builtins_differ⟩

def sourceNested : Text := "namespace a.b { struct S { f : u8; } }".toList

def blocksNested : List PBlock :=
  [{ name := "a.b".toList, constants := [], structures := [⟨"S".toList, [⟨"f".toList, [], "u8".toList, none⟩]⟩], enumerations := [], archives := [] }]

def schemaNested : Text := "namespace a {\nnamespace b {\nstruct S\n{\n    f : u8 : 8;\n}\n}\n}\n\n".toList

theorem nested_facts : parsesTo sourceNested blocksNested = true ∧ accepted blocksNested = true ∧ flatCheck (treeOf blocksNested) = true ∧
    builtinCheck (treeOf blocksNested) = true ∧ identCheck (treeOf blocksNested) = true ∧ schemaOf (treeOf blocksNested) (pathOf "a.b.S") = schemaNested ∧
    (((treeOf blocksNested).descend (pathOf "a.b.S")).map fun n => Spec.Kind.isDefinition n.kind) = some true := by
  refine ⟨by decide +kernel, by decide +kernel, by decide +kernel, by decide +kernel, by decide +kernel, by decide +kernel, by decide +kernel⟩

attribute [local irreducible] Compile parseSource in
/-- A schema that `C56_nested` speaks about. -/
theorem C56_nested_witness : Compile sourceNested (.ok (treeOf blocksNested)) ∧ Flat (treeOf blocksNested) ∧ NoBuiltin (treeOf blocksNested) ∧
    (∀ p m, (treeOf blocksNested).descend p = some m → m.kind = .namespace → Ident m.name) ∧
    Schema (treeOf blocksNested) (pathOf "a.b.S") (.ok schemaNested) ∧ parseSource schemaNested = .error .parsingError := by
  obtain ⟨a1, a2, a3, a4, a5, a6, a7⟩ := nested_facts
  have h := compile_accepted a1 a2
  have hc := compile_compiled h
  have hs : Schema (treeOf blocksNested) (pathOf "a.b.S") (.ok schemaNested) := schemaOf_is (by decide +kernel) a6
  obtain ⟨n, hn, hd⟩ := Option.map_eq_some_iff.mp a7
  exact ⟨h, flat_check hc a3, builtin_check hc a4, ident_check hc a5, hs,
    C56_nested h (flat_check hc a3) (builtin_check hc a4) (ident_check hc a5) hn hd (by decide) hs ⟨0, .refl _⟩ hn hd (by decide) (by decide)⟩

end Props
