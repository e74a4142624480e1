import Verif.Props.Gen.NativeNames
import Verif.Props.Gen.NativeArchivesSamples

/-!
# C99: a concrete schema, and what the theorems exclude
-/

namespace Props
open Py Gen Spec Model Model.Native _root_.Native

/-! ## Checks -/

instance (x : RustNames) : Decidable (RustItemOk x) :=
  decidable_of_iff (RustIdent x.name ∧ (∀ y ∈ x.fields ++ x.functions ++ x.locals, RustIdent y) ∧ x.fields.Nodup ∧ x.functions.Nodup ∧ x.locals.Nodup ∧
    ∀ ty ∈ x.readTypes, (rustBuiltin ty).isSome) ⟨fun ⟨a, b, c, d, e, f⟩ => ⟨a, b, c, d, e, f⟩, fun ⟨a, b, c, d, e, f⟩ => ⟨a, b, c, d, e, f⟩⟩

instance (l : List RustNames) : Decidable (RustNamesOk l) :=
  decidable_of_iff ((∀ x ∈ l, RustItemOk x) ∧ (∀ x ∈ l, ∀ y ∈ l, y.scope = x.scope → y.isConstant = false → y.name ∉ x.uses) ∧
    ∀ x ∈ l, ∀ c ∈ l, c.isConstant = true → c.scope = x.scope → c.name ∉ x.locals) ⟨fun ⟨a, b, c⟩ => ⟨a, b, c⟩, fun ⟨a, b, c⟩ => ⟨a, b, c⟩⟩

/-- A check for `RustMembersNameable`. -/
def rustMembersCheck (t : Tree) : Bool := (t.iter []).all fun e =>
  let typeOk := decide (e.2.name ≠ "_".toList) && decide (e.2.name ∉ rustKeywords) && decide (e.2.name ∉ rustUsed)
  match e.2.kind with
  | .namespace => decide (RustIdent e.2.name) && (e.1.dropLast.isEmpty || decide (e.2.name ∉ rustUsed)) &&
      e.2.children.all fun a => a.kind ≠ .archive || (resourcesOf a).all fun r => e.2.children.all fun c => match c.kind with
        | .constant _ _ => decide (rustConstName c.name ≠ r.name)
        | _ => true
  | .structure _ => typeOk && decide (memberNames e.2).Nodup &&
      (memberNames e.2).all fun x => decide (x ∉ rustTaken) && !['_'].isSuffixOf x && !"set_".toList.isPrefixOf x
  | .enumeration _ => typeOk && (e.2.children.all fun v => e.2.children.all fun v' => decide (plainLetters v.name ≠ plainLetters v'.name ∨ v.name = v'.name)) &&
      e.2.children.all fun v => decide (v.name.head? ≠ some '_') && decide (plainLetters v.name ≠ "self".toList)
  | .archive => typeOk && decide (camelToSnake e.2.name ∉ rustKeywords) && (resourcesOf e.2).all fun r => decide (r.name ∉ rustKeywords) &&
      decide (r.name ∉ ["_", "_storage", "signature_name", "open", "storage", "extend"].map String.toList)
  | .constant _ _ => decide (e.2.name ≠ "_".toList)
  | .field (.enum _ _) (some _) _ => false
  | .resource .archive _ _ => decide (e.2.name ≠ "new".toList) && !"set_".toList.isPrefixOf e.2.name && !"start_".toList.isPrefixOf e.2.name
  | .resource (.multivector _) _ _ => decide (e.2.name.head? ≠ some '_') && decide (upperCamel e.2.name ∉ rustUsed) && decide (plainLetters e.2.name ≠ "self".toList)
  | _ => true

theorem rust_members_check {t : Tree} (hc : Compiled t) (h : rustMembersCheck t = true) : RustMembersNameable t := by
  have key := fun q m (hm : t.descend q = some m) => List.all_eq_true.mp h (q, m) ((iter_descend hc.lk.good).mpr hm)
  refine ⟨?_, ?_, ?_, ?_, ?_, ?_, ?_, ?_, ?_, ?_, ?_⟩
  · intro p n hn hk
    have := key p n hn
    simp only [hk, Bool.and_eq_true, Bool.or_eq_true, decide_eq_true_eq, List.isEmpty_iff] at this
    exact ⟨this.1.1, fun h0 => this.1.2.resolve_left h0⟩
  · intro p n hn hk
    have := key p n hn
    rcases hk with ⟨sz, hk⟩ | ⟨b, hk⟩ | hk <;> simp only [hk, Bool.and_eq_true, decide_eq_true_eq] at this
    · exact ⟨this.1.1.1.1, this.1.1.1.2, this.1.1.2⟩
    · exact ⟨this.1.1.1.1, this.1.1.1.2, this.1.1.2⟩
    · exact ⟨this.1.1.1.1, this.1.1.1.2, this.1.1.2⟩
  · intro p n b v hn hk
    have := key p n hn
    simp only [hk, decide_eq_true_eq] at this
    exact this
  · intro p n sz hn hk
    have := key p n hn
    simp only [hk, Bool.and_eq_true, decide_eq_true_eq] at this
    refine ⟨this.1.2, fun x hx => ?_⟩
    have := List.all_eq_true.mp this.2 x hx
    simp only [Bool.and_eq_true, decide_eq_true_eq, Bool.not_eq_true'] at this
    refine ⟨this.1.1, fun h0 => ?_, fun h0 => ?_⟩
    · rw [List.isSuffixOf_iff_suffix.mpr h0] at this; cases this.1.2
    · rw [List.isPrefixOf_iff_prefix.mpr h0] at this; cases this.2
  · intro q f b name r o hq hk
    have := key q f hq
    simp only [hk] at this
    cases this
  · intro p n b hn hk
    have := key p n hn
    simp only [hk, Bool.and_eq_true, decide_eq_true_eq] at this
    refine ⟨fun v hv v' hv' he => ?_, fun v hv => ?_⟩
    · have h0 := of_decide_eq_true (List.all_eq_true.mp (List.all_eq_true.mp this.1.2 v hv) v' hv')
      exact same_child hc hn hv hv' (h0.resolve_left fun h1 => h1 he)
    · have h0 := List.all_eq_true.mp this.2 v hv
      simp only [Bool.and_eq_true, decide_eq_true_eq] at h0
      exact h0
  · intro p n hn hk
    have := key p n hn
    simp only [hk, Bool.and_eq_true, decide_eq_true_eq] at this
    exact this.1.2
  · intro p n hn hk r hr
    have := key p n hn
    simp only [hk, Bool.and_eq_true] at this
    have h0 := List.all_eq_true.mp this.2 r hr
    simp only [Bool.and_eq_true, decide_eq_true_eq] at h0
    exact h0
  · intro q r o m hq hk
    have := key q r hq
    simp only [hk, Bool.and_eq_true, decide_eq_true_eq, Bool.not_eq_true'] at this
    refine ⟨this.1.1, fun h0 => ?_, fun h0 => ?_⟩
    · rw [List.isPrefixOf_iff_prefix.mpr h0] at this; cases this.1.2
    · rw [List.isPrefixOf_iff_prefix.mpr h0] at this; cases this.2
  · intro q r w o m hq hk
    have := key q r hq
    simp only [hk, Bool.and_eq_true, decide_eq_true_eq] at this
    exact ⟨this.1.1, this.1.2, this.2⟩
  · intro p n hn hk a ha hka r hr c hcm b v hkc
    have := key p n hn
    simp only [hk, Bool.and_eq_true] at this
    have h0 := List.all_eq_true.mp this.2 a ha
    simp only [hka, ne_eq, not_true_eq_false, decide_false, Bool.false_or] at h0
    have h1 := List.all_eq_true.mp (List.all_eq_true.mp h0 r hr) c hcm
    simp only [hkc] at h1
    exact of_decide_eq_true h1

/-! ## A schema -/

def sourceW : Text := "namespace n { const u32 NO_ID = 7; enum Color : u8 : 2 { RED, DARK_RED, blue } struct Point { type : i32; self : u8; c : Color; }
struct Edge { @range(where) first : u32; open : u32; }
archive Sub { raw : raw_data; } archive Graph { points : vector< Point >; edges : vector< Edge >; head : Point; new : raw_data;
move_items : multivector< 33, Point >; sub : archive Sub; } }".toList

def blocksW : List PBlock :=
  [{ name := "n".toList, constants := [⟨"NO_ID".toList, .u32, 7⟩], enumerations := [⟨"Color".toList, .u8, some 2, [("RED".toList, none), ("DARK_RED".toList, none), ("blue".toList, none)]⟩]
     structures := [⟨"Point".toList, [⟨"type".toList, [], "i32".toList, none⟩, ⟨"self".toList, [], "u8".toList, none⟩, ⟨"c".toList, [], "Color".toList, none⟩]⟩,
       ⟨"Edge".toList, [⟨"first".toList, [.range "where".toList], "u32".toList, none⟩, ⟨"open".toList, [], "u32".toList, none⟩]⟩]
     archives := [⟨"Sub".toList, [], [⟨"raw".toList, [], .rawData⟩]⟩,
       ⟨"Graph".toList, [], [⟨"points".toList, [], .vector "Point".toList⟩, ⟨"edges".toList, [], .vector "Edge".toList⟩,
         ⟨"head".toList, [], .object "Point".toList⟩, ⟨"new".toList, [], .rawData⟩, ⟨"move_items".toList, [], .multivector 33 ["Point".toList]⟩,
         ⟨"sub".toList, [], .archive "Sub".toList⟩]⟩] }]

theorem sourceW_parses : parsesTo sourceW blocksW = true := by decide +kernel
theorem blocksW_ok : accepted blocksW = true := by decide +kernel
theorem checksW : (flatCheck (treeOf blocksW) && builtinCheck (treeOf blocksW) && rustArchivesCheck (treeOf blocksW) && rustMembersCheck (treeOf blocksW)) = true := by
  decide +kernel
theorem builtinW : ∀ b ∈ blocksW, NoBuiltinEnd (splitDot b.name) := by unfold NoBuiltinEnd; decide +kernel

/-- What some items of the sample schema define. -/
def namesW (l : List RustNames) : Bool :=
  (l.any fun x => x.name = "Point".toList && x.functions = ["new_unchecked", "new", "from_bytes", "from_bytes_mut", "from_bytes_slice", "from_bytes_slice_mut", "as_bytes",
    "type_", "self_", "c", "set_type_", "set_self_", "set_c", "fill_from"].map String.toList) &&
  (l.any fun x => x.name = "Edge".toList && x.functions = ["new_unchecked", "first", "where_", "open", "set_first", "set_open", "fill_from"].map String.toList) &&
  (l.any fun x => x.name = "Color".toList && x.fields = ["Red", "DarkRed", "Blue", "UnknownValue3"].map String.toList) &&
  (l.any fun x => x.name = "GraphBuilder".toList && x.functions = ["set_points", "start_points", "set_edges", "start_edges", "set_head", "set_new", "start_move_items",
    "sub", "new"].map String.toList) &&
  (l.any fun x => x.name = "MoveItemsBuilder".toList && x.functions = ["add_point".toList])

theorem namesW_ok : namesW (rustAllNames (treeOf blocksW)) = true := by decide +kernel

attribute [local irreducible] Compile in
/-- The hypotheses of C99 hold of this schema, which uses keywords as names of fields, and the names are as described above. -/
theorem C99_witness : ∃ blocks t, parseSource sourceW = .ok blocks ∧ Compile sourceW (.ok t) ∧ Flat t ∧ NoBuiltin t ∧
    (∀ b ∈ blocks, NoBuiltinEnd (splitDot b.name)) ∧ RustArchivesNameable t ∧ RustMembersNameable t ∧ namesW (rustAllNames t) = true := by
  have h := compile_accepted sourceW_parses blocksW_ok
  have hc := compile_compiled h
  have := checksW
  simp only [Bool.and_eq_true] at this
  obtain ⟨⟨⟨h1, h2⟩, h3⟩, h4⟩ := this
  exact ⟨_, _, parses_to sourceW_parses, h, flat_check hc h1, builtin_check hc h2, builtinW, rust_archives_check hc h3, rust_members_check hc h4, namesW_ok⟩

/-! ## What is excluded -/

/-- The schema is accepted, a Rust compiler accepts the items and paths of the generated code (C98), but not the names of members. -/
def NamesRejected (source : Text) : Prop :=
  ∃ t, Compile source (.ok t) ∧ Flat t ∧ NoBuiltin t ∧ RustArchivesNameable t ∧ ¬ RustNamesOk (rustAllNames t)

def namesRejectedCheck (source : Text) (blocks : List PBlock) : Bool :=
  parsesTo source blocks && accepted blocks && flatCheck (treeOf blocks) && builtinCheck (treeOf blocks) && rustArchivesCheck (treeOf blocks) &&
    !decide (RustNamesOk (rustAllNames (treeOf blocks)))

attribute [local irreducible] Compile in
theorem names_rejected {source : Text} (blocks : List PBlock) (h : namesRejectedCheck source blocks = true) : NamesRejected source := by
  simp only [namesRejectedCheck, Bool.and_eq_true, Bool.not_eq_true', decide_eq_false_iff_not] at h
  obtain ⟨⟨⟨⟨⟨h1, h2⟩, h3⟩, h4⟩, h5⟩, h6⟩ := h
  have hc := compile_accepted h1 h2
  have hcc := compile_compiled hc
  exact ⟨_, hc, flat_check hcc h3, builtin_check hcc h4, rust_archives_check hcc h5, h6⟩

/-- A structure with fields of type `u8`. -/
def plainStruct (name : String) (fields : List String) : PStruct := ⟨name.toList, fields.map fun f => ⟨f.toList, [], "u8".toList, none⟩⟩

/-- An archive of raw data. -/
def plainArchive (name : String) (resources : List String) : PArchive := ⟨name.toList, [], resources.map fun r => ⟨r.toList, [], .rawData⟩⟩

/-- **C99 (limits).** The field `type` becomes `type_`, which is the name of another field. -/
theorem C99_counterexample_escape : NamesRejected "namespace n { struct S { type : u8; type_ : u8; } }".toList :=
  names_rejected [blockWith "n" [plainStruct "S" ["type", "type_"]] []] (by decide +kernel)

/-- **C99 (limits).** Keywords that the generator does not know. -/
theorem C99_counterexample_async : NamesRejected "namespace n { struct S { async : u8; } }".toList :=
  names_rejected [blockWith "n" [plainStruct "S" ["async"]] []] (by decide +kernel)

/-- **C99 (limits).** A field that is called like the setter of another one. -/
theorem C99_counterexample_setter : NamesRejected "namespace n { struct S { x : u8; set_x : u8; } }".toList :=
  names_rejected [blockWith "n" [plainStruct "S" ["x", "set_x"]] []] (by decide +kernel)

/-- **C99 (limits).** A field that is called like a function that every struct has. -/
theorem C99_counterexample_function : NamesRejected "namespace n { struct S { new : u8; } }".toList :=
  names_rejected [blockWith "n" [plainStruct "S" ["new"]] []] (by decide +kernel)

/-- **C99 (limits).** Two ranges with the same name. -/
theorem C99_counterexample_ranges : NamesRejected "namespace n { struct S { @range(r) a : u8; @range(r) b : u8; } }".toList :=
  names_rejected [blockWith "n" [⟨"S".toList, [⟨"a".toList, [.range "r".toList], "u8".toList, none⟩, ⟨"b".toList, [.range "r".toList], "u8".toList, none⟩]⟩] []]
    (by decide +kernel)

/-- **C99 (limits).** A range of an enumeration is read with a type that is no type of Rust. -/
theorem C99_counterexample_enum_range : NamesRejected "namespace n { enum E : u8 : 1 { A, B } struct S { @range(r) e : E; } }".toList :=
  names_rejected [{ name := "n".toList, constants := [], archives := [], enumerations := [⟨"E".toList, .u8, some 1, [("A".toList, none), ("B".toList, none)]⟩]
                    structures := [⟨"S".toList, [⟨"e".toList, [.range "r".toList], "E".toList, none⟩]⟩] }] (by decide +kernel)

/-- **C99 (limits).** Enumeration values that differ in underscores only, as variants. -/
theorem C99_counterexample_values : NamesRejected "namespace n { enum E : u8 : 1 { A_B, A__B } }".toList :=
  names_rejected [{ name := "n".toList, constants := [], archives := [], structures := []
                    enumerations := [⟨"E".toList, .u8, some 1, [("A_B".toList, none), ("A__B".toList, none)]⟩] }] (by decide +kernel)

/-- **C99 (limits).** The enumeration value `SELF`. -/
theorem C99_counterexample_self : NamesRejected "namespace n { enum E : u8 : 1 { SELF, OTHER } }".toList :=
  names_rejected [{ name := "n".toList, constants := [], archives := [], structures := []
                    enumerations := [⟨"E".toList, .u8, some 1, [("SELF".toList, none), ("OTHER".toList, none)]⟩] }] (by decide +kernel)

/-- **C99 (limits).** Names of resources are not escaped. -/
theorem C99_counterexample_resource : NamesRejected "namespace n { archive A { type : raw_data; } }".toList :=
  names_rejected [blockWith "n" [] [plainArchive "A" ["type"]]] (by decide +kernel)

/-- **C99 (limits).** A resource that hides the storage in `open`. -/
theorem C99_counterexample_storage : NamesRejected "namespace n { archive A { storage : raw_data; } }".toList :=
  names_rejected [blockWith "n" [] [plainArchive "A" ["storage"]]] (by decide +kernel)

/-- **C99 (limits).** An archive whose module of schemas is called like a keyword. -/
theorem C99_counterexample_archive : NamesRejected "namespace n { archive Type { a : raw_data; } }".toList :=
  names_rejected [blockWith "n" [] [plainArchive "Type" ["a"]]] (by decide +kernel)

/-- **C99 (limits).** A structure that hides a type of the standard library. -/
theorem C99_counterexample_result : NamesRejected "namespace n { struct Result { a : u8; } }".toList :=
  names_rejected [blockWith "n" [plainStruct "Result" ["a"]] []] (by decide +kernel)

/-- **C99 (limits).** A resource with the name of a constant. -/
theorem C99_counterexample_pattern : NamesRejected "namespace n { const u8 FOO = 1; archive A { FOO : raw_data; } }".toList :=
  names_rejected [{ name := "n".toList, constants := [⟨"FOO".toList, .u8, 1⟩], structures := [], enumerations := [], archives := [plainArchive "A" ["FOO"]] }]
    (by decide +kernel)

end Props
