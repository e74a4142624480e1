import Verif.Spec.Enumeration
import Verif.Lemmas.GenText
import Mathlib.Data.List.Nodup
import Mathlib.Tactic.Positivity
import Mathlib.Algebra.Order.Ring.Int

/-!
# C40-C45: basic types, constants, enumerations
-/

namespace Props
open Gen Spec

/-! ## C40 -/

theorem bitLength_le (n w : Nat) : bitLength n ≤ w ↔ n < 2 ^ w := by
  unfold bitLength
  split
  · rename_i h; subst h; simp
  · rename_i h
    rw [Nat.add_one_le_iff, Nat.log2_lt h]

/-- C40 (unsigned). A value needs at most `w` bits iff it is below `2^w`; negative values are rejected. -/
theorem C40_unsigned (t : BasicType) (ht : t.name.isSigned = false) (v : Int) (w : Nat) :
    (∃ k, t.bitsRequired v = .ok k ∧ k ≤ w) ↔ 0 ≤ v ∧ v < 2 ^ w := by
  unfold BasicType.bitsRequired
  simp only [ht, Bool.false_eq_true, if_false, ge_iff_le]
  by_cases hv : 0 ≤ v
  · simp only [hv, if_true, pure, Except.pure, Except.ok.injEq, exists_eq_left', true_and]
    rw [bitLength_le]
    have : ((v.toNat : Nat) : Int) = v := Int.toNat_of_nonneg hv
    constructor
    · intro h; rw [← this]; exact_mod_cast h
    · intro h; rw [← this] at h; exact_mod_cast h
  · simp [hv, throw, throwThe, MonadExceptOf.throw]

/-- C40 (negative values of unsigned types). -/
theorem C40_negative (t : BasicType) (ht : t.name.isSigned = false) (v : Int) (hv : v < 0) :
    t.bitsRequired v = .error (.invalidSign v) := by
  unfold BasicType.bitsRequired
  rw [if_neg (by simp [ht]), if_neg (by omega)]; rfl

/-- C40 (signed). A value needs at most `w` bits iff `-2^(w-1) ≤ v < 2^(w-1)`; there is always an answer, and it is at
least one bit. -/
theorem C40_signed (t : BasicType) (ht : t.name.isSigned = true) (v : Int) (w : Nat) :
    (∃ k, t.bitsRequired v = .ok k ∧ k ≤ w) ↔ 0 < w ∧ -(2 ^ (w - 1)) ≤ v ∧ v < 2 ^ (w - 1) := by
  unfold BasicType.bitsRequired
  simp only [ht, if_true, ge_iff_le]
  cases w with
  | zero =>
    simp only [Nat.lt_irrefl, false_and, iff_false, not_exists, not_and]
    intro k hk
    split at hk <;> simp [pure, Except.pure] at hk <;> omega
  | succ w =>
    simp only [Nat.zero_lt_succ, true_and, Nat.add_sub_cancel]
    have hp : (0 : Int) < 2 ^ w := by positivity
    by_cases hv : 0 ≤ v
    · simp only [hv, if_true, pure, Except.pure, Except.ok.injEq, exists_eq_left', Nat.add_le_add_iff_right]
      rw [bitLength_le]
      have : ((v.toNat : Nat) : Int) = v := Int.toNat_of_nonneg hv
      constructor
      · intro h; exact ⟨by omega, by rw [← this]; exact_mod_cast h⟩
      · intro h; have h2 := h.2; rw [← this] at h2; exact_mod_cast h2
    · simp only [hv, if_false, pure, Except.pure, Except.ok.injEq, exists_eq_left', Nat.add_le_add_iff_right]
      rw [bitLength_le]
      have : (((-v - 1).toNat : Nat) : Int) = -v - 1 := Int.toNat_of_nonneg (by omega)
      constructor
      · intro h
        have h' : (((-v - 1).toNat : Nat) : Int) < 2 ^ w := by exact_mod_cast h
        omega
      · intro h
        have h' : (((-v - 1).toNat : Nat) : Int) < 2 ^ w := by omega
        exact_mod_cast h'

example : (⟨.i8, 8⟩ : BasicType).bitsRequired (-128) = .ok 8 := by decide +kernel
example : (⟨.i8, 8⟩ : BasicType).bitsRequired 128 = .ok 9 := by decide +kernel
example : (⟨.u64, 64⟩ : BasicType).bitsRequired (2 ^ 64 - 1) = .ok 64 := by decide +kernel

/-- Both cases together: fitting a width means being representable in it. -/
theorem bits_fit (t : BasicType) (v : Int) (w : Nat) (hw : t.name.isSigned = true → 0 < w) :
    (∃ k, t.bitsRequired v = .ok k ∧ k ≤ w) ↔ InRange w t.name.isSigned v := by
  cases ht : t.name.isSigned with
  | false => rw [C40_unsigned t ht]; simp [InRange]
  | true =>
    rw [C40_signed t ht]
    obtain ⟨w', rfl⟩ : ∃ w', w = w' + 1 := ⟨w - 1, by have := hw ht; omega⟩
    simp only [InRange, if_true, Nat.zero_lt_succ, true_and, Nat.add_sub_cancel, pow_succ]
    constructor
    · rintro ⟨h1, h2⟩; constructor <;> omega
    · rintro ⟨h1, h2⟩; constructor <;> omega

theorem width_pos (n : BasicName) : 0 < n.width := by cases n <;> decide

/-! ## C41 -/

/-- C41. A constant definition is accepted iff its value is in the range of its type; the constant then has
this name, type and value. -/
theorem C41_constant_accepted_iff (name : Text) (type : BasicName) (value : Int) (c : Constant) :
    Constant.create name type value = .ok c ↔
      InRange type.width type.isSigned value ∧ c = ⟨name, ⟨type, type.width⟩, value⟩ := by
  have hc : BasicType.create type none = .ok ⟨type, type.width⟩ := by
    simp [BasicType.create, pure, Except.pure]
  unfold Constant.create
  rw [hc]
  have hf := bits_fit ⟨type, type.width⟩ value type.width (fun _ => width_pos type)
  simp only [bind, Except.bind]
  cases hb : (⟨type, type.width⟩ : BasicType).bitsRequired value with
  | error e =>
    rw [hb] at hf
    simp only [reduceCtorEq, false_and, exists_false, false_iff] at hf
    simp [hf]
  | ok k =>
    rw [hb] at hf
    simp only [Except.ok.injEq, exists_eq_left'] at hf
    simp only [gt_iff_lt]
    by_cases hk : k ≤ type.width
    · rw [if_neg (by omega)]
      simp only [hf.mp hk, true_and, pure, Except.pure, Except.ok.injEq]
      exact eq_comm
    · rw [if_pos (by omega)]
      have hn : ¬ InRange type.width type.isSigned value := fun h => hk (hf.mpr h)
      simp [hn, throw, throwThe, MonadExceptOf.throw]

/-- C41 (rejections). Otherwise the sign or the value is reported. -/
theorem C41_constant_rejected (name : Text) (type : BasicName) (value : Int)
    (h : ¬ InRange type.width type.isSigned value) :
    Constant.create name type value =
      .error (if type.isSigned = false ∧ value < 0 then .invalidSign value else .invalidConstantValue name value) := by
  have hc : BasicType.create type none = .ok ⟨type, type.width⟩ := by
    simp [BasicType.create, pure, Except.pure]
  unfold Constant.create
  rw [hc]
  have hf := bits_fit ⟨type, type.width⟩ value type.width (fun _ => width_pos type)
  simp only [bind, Except.bind]
  by_cases hs : type.isSigned = false ∧ value < 0
  · rw [C40_negative ⟨type, type.width⟩ hs.1 value hs.2, if_pos hs]
  · rw [if_neg hs]
    cases hb : (⟨type, type.width⟩ : BasicType).bitsRequired value with
    | error e =>
      exfalso
      unfold BasicType.bitsRequired at hb
      simp only at hb
      cases ht : type.isSigned with
      | true => rw [ht] at hb; simp only [if_true] at hb; split at hb <;> simp [pure, Except.pure] at hb
      | false =>
        rw [ht] at hb
        have : value ≥ 0 := by
          by_contra hc; exact hs ⟨ht, by omega⟩
        simp [this, pure, Except.pure] at hb
    | ok k =>
      rw [hb] at hf
      simp only [Except.ok.injEq, exists_eq_left'] at hf
      have hk : ¬ k ≤ type.width := fun hk => h (hf.mp hk)
      simp only [gt_iff_lt]
      rw [if_pos (by omega)]; rfl

example : (Constant.create "MAX".toList .u32 4294967295).isOk = true := by decide +kernel
example : Constant.create "MAX".toList .u32 4294967296 = .error (.invalidConstantValue "MAX".toList 4294967296) := by
  decide +kernel
example : (Constant.create "MIN".toList .i8 (-128)).isOk = true := by decide +kernel

/-! ## C45 -/

/-- C45 (widths). A basic type with an explicit width is accepted iff the width does not exceed the natural width of
the type; without a width it gets its natural width. -/
theorem C45_width_accepted_iff (name : BasicName) (w : Nat) (t : BasicType) :
    BasicType.create name (some w) = .ok t ↔ w ≤ name.width ∧ t = ⟨name, w⟩ := by
  unfold BasicType.create
  simp only [Option.getD_some, gt_iff_lt]
  by_cases h : w ≤ name.width
  · rw [if_neg (by omega)]
    simp only [h, true_and, pure, Except.pure, Except.ok.injEq]
    exact eq_comm
  · rw [if_pos (by omega)]
    simp [h, throw, throwThe, MonadExceptOf.throw]

theorem C45_width_rejected (name : BasicName) (w : Nat) (h : name.width < w) :
    BasicType.create name (some w) = .error (.invalidWidth w) := by
  unfold BasicType.create
  simp only [Option.getD_some, gt_iff_lt, if_pos h]; rfl

theorem C45_natural_width (name : BasicName) : BasicType.create name none = .ok ⟨name, name.width⟩ := by
  simp [BasicType.create, pure, Except.pure]

/-- The values an element of a numpy dtype can have. -/
def DtypeHolds : Dtype → Int → Prop
  | .bool, v => v = 0 ∨ v = 1
  | .int signed bytes, v => InRange (8 * bytes) signed v

/-- C45 (dtype). The dtype chosen for a field can represent every value of every accepted field of that type. -/
theorem C45_dtype (name : BasicName) (width : Option Nat) (t : BasicType) (h : BasicType.create name width = .ok t)
    (v : Int) (hv : InRange t.width t.name.isSigned v) : DtypeHolds t.name.dtype v := by
  have hw : t.width ≤ t.name.width := by
    unfold BasicType.create at h
    simp only at h
    split at h
    · simp [throw, throwThe, MonadExceptOf.throw] at h
    · simp [pure, Except.pure] at h; subst h; simp only; omega
  have hp : (2 : Int) ^ t.width ≤ 2 ^ t.name.width := pow_le_pow_right₀ (by norm_num) hw
  unfold InRange at hv
  cases hn : t.name <;> rw [hn] at hv hp <;> simp only [BasicName.isSigned, BasicName.width, if_true, if_false,
    Bool.false_eq_true] at hv hp <;> simp only [DtypeHolds, BasicName.dtype, InRange, if_true, if_false,
    Bool.false_eq_true] <;> norm_num at hp ⊢ <;> omega

example : BasicType.create .u32 (some 33) = .error (.invalidWidth 33) := by decide +kernel
example : BasicType.create .u32 (some 32) = .ok ⟨.u32, 32⟩ := by decide +kernel

/-! ## C42-C44 -/

/-- The values given to the declared enumerators, if the first one without explicit value gets `current`. -/
def assign : List (Text × Option Int) → Int → List Int
  | [], _ => []
  | (_, c) :: rest, current => c.getD current :: assign rest (c.getD current + 1)

theorem assign_length (decls : List (Text × Option Int)) (c : Int) : (assign decls c).length = decls.length := by
  induction decls generalizing c with
  | nil => rfl
  | cons d decls ih => simp [assign, ih]

theorem assign_assignment (decls : List (Text × Option Int)) : Assignment decls (assign decls 0) := by
  refine ⟨assign_length decls 0, ?_, ?_, ?_⟩
  · generalize (0 : Int) = c
    induction decls generalizing c with
    | nil => simp
    | cons d decls ih =>
      intro i name v h
      cases i with
      | zero => simp at h; subst h; simp [assign]
      | succ i => simp only [assign, List.getElem?_cons_succ] at h ⊢; exact ih _ i name v h
  · intro name h
    cases decls with
    | nil => simp at h
    | cons d decls => simp at h; subst h; simp [assign]
  · generalize (0 : Int) = c
    induction decls generalizing c with
    | nil => simp
    | cons d decls ih =>
      intro i name v h hv
      cases i with
      | zero =>
        simp only [assign, List.getElem?_cons_succ, List.getElem?_cons_zero, Option.some.injEq] at h hv ⊢
        cases decls with
        | nil => simp at h
        | cons e decls => simp at h; subst h; subst hv; simp [assign]
      | succ i => simp only [assign, List.getElem?_cons_succ] at h hv ⊢; exact ih _ i name v h hv

theorem assignment_unique {decls : List (Text × Option Int)} {a b : List Int} (ha : Assignment decls a)
    (hb : Assignment decls b) : a = b := by
  apply List.ext_getElem?
  intro i
  induction i with
  | zero =>
    cases hd : decls[0]? with
    | none =>
      rw [List.getElem?_eq_none_iff] at hd
      rw [List.getElem?_eq_none (by rw [ha.length]; exact hd), List.getElem?_eq_none (by rw [hb.length]; exact hd)]
    | some d =>
      obtain ⟨n, c⟩ := d
      cases c with
      | none => rw [ha.first n hd, hb.first n hd]
      | some v => rw [ha.explicit 0 n v hd, hb.explicit 0 n v hd]
  | succ i ih =>
    cases hd : decls[i + 1]? with
    | none =>
      rw [List.getElem?_eq_none_iff] at hd
      rw [List.getElem?_eq_none (by rw [ha.length]; exact hd), List.getElem?_eq_none (by rw [hb.length]; exact hd)]
    | some d =>
      obtain ⟨n, c⟩ := d
      cases c with
      | some v => rw [ha.explicit _ n v hd, hb.explicit _ n v hd]
      | none =>
        have hlt : i + 1 < decls.length := (List.getElem?_eq_some_iff.mp hd).1
        have hi : i < a.length := by rw [ha.length]; omega
        have h1 : a[i]? = some a[i] := List.getElem?_eq_getElem hi
        rw [ha.next i n _ hd h1, hb.next i n _ hd (ih ▸ h1)]

/-- The nodes of the declared enumerators. -/
def declared (decls : List (Text × Option Int)) (vals : List Int) : List EnumValue :=
  List.zipWith (fun d v => ⟨d.1, v, false⟩) decls vals

theorem insertValue_iff (children : List EnumValue) (v : EnumValue) (r : List EnumValue) :
    insertValue children v = .ok r ↔ v.name ∉ children.map (·.name) ∧ r = children ++ [v] := by
  unfold insertValue
  split
  · rename_i h; simp only [throw, throwThe, MonadExceptOf.throw, reduceCtorEq, h, not_true, false_and]
  · rename_i h; simp only [pure, Except.pure, Except.ok.injEq, h, not_false_iff, true_and]; exact eq_comm

theorem declareValues_iff (en : Text) (decls : List (Text × Option Int)) (cur : Int) (unique : List Int)
    (children : List EnumValue) (r : List Int × List EnumValue) (hu : unique.Nodup)
    (hn : (children.map (·.name)).Nodup) :
    declareValues en decls cur unique children = .ok r ↔
      (unique ++ assign decls cur).Nodup ∧ (children.map (·.name) ++ decls.map (·.1)).Nodup ∧
      r = (unique ++ assign decls cur, children ++ declared decls (assign decls cur)) := by
  induction decls generalizing cur unique children with
  | nil =>
    simp only [declareValues, assign, declared, List.append_nil, List.map_nil, List.zipWith_nil_left, hu, hn, true_and,
      pure, Except.pure, Except.ok.injEq]
    exact eq_comm
  | cons d decls ih =>
    obtain ⟨name, c⟩ := d
    simp only [declareValues, assign, declared, List.zipWith_cons_cons]
    have e1 : unique ++ c.getD cur :: assign decls (c.getD cur + 1) =
        (unique ++ [c.getD cur]) ++ assign decls (c.getD cur + 1) := by simp
    have e2 : children.map (·.name) ++ ((name, c) :: decls).map (·.1) =
        (children.map (·.name) ++ [name]) ++ decls.map (·.1) := by simp
    by_cases hc : c.getD cur ∈ unique
    · rw [if_pos hc]
      have : ¬ (unique ++ c.getD cur :: assign decls (c.getD cur + 1)).Nodup := by
        rw [e1, List.nodup_append]
        rintro ⟨h, -⟩
        rw [List.nodup_append] at h
        exact h.2.2 _ hc _ (by simp) rfl
      simp [this, throw, throwThe, MonadExceptOf.throw]
    · rw [if_neg hc]
      simp only [bind, Except.bind]
      cases hi : insertValue children ⟨name, c.getD cur, false⟩ with
      | error e =>
        have hmem : name ∈ children.map (·.name) := by
          by_contra hm
          rw [(insertValue_iff _ _ _).mpr ⟨hm, rfl⟩] at hi
          simp at hi
        have : ¬ (children.map (·.name) ++ ((name, c) :: decls).map (·.1)).Nodup := by
          rw [List.nodup_append]
          rintro ⟨-, -, h⟩
          exact h _ hmem _ (by simp) rfl
        simp only [reduceCtorEq, this, false_and, and_false]
      | ok ch =>
        obtain ⟨h1, rfl⟩ := (insertValue_iff _ _ _).mp hi
        simp only
        rw [ih]
        · rw [e1, e2]
          simp [declared]
        · rw [List.nodup_append]; exact ⟨hu, by simp, by rintro a ha b hb rfl; simp at hb; subst hb; exact hc ha⟩
        · simp only [List.map_append, List.map_cons, List.map_nil]
          rw [List.nodup_append]
          exact ⟨hn, by simp, by rintro a ha b hb rfl; simp at hb; subst hb; exact h1 ha⟩

/-- The nodes generated for the values in `vs` that are not in `unique`. -/
def generated (unique vs : List Int) : List EnumValue :=
  (vs.filter (· ∉ unique)).map fun v => ⟨unknownName v, v, true⟩

theorem unknownName_eq (v : Int) : unknownName v = generatedName v := by
  unfold unknownName generatedName intText
  split
  · have h1 : "UNKNOWN_VALUE_MINUS_".toList = "UNKNOWN_VALUE_".toList ++ "MINUS_".toList := by decide +kernel
    rw [h1, List.append_assoc]
    congr 1
    have := replaceMinus_digits (natText_digits v.natAbs)
    unfold replaceMinus at this ⊢
    rw [List.flatMap_cons, if_pos rfl, this]
  · rw [replaceMinus_digits (natText_digits _)]

theorem generatedName_inj {v w : Int} (h : generatedName v = generatedName w) : v = w := by
  have h1 : "UNKNOWN_VALUE_MINUS_".toList = "UNKNOWN_VALUE_".toList ++ 'M' :: "INUS_".toList := by decide +kernel
  have hd : ∀ (k : Nat) l, natText k ≠ 'M' :: l := by
    intro k l hk
    have := natText_digits k 'M' (by rw [hk]; simp)
    revert this; decide
  unfold generatedName at h
  rw [h1] at h
  split at h <;> split at h
  · rw [List.append_cancel_left_eq] at h
    have := natText_inj h; omega
  · rw [List.append_assoc, List.append_cancel_left_eq] at h
    exact absurd h.symm (hd _ _)
  · rw [List.append_assoc, List.append_cancel_left_eq] at h
    exact absurd h (hd _ _)
  · rw [List.append_cancel_left_eq] at h
    have := natText_inj h; omega

theorem fillMissing_iff (unique vs : List Int) (children r : List EnumValue) (hv : vs.Nodup) :
    fillMissing unique vs children = .ok r ↔
      (∀ v ∈ vs, v ∉ unique → unknownName v ∉ children.map (·.name)) ∧ r = children ++ generated unique vs := by
  induction vs generalizing children with
  | nil =>
    simp only [fillMissing, generated, pure, Except.pure, Except.ok.injEq, List.not_mem_nil, false_implies, implies_true,
      true_and, List.filter_nil, List.map_nil, List.append_nil]
    exact eq_comm
  | cons v vs ih =>
    have hvs := (List.nodup_cons.mp hv).2
    simp only [fillMissing]
    by_cases hu : v ∈ unique
    · rw [if_pos hu, ih _ hvs]
      simp [generated, hu]
    · rw [if_neg hu]
      simp only [bind, Except.bind]
      cases hi : insertValue children ⟨unknownName v, v, true⟩ with
      | error e =>
        have hmem : unknownName v ∈ children.map (·.name) := by
          by_contra hm
          rw [(insertValue_iff _ _ _).mpr ⟨hm, rfl⟩] at hi
          simp at hi
        simp only [reduceCtorEq, false_iff, not_and]
        intro h
        exact absurd hmem (h v (by simp) hu)
      | ok ch =>
        obtain ⟨h1, rfl⟩ := (insertValue_iff _ _ _).mp hi
        simp only
        rw [ih _ hvs]
        simp only [List.map_append, List.map_cons, List.map_nil, List.mem_append, not_or,
          List.mem_cons, forall_eq_or_imp, List.not_mem_nil, not_false_eq_true, and_true]
        have hg : generated unique (v :: vs) = ⟨unknownName v, v, true⟩ :: generated unique vs := by
          simp [generated, hu]
        rw [hg]
        constructor
        · rintro ⟨h, rfl⟩
          exact ⟨⟨fun _ => h1, fun w hw hwu => (h w hw hwu).1⟩, by simp⟩
        · rintro ⟨⟨_, h⟩, rfl⟩
          refine ⟨fun w hw hwu => ⟨h w hw hwu, fun he => ?_⟩, by simp⟩
          rw [unknownName_eq, unknownName_eq] at he
          rw [generatedName_inj he] at hw
          exact (List.nodup_cons.mp hv).1 hw

theorem checkValues_iff (en : Text) (t : BasicType) (vs : List Int) :
    checkValues en t vs = .ok () ↔ ∀ v ∈ vs, ∃ k, t.bitsRequired v = .ok k ∧ k ≤ t.width := by
  induction vs with
  | nil => simp [checkValues, pure, Except.pure]
  | cons v vs ih =>
    simp only [checkValues, bind, Except.bind, List.mem_cons, forall_eq_or_imp]
    cases hb : t.bitsRequired v with
    | error e => simp
    | ok k =>
      simp only [gt_iff_lt, Except.ok.injEq, exists_eq_left']
      by_cases hk : k ≤ t.width
      · rw [if_neg (by omega), ih]; simp [hk]
      · rw [if_pos (by omega)]; simp [hk, throw, throwThe, MonadExceptOf.throw]

theorem mem_range_one (a b v : Int) : v ∈ Py.range a b 1 ↔ a ≤ v ∧ v < b := by
  simp only [Py.range, Py.rangeLen, List.mem_map, List.mem_range]
  constructor
  · rintro ⟨k, hk, rfl⟩
    simp at hk; omega
  · rintro ⟨h1, h2⟩
    exact ⟨(v - a).toNat, by simp; omega, by omega⟩

theorem range_one_nodup (a b : Int) : (Py.range a b 1).Nodup := by
  unfold Py.range
  apply List.Nodup.map _ List.nodup_range
  intro x y h
  simp only at h
  omega

theorem valueRange_spec (t : BasicType) :
    (t.name.isSigned = true ∧ t.width = 0 ∧ t.valueRange = .error .typeError) ∨
    ((t.name.isSigned = true → 0 < t.width) ∧ ∃ l, t.valueRange = .ok l ∧ l.Nodup ∧ ∀ v, v ∈ l ↔ Representable t v) := by
  unfold BasicType.valueRange Representable
  cases ht : t.name.isSigned with
  | false =>
    refine .inr ⟨by simp, _, rfl, range_one_nodup _ _, fun v => ?_⟩
    rw [mem_range_one]; simp [InRange]
  | true =>
    simp only [if_true, true_and]
    by_cases hw : t.width = 0
    · left; rw [if_pos hw]; exact ⟨hw, rfl⟩
    · right
      rw [if_neg hw]
      refine ⟨fun _ => by omega, _, rfl, range_one_nodup _ _, fun v => ?_⟩
      rw [mem_range_one]
      obtain ⟨w', hw'⟩ : ∃ w', t.width = w' + 1 := ⟨t.width - 1, by omega⟩
      simp only [InRange, hw', Nat.add_sub_cancel, if_true, pow_succ]
      constructor
      · rintro ⟨h1, h2⟩; constructor <;> omega
      · rintro ⟨h1, h2⟩; constructor <;> omega

/-- Everything `create` does, in one equation. -/
theorem create_ok_iff (name : Text) (type : BasicName) (width : Option Nat) (decls : List (Text × Option Int))
    (e : Enumeration) :
    Enumeration.create name type width decls = .ok e ↔
      ∃ w l, w = width.getD type.width ∧ w ≤ type.width ∧ (type.isSigned = true → 0 < w) ∧
        (decls.map (·.1)).Nodup ∧ (assign decls 0).Nodup ∧ (∀ v ∈ assign decls 0, InRange w type.isSigned v) ∧
        2 ^ w ≤ 2 * decls.length + 256 ∧
        (∀ v, InRange w type.isSigned v → v ∉ assign decls 0 → generatedName v ∉ decls.map (·.1)) ∧
        l.Nodup ∧ (∀ v, v ∈ l ↔ InRange w type.isSigned v) ∧ (⟨type, w⟩ : BasicType).valueRange = .ok l ∧
        e = ⟨name, ⟨type, w⟩, declared decls (assign decls 0) ++ generated (assign decls 0) l⟩ := by
  have hct : ∀ t, BasicType.create type width = .ok t ↔ width.getD type.width ≤ type.width ∧
      t = ⟨type, width.getD type.width⟩ := by
    intro t
    unfold BasicType.create
    simp only [gt_iff_lt]
    by_cases h : width.getD type.width ≤ type.width
    · rw [if_neg (by omega)]
      simp only [h, true_and, pure, Except.pure, Except.ok.injEq]
      exact eq_comm
    · rw [if_pos (by omega)]
      simp [h, throw, throwThe, MonadExceptOf.throw]
  have hnames : (declared decls (assign decls 0)).map (·.name) = decls.map (·.1) := by
    have : ∀ (ds : List (Text × Option Int)) (c : Int), (declared ds (assign ds c)).map (·.name) = ds.map (·.1) := by
      intro ds
      induction ds with
      | nil => intro c; rfl
      | cons d ds ih => intro c; simp only [assign, declared, List.zipWith_cons_cons, List.map_cons] at *; rw [ih]
    exact this decls 0
  have hdecl := fun r => declareValues_iff name decls 0 [] [] r (by simp) (by simp)
  simp only [List.nil_append, List.map_nil] at hdecl
  unfold Enumeration.create
  simp only [bind, Except.bind]
  cases hc : BasicType.create type width with
  | error x =>
    simp only [reduceCtorEq, false_iff, not_exists, not_and]
    rintro w l rfl hw
    rw [(hct _).mpr ⟨hw, rfl⟩] at hc
    simp at hc
  | ok t =>
    obtain ⟨hw, rfl⟩ := (hct _).mp hc
    simp only
    cases hd : declareValues name decls 0 [] [] with
    | error x =>
      simp only [reduceCtorEq, false_iff, not_exists, not_and]
      rintro w l rfl _ _ h1 h2
      rw [(hdecl _).mpr ⟨h2, h1, rfl⟩] at hd
      simp at hd
    | ok r =>
      obtain ⟨h2, h1, rfl⟩ := (hdecl _).mp hd
      simp only
      by_cases hs : decls.length * 2 + 256 < 2 ^ (width.getD type.width)
      · rw [if_pos hs]
        simp only [throw, throwThe, MonadExceptOf.throw, reduceCtorEq, false_iff, not_exists, not_and]
        rintro w l rfl _ _ _ _ _ h
        omega
      · rw [if_neg hs]
        simp only [pure, Except.pure]
        rcases valueRange_spec ⟨type, width.getD type.width⟩ with ⟨hsg, hw0, hvr⟩ | ⟨hsg, l, hvr, hlN, hl⟩
        · rw [hvr]
          simp only [reduceCtorEq, false_iff, not_exists, not_and]
          rintro w l rfl _ h
          have := h hsg
          simp only at hw0
          omega
        · rw [hvr]
          simp only
          simp only [Representable] at hl
          have hfill := fun r => fillMissing_iff (assign decls 0) l (declared decls (assign decls 0)) r hlN
          rw [hnames] at hfill
          have hcheck := checkValues_iff name ⟨type, width.getD type.width⟩ (assign decls 0)
          cases hf : fillMissing (assign decls 0) l (declared decls (assign decls 0)) with
          | error x =>
            simp only [reduceCtorEq, false_iff, not_exists, not_and]
            rintro w l' rfl _ _ _ _ _ _ h
            rw [(hfill _).mpr ⟨fun v hv hvn => by rw [unknownName_eq]; exact h v ((hl v).mp hv) hvn, rfl⟩] at hf
            simp at hf
          | ok r =>
            obtain ⟨h3, rfl⟩ := (hfill _).mp hf
            simp only
            have hfit : ∀ v, (∃ k, (⟨type, width.getD type.width⟩ : BasicType).bitsRequired v = .ok k ∧
                k ≤ width.getD type.width) ↔ InRange (width.getD type.width) type.isSigned v :=
              fun v => bits_fit ⟨type, width.getD type.width⟩ v _ hsg
            simp only [hfit] at hcheck
            cases hk : checkValues name ⟨type, width.getD type.width⟩ (assign decls 0) with
            | error x =>
              simp only [reduceCtorEq, false_iff, not_exists, not_and]
              rintro w l' rfl _ _ _ _ h
              rw [hcheck.mpr h] at hk
              simp at hk
            | ok u =>
              simp only [Except.ok.injEq]
              constructor
              · rintro rfl
                refine ⟨_, l, rfl, hw, hsg, h1, h2, hcheck.mp hk, by omega, ?_, hlN, hl, hvr, rfl⟩
                intro v hv hvn
                rw [← unknownName_eq]
                exact h3 v ((hl v).mpr hv) hvn
              · rintro ⟨w, l', rfl, _, _, _, _, _, _, _, _, _, hvr', rfl⟩
                rw [hvr] at hvr'
                simp only [Except.ok.injEq] at hvr'
                rw [hvr']

/-- C44. A declaration is accepted exactly if its width fits the type (a signed type needs at least one bit), the names
are distinct, the assigned values are distinct and representable, `2^w ≤ 2n + 256`, and no declared name is the
generated name of a representable value that was not declared. -/
theorem C44_accepted_iff (name : Text) (type : BasicName) (width : Option Nat) (decls : List (Text × Option Int))
    (vals : List Int) (hvals : Assignment decls vals) :
    (∃ e, Enumeration.create name type width decls = .ok e) ↔
      ∃ w, w = width.getD type.width ∧ w ≤ type.width ∧ (type.isSigned = true → 0 < w) ∧
        (decls.map (·.1)).Nodup ∧ vals.Nodup ∧ (∀ v ∈ vals, InRange w type.isSigned v) ∧
        2 ^ w ≤ 2 * decls.length + 256 ∧
        ∀ v, InRange w type.isSigned v → v ∉ vals → generatedName v ∉ decls.map (·.1) := by
  obtain rfl := assignment_unique hvals (assign_assignment decls)
  simp only [create_ok_iff]
  constructor
  · rintro ⟨e, w, l, h1, h2, h3, h4, h5, h6, h7, h8, -⟩
    exact ⟨w, h1, h2, h3, h4, h5, h6, h7, h8⟩
  · rintro ⟨w, h1, h2, h3, h4, h5, h6, h7, h8⟩
    rcases valueRange_spec ⟨type, w⟩ with ⟨hsg, hw0, hvr⟩ | ⟨hsg, l, hvr, hlN, hl⟩
    · have := h3 hsg; simp only at hw0; omega
    · exact ⟨_, w, l, h1, h2, h3, h4, h5, h6, h7, h8, hlN, hl, hvr, rfl⟩

/-- There is always exactly one assignment of values. -/
theorem C43_assignment_exists_unique (decls : List (Text × Option Int)) : ∃! vals, Assignment decls vals :=
  ⟨_, assign_assignment decls, fun _ h => assignment_unique h (assign_assignment decls)⟩

theorem declared_filter (decls : List (Text × Option Int)) (vals unique l : List Int) :
    (declared decls vals ++ generated unique l).filter (fun v => !v.autoGenerated) = declared decls vals := by
  rw [List.filter_append, List.filter_eq_self.mpr, List.filter_eq_nil_iff.mpr, List.append_nil]
  · intro v hv
    simp only [generated, List.mem_map] at hv
    obtain ⟨x, -, rfl⟩ := hv; simp
  · intro v hv
    simp only [declared, List.mem_iff_getElem?, List.getElem?_zipWith] at hv
    obtain ⟨i, hi⟩ := hv
    split at hi <;> simp at hi
    subst hi; rfl

theorem declared_zip (decls : List (Text × Option Int)) (vals : List Int) :
    (declared decls vals).map (fun v => (v.name, v.value)) = (decls.map (·.1)).zip vals := by
  induction decls generalizing vals with
  | nil => rfl
  | cons d ds ih =>
    cases vals with
    | nil => rfl
    | cons v vals =>
      simp only [declared, List.zipWith_cons_cons, List.map_cons, List.zip_cons_cons] at *
      rw [ih]

/-- C43. The declared enumerators of an accepted enumeration are, in order, the declared names with their
assigned values (an explicit value; or the predecessor's plus one; or 0), which are distinct. -/
theorem C43_implicit_values (name : Text) (type : BasicName) (width : Option Nat) (decls : List (Text × Option Int))
    (e : Enumeration) (h : Enumeration.create name type width decls = .ok e) (vals : List Int)
    (hvals : Assignment decls vals) :
    vals.Nodup ∧ (e.values.filter fun v => !v.autoGenerated).map (fun v => (v.name, v.value)) =
      (decls.map (·.1)).zip vals := by
  obtain rfl := assignment_unique hvals (assign_assignment decls)
  obtain ⟨w, l, h1, h2, h3, h4, h5, h6, h7, h8, h9, h10, h11, rfl⟩ := (create_ok_iff ..).mp h
  refine ⟨h5, ?_⟩
  simp only [declared_filter]
  exact declared_zip decls _

/-- C43 (duplicates). Repeated values are rejected. -/
theorem C43_duplicates_rejected (name : Text) (type : BasicName) (width : Option Nat) (decls : List (Text × Option Int))
    (vals : List Int) (hvals : Assignment decls vals) (hd : ¬ vals.Nodup) :
    ∃ e, Enumeration.create name type width decls = .error e := by
  cases h : Enumeration.create name type width decls with
  | error e => exact ⟨e, rfl⟩
  | ok e => exact absurd (C43_implicit_values name type width decls e h vals hvals).1 hd

theorem valueRange_length {t : BasicType} {l : List Int} (h : t.valueRange = .ok l) : l.length = 2 ^ t.width := by
  have hlen : ∀ a b : Int, (Py.range a b 1).length = (b - a).toNat := by
    intro a b; simp [Py.range, Py.rangeLen]
  unfold BasicType.valueRange at h
  split at h
  · split at h
    · simp [throw, throwThe, MonadExceptOf.throw] at h
    · rename_i hw
      simp only [pure, Except.pure, Except.ok.injEq] at h
      rw [← h, hlen]
      obtain ⟨w', hw'⟩ : ∃ w', t.width = w' + 1 := ⟨t.width - 1, by omega⟩
      rw [hw', Nat.add_sub_cancel, pow_succ]
      have : ((2 : Int) ^ w' - -2 ^ w') = ((2 ^ w' * 2 : Nat) : Int) := by push_cast; ring
      rw [this, Int.toNat_natCast]
  · simp only [pure, Except.pure, Except.ok.injEq] at h
    rw [← h, hlen]
    have : ((2 : Int) ^ t.width - 0) = ((2 ^ t.width : Nat) : Int) := by push_cast; ring
    rw [this, Int.toNat_natCast]

/-- C42. An accepted enumeration of width `w` names each of the `2^w` values representable in its type exactly once, and
nothing else, under distinct names; declared values keep their names, the others get the generated one. -/
theorem C42_total (name : Text) (type : BasicName) (width : Option Nat) (decls : List (Text × Option Int))
    (e : Enumeration) (h : Enumeration.create name type width decls = .ok e) :
    e.name = name ∧ e.type = ⟨type, width.getD type.width⟩ ∧
    (e.values.map (·.name)).Nodup ∧
    (e.values.map (·.value)).Nodup ∧
    e.values.length = 2 ^ (width.getD type.width) ∧
    (∀ v, v ∈ e.values.map (·.value) ↔ InRange (width.getD type.width) type.isSigned v) ∧
    ∀ vals, Assignment decls vals →
      (∀ p ∈ (decls.map (·.1)).zip vals, ⟨p.1, p.2, false⟩ ∈ e.values) ∧
      ∀ x ∈ e.values, x.value ∉ vals → x = ⟨generatedName x.value, x.value, true⟩ := by
  obtain ⟨w, l, rfl, h2, h3, h4, h5, h6, h7, h8, h9, h10, h11, rfl⟩ := (create_ok_iff ..).mp h
  have hA := assign_assignment decls
  have hz := declared_zip decls (assign decls 0)
  have hnames : (declared decls (assign decls 0)).map (·.name) = decls.map (·.1) := by
    have := congrArg (List.map Prod.fst) hz
    rw [List.map_map, List.map_fst_zip (by simp [assign_length])] at this
    exact this
  have hvalues : (declared decls (assign decls 0)).map (·.value) = assign decls 0 := by
    have := congrArg (List.map Prod.snd) hz
    rw [List.map_map, List.map_snd_zip (by simp [assign_length])] at this
    exact this
  have hgv : (generated (assign decls 0) l).map (·.value) = l.filter (· ∉ assign decls 0) := by
    simp [generated, Function.comp_def]
  have hgn : (generated (assign decls 0) l).map (·.name) = (l.filter (· ∉ assign decls 0)).map generatedName := by
    simp [generated, Function.comp_def, unknownName_eq]
  have hvN : ((declared decls (assign decls 0) ++ generated (assign decls 0) l).map (·.value)).Nodup := by
    rw [List.map_append, hvalues, hgv, List.nodup_append]
    refine ⟨h5, h9.filter _, ?_⟩
    rintro a ha b hb rfl
    simp only [List.mem_filter, decide_not, Bool.not_eq_eq_eq_not, Bool.not_true, decide_eq_false_iff_not] at hb
    exact hb.2 ha
  have hmem : ∀ v, v ∈ (declared decls (assign decls 0) ++ generated (assign decls 0) l).map (·.value) ↔
      InRange (width.getD type.width) type.isSigned v := by
    intro v
    rw [List.map_append, hvalues, hgv, List.mem_append, List.mem_filter, h10]
    simp only [decide_eq_true_eq]
    constructor
    · rintro (hv | hv)
      · exact h6 v hv
      · exact hv.1
    · intro hv
      by_cases hin : v ∈ assign decls 0
      · exact .inl hin
      · exact .inr ⟨hv, hin⟩
  refine ⟨rfl, rfl, ?_, hvN, ?_, hmem, ?_⟩
  · simp only
    rw [List.map_append, hnames, hgn, List.nodup_append]
    refine ⟨h4, (h9.filter _).map (fun a b hab => generatedName_inj hab), ?_⟩
    rintro a ha b hb rfl
    simp only [List.mem_map, List.mem_filter, decide_eq_true_eq] at hb
    obtain ⟨v, ⟨hv, hvn⟩, rfl⟩ := hb
    exact h8 v ((h10 v).mp hv) hvn ha
  · have hp : ((declared decls (assign decls 0) ++ generated (assign decls 0) l).map (·.value)).Perm l := by
      rw [List.perm_ext_iff_of_nodup hvN h9]
      intro v; rw [hmem, h10]
    have := hp.length_eq
    rw [List.length_map] at this
    simp only
    rw [this, valueRange_length h11]
  · intro vals hvals
    obtain rfl := assignment_unique hvals hA
    refine ⟨fun p hp => ?_, fun x hx hxn => ?_⟩
    · rw [← hz, List.mem_map] at hp
      obtain ⟨x, hx, rfl⟩ := hp
      refine List.mem_append_left _ ?_
      have hxa : x.autoGenerated = false := by
        have := declared_filter decls (assign decls 0) [] []
        rw [show generated [] [] = [] from rfl, List.append_nil] at this
        rw [← this, List.mem_filter] at hx
        simpa using hx.2
      have : (⟨x.name, x.value, false⟩ : EnumValue) = x := by rw [← hxa]
      rw [this]; exact hx
    · simp only [List.mem_append] at hx
      rcases hx with hx | hx
      · exfalso
        apply hxn
        rw [← hvalues]
        exact List.mem_map_of_mem hx
      · simp only [generated, List.mem_map] at hx
        obtain ⟨v, -, rfl⟩ := hx
        simp only [unknownName_eq]

/-- Two declared values of a 2-bit type: the two others are generated. -/
example : Enumeration.create "E".toList .i8 (some 2) [("A".toList, none), ("B".toList, some (-1))] =
    .ok ⟨"E".toList, ⟨.i8, 2⟩, [⟨"A".toList, 0, false⟩, ⟨"B".toList, -1, false⟩,
      ⟨"UNKNOWN_VALUE_MINUS_2".toList, -2, true⟩, ⟨"UNKNOWN_VALUE_1".toList, 1, true⟩]⟩ := by decide +kernel
example : Enumeration.create "E".toList .u16 none [("A".toList, none)] = .error (.sparseEnum "E".toList) := by
  decide +kernel
example : Enumeration.create "E".toList .u8 none [("A".toList, some 1), ("B".toList, some 0), ("C".toList, none)] =
    .error (.duplicateEnumValue "E".toList 1) := by decide +kernel
example : Enumeration.create "E".toList .u8 (some 1) [("A".toList, some 1), ("B".toList, none)] =
    .error (.invalidEnumValue "E".toList 2) := by decide +kernel
example : Enumeration.create "E".toList .u8 (some 1) [("UNKNOWN_VALUE_0".toList, some 1)] =
    .error (.symbolRedefinition "UNKNOWN_VALUE_0".toList) := by decide +kernel

end Props
