import Verif.Model.Native.CppIterator
import Verif.Model.Native.CppStorage
import Mathlib.Tactic.Ring
import Mathlib.Tactic.Linarith

/-!
# C110: slices and iterators of C++ vectors agree with lists
-/

namespace Props.Native.CppIterator
open Py Model Model.Native Gen

/-- `read` gives the value of the structure of `n` bytes at an address, in some memory. The view shows `xs`: the structures are next to each
other at its address, and it knows how many they are. They fit the address space, and differences of pointers fit a `ptrdiff_t`. -/
structure ShowsArray {α : Type} (read : Address → α) (n : Nat) (v : CppArray) (xs : List α) : Prop where
  width : 0 < n
  size : v.size.toNat = xs.length
  values : ∀ i (h : i < xs.length), read (BitVec.ofNat 64 (v.data.toNat + n * i)) = xs[i]
  room : v.data.toNat + n * xs.length < 2 ^ 64
  bytes : n * xs.length < 2 ^ 63

/-- The iterator points at element `i` of the view. -/
def PointsAt (n : Nat) (v : CppArray) (i : Nat) (it : CppIterator) : Prop := it.ptr.toNat = v.data.toNat + n * i

/-! ## Arithmetic -/

theorem address (d : Address) (n i : Nat) : d + sizeT n * BitVec.ofNat 64 i = BitVec.ofNat 64 (d.toNat + n * i) := by
  rw [BitVec.ofNat_add, BitVec.ofNat_mul, BitVec.ofNat_toNat, BitVec.setWidth_eq]

theorem address' (d : Address) (n i : Nat) : d + BitVec.ofNat 64 i * sizeT n = BitVec.ofNat 64 (d.toNat + n * i) := by
  rw [BitVec.mul_comm, address]

theorem ofNat_lt {x : Nat} (h : x < 2 ^ 64) : (BitVec.ofNat 64 x).toNat = x := by
  rw [BitVec.toNat_ofNat]; exact Nat.mod_eq_of_lt h

theorem ofNat_of {a : BitVec 64} {k : Nat} (h : a.toNat = k) : a = BitVec.ofNat 64 k := by subst h; simp

theorem ptr_of {n : Nat} {v : CppArray} {i : Nat} {it : CppIterator} (h : PointsAt n v i it) :
    it.ptr = BitVec.ofNat 64 (v.data.toNat + n * i) := ofNat_of h

section
variable {α : Type} {read : Address → α} {n : Nat} {v : CppArray} {xs : List α}

theorem ShowsArray.inside (h : ShowsArray read n v xs) {i : Nat} (hi : i ≤ xs.length) : v.data.toNat + n * i < 2 ^ 64 :=
  lt_of_le_of_lt (Nat.add_le_add_left (Nat.mul_le_mul_left n hi) _) h.room

theorem ShowsArray.points (h : ShowsArray read n v xs) {i : Nat} (hi : i ≤ xs.length) : PointsAt n v i ⟨BitVec.ofNat 64 (v.data.toNat + n * i)⟩ :=
  ofNat_lt (h.inside hi)

theorem ShowsArray.length_lt (h : ShowsArray read n v xs) : xs.length < 2 ^ 63 :=
  lt_of_le_of_lt (Nat.le_mul_of_pos_left _ h.width) h.bytes

/-- A part of what a view shows. -/
theorem ShowsArray.part (h : ShowsArray read n v xs) {pos : Nat} {ys : List α} {d : Address} {size : BitVec 64} (hd : d = BitVec.ofNat 64 (v.data.toNat + n * pos))
    (hs : size.toNat = ys.length) (hle : pos + ys.length ≤ xs.length) (hy : ∀ i (hi : i < ys.length), ys[i] = xs[pos + i]) : ShowsArray read n ⟨d, size⟩ ys := by
  have hp : d.toNat = v.data.toNat + n * pos := by rw [hd]; exact ofNat_lt (h.inside (by omega))
  have hm : n * pos + n * ys.length = n * (pos + ys.length) := by ring
  have hle' := Nat.mul_le_mul_left n hle
  have := h.room
  have := h.bytes
  refine ⟨h.width, hs, ?_, by show d.toNat + _ < _; omega, by omega⟩
  intro i hi
  rw [hy i hi, ← h.values (pos + i) (by omega)]
  show read (BitVec.ofNat 64 (d.toNat + n * i)) = _
  rw [hp]
  congr 2
  ring

/-! ## Theorems -/

/-- C110 (elements). The sizes and elements of a view. -/
theorem C110_elements (h : ShowsArray read n v xs) : (v.empty = true ↔ xs = []) ∧
    (∀ i : BitVec 64, ∀ hi : i.toNat < xs.length, read (v.get n i) = xs[i.toNat]) ∧
    (∀ hne : xs ≠ [], read (v.front n) = xs.head hne ∧ read (v.back n) = xs.getLast hne) := by
  have hget : ∀ i : BitVec 64, ∀ hi : i.toNat < xs.length, read (v.get n i) = xs[i.toNat] := by
    intro i hi
    rw [← h.values _ hi]
    unfold CppArray.get
    conv_lhs => rw [ofNat_of (a := i) rfl, address]
  refine ⟨?_, hget, ?_⟩
  · unfold CppArray.empty
    rw [decide_eq_true_iff, ← List.length_eq_zero_iff, ← h.size]
    constructor
    · intro e; rw [e]; rfl
    · intro e; rw [ofNat_of e]; rfl
  · intro hne
    have hpos := List.length_pos_iff.mpr hne
    constructor
    · rw [List.head_eq_getElem]
      exact hget 0 (by simpa using hpos)
    · rw [List.getLast_eq_getElem]
      have hl : (v.size - 1).toNat = xs.length - 1 := by
        have := h.size
        have : v.size.toNat < 2 ^ 64 := v.size.isLt
        rw [BitVec.toNat_sub]
        have h1 : (1 : BitVec 64).toNat = 1 := rfl
        rw [h1]
        omega
      have := hget (v.size - 1) (by omega)
      unfold CppArray.back
      rw [this]
      congr 1

/-- C110 (slices). A slice shows the elements of a slice of the list, if it lies inside of the view. -/
theorem C110_slice (h : ShowsArray read n v xs) {a b : BitVec 64} :
    (a.toNat + b.toNat ≤ xs.length → ShowsArray read n (v.slice n a b) ((xs.drop a.toNat).take b.toNat)) ∧
    (a.toNat ≤ b.toNat → b.toNat ≤ xs.length → ShowsArray read n (v.sliceRange n a b) ((xs.take b.toNat).drop a.toNat)) ∧
    (a.toNat ≤ xs.length → ShowsArray read n (v.sliceBefore a) (xs.take a.toNat)) ∧
    (a.toNat ≤ xs.length → ShowsArray read n (v.sliceAfter n a) (xs.drop a.toNat)) ∧
    (a.toNat ≤ xs.length → ShowsArray read n (v.skip n a) (xs.drop a.toNat)) ∧
    (a.toNat ≤ xs.length → ShowsArray read n (v.skipLast a) (xs.take (xs.length - a.toNat))) := by
  have hd : ∀ a : BitVec 64, v.data + a * sizeT n = BitVec.ofNat 64 (v.data.toNat + n * a.toNat) := by
    intro a
    conv_lhs => rw [ofNat_of (a := a) rfl, address']
  have hz : v.data = BitVec.ofNat 64 (v.data.toNat + n * 0) := by simp
  have hafter : a.toNat ≤ xs.length → ShowsArray read n (v.sliceAfter n a) (xs.drop a.toNat) := by
    intro ha
    refine h.part (hd a) ?_ (by rw [List.length_drop]; omega) (by intro i hi; rw [List.getElem_drop])
    rw [List.length_drop, ← h.size, BitVec.toNat_sub_of_le]
    rw [BitVec.le_def, h.size]; exact ha
  refine ⟨?_, ?_, ?_, hafter, hafter, ?_⟩
  · intro hle
    have hl : ((xs.drop a.toNat).take b.toNat).length = b.toNat := by rw [List.length_take, List.length_drop]; omega
    exact h.part (hd a) hl.symm (by omega) (by intro i hi; rw [List.getElem_take, List.getElem_drop])
  · intro hab hb
    have hl : ((xs.take b.toNat).drop a.toNat).length = b.toNat - a.toNat := by rw [List.length_drop, List.length_take]; omega
    refine h.part (hd a) ?_ (by omega) (by intro i hi; rw [List.getElem_drop, List.getElem_take])
    rw [hl, BitVec.toNat_sub_of_le (by rw [BitVec.le_def]; exact hab)]
  · intro ha
    have hl : (xs.take a.toNat).length = a.toNat := by rw [List.length_take]; omega
    refine h.part hz hl.symm (by omega) ?_
    intro i hi
    rw [List.getElem_take]
    congr 1
    omega
  · intro ha
    have hl : (xs.take (xs.length - a.toNat)).length = xs.length - a.toNat := by rw [List.length_take]; omega
    refine h.part hz ?_ (by omega) ?_
    · rw [hl, ← h.size, BitVec.toNat_sub_of_le]
      rw [BitVec.le_def, h.size]; exact ha
    · intro i hi
      rw [List.getElem_take]
      congr 1
      omega

/-- C110 (iterators). Iterators move like positions in the list. -/
theorem C110_move (h : ShowsArray read n v xs) : PointsAt n v 0 v.begin ∧ PointsAt n v xs.length (v.end n) ∧
    ∀ i, i ≤ xs.length → ∀ it, PointsAt n v i it →
      (∀ hi : i < xs.length, read it.deref = xs[i]) ∧
      (i < xs.length → PointsAt n v (i + 1) (it.next n)) ∧
      (0 < i → PointsAt n v (i - 1) (it.prev n)) ∧
      (∀ (j : Nat) (k : Int), j ≤ xs.length → (i : Int) + k = j →
        PointsAt n v j (it.add n (BitVec.ofInt 64 k)) ∧ PointsAt n v j (it.sub n (BitVec.ofInt 64 (-k))) ∧
        ∀ hj : j < xs.length, read (it.get n (BitVec.ofInt 64 k)) = xs[j]) := by
  refine ⟨by unfold PointsAt CppArray.begin; simp, ?_, ?_⟩
  · have := h.points (Nat.le_refl _)
    unfold CppArray.end
    rwa [ofNat_of h.size, address']
  · intro i hi it hit
    have hp := ptr_of hit
    have hadd : ∀ (j : Nat) (k : Int), j ≤ xs.length → (i : Int) + k = j → it.ptr + sizeT n * BitVec.ofInt 64 k = BitVec.ofNat 64 (v.data.toNat + n * j) := by
      intro j k hj he
      rw [hp, show sizeT n = BitVec.ofInt 64 (n : Int) from (BitVec.ofInt_natCast ..).symm, ← BitVec.ofInt_natCast, ← BitVec.ofInt_natCast, ← BitVec.ofInt_mul, ← BitVec.ofInt_add]
      congr 1
      push_cast
      rw [← he]
      ring
    refine ⟨?_, ?_, ?_, ?_⟩
    · intro hlt
      show read it.ptr = _
      rw [hp, h.values i hlt]
    · intro hlt
      have e := hadd (i + 1) 1 hlt (by omega)
      have : sizeT n * BitVec.ofInt 64 1 = sizeT n := by
        show sizeT n * 1#64 = _
        rw [BitVec.mul_one]
      rw [this] at e
      unfold CppIterator.next
      rw [e]
      exact h.points hlt
    · intro hpos
      have e := hadd (i - 1) (-1) (by omega) (by omega)
      have : it.ptr - sizeT n = it.ptr + sizeT n * BitVec.ofInt 64 (-1) := by
        rw [BitVec.sub_eq_add_neg, BitVec.ofInt_neg]
        show _ = it.ptr + sizeT n * -1#64
        rw [BitVec.mul_neg, BitVec.mul_one]
      unfold CppIterator.prev
      rw [this, e]
      exact h.points (by omega)
    · intro j k hj he
      have e := hadd j k hj he
      refine ⟨?_, ?_, ?_⟩
      · unfold CppIterator.add
        rw [e]
        exact h.points hj
      · have : it.ptr - sizeT n * BitVec.ofInt 64 (-k) = it.ptr + sizeT n * BitVec.ofInt 64 k := by
          rw [BitVec.sub_eq_add_neg, BitVec.ofInt_neg, BitVec.mul_neg, BitVec.neg_neg]
        unfold CppIterator.sub
        rw [this, e]
        exact h.points hj
      · intro hlt
        unfold CppIterator.get
        rw [e, h.values j hlt]

/-- C110 (comparisons). Iterators compare like positions, and the difference of an iterator and one that is not behind it is the number of
elements between them. -/
theorem C110_compare (h : ShowsArray read n v xs) {i j : Nat} (hi : i ≤ xs.length) {a b : CppIterator} (ha : PointsAt n v i a)
    (hb : PointsAt n v j b) : (a.eq b = true ↔ i = j) ∧ (a.lt b = true ↔ i < j) ∧ (a.le b = true ↔ i ≤ j) ∧ (j ≤ i → a.diff b n = i - j) := by
  have hn := h.width
  unfold PointsAt at ha hb
  refine ⟨?_, ?_, ?_, ?_⟩
  · unfold CppIterator.eq
    rw [decide_eq_true_iff, ← BitVec.toNat_inj, ha, hb, Nat.add_left_cancel_iff, Nat.mul_right_inj hn.ne']
  · unfold CppIterator.lt
    rw [decide_eq_true_iff, BitVec.lt_def, ha, hb, Nat.add_lt_add_iff_left, Nat.mul_lt_mul_left hn]
  · unfold CppIterator.le
    rw [decide_eq_true_iff, BitVec.le_def, ha, hb, Nat.add_le_add_iff_left, Nat.mul_le_mul_left_iff hn]
  · intro hji
    have hle := Nat.mul_le_mul_left n hji
    have hb64 := h.bytes
    have hx := Nat.mul_le_mul_left n hi
    have hnn : n ≤ n * xs.length ∨ xs.length = 0 := by
      rcases Nat.eq_zero_or_pos xs.length with e | e
      · exact Or.inr e
      · exact Or.inl (Nat.le_mul_of_pos_right _ e)
    have hsub : (a.ptr - b.ptr).toNat = n * (i - j) := by
      rw [BitVec.toNat_sub_of_le (by rw [BitVec.le_def]; omega), ha, hb, Nat.mul_sub]
      omega
    unfold CppIterator.diff
    have hdiv : ((a.ptr - b.ptr) / sizeT n).toNat = i - j := by
      rw [BitVec.toNat_udiv, hsub]
      rcases hnn with e | e
      · rw [ofNat_lt (by omega), Nat.mul_div_cancel_left _ hn]
      · have : i - j = 0 := by omega
        rw [this]; simp
    have := h.length_lt
    rw [BitVec.toInt_eq_toNat_cond, hdiv, if_pos (by omega)]
    omega

/-- C110 (differences). If the first iterator is before the second one, `a - b` is the number of elements between them only for structures of
one byte: the negative number of bytes is divided as an unsigned one. -/
theorem C110_difference (h : ShowsArray read n v xs) {i j : Nat} (hj : j ≤ xs.length) {a b : CppIterator} (ha : PointsAt n v i a)
    (hb : PointsAt n v j b) (hij : i < j) : a.diff b n = (i : Int) - j ↔ n = 1 := by
  have hn := h.width
  unfold PointsAt at ha hb
  have hb64 := h.bytes
  have hx := Nat.mul_le_mul_left n hj
  have hlt := (Nat.mul_lt_mul_left hn).mpr hij
  have hm : n * (j - i) = n * j - n * i := Nat.mul_sub ..
  have hnl : n ≤ n * (j - i) := Nat.le_mul_of_pos_right _ (by omega)
  have hsub : (a.ptr - b.ptr).toNat = 2 ^ 64 - n * (j - i) := by
    have := b.ptr.isLt
    rw [BitVec.toNat_sub, ha, hb]
    rw [ha, hb] at *
    omega
  unfold CppIterator.diff
  have hdiv : ((a.ptr - b.ptr) / sizeT n).toNat = (2 ^ 64 - n * (j - i)) / n := by
    rw [BitVec.toNat_udiv, hsub, ofNat_lt (by omega)]
  have h1 : j - i ≤ n * (j - i) := Nat.le_mul_of_pos_left _ hn
  rw [BitVec.toInt_eq_toNat_cond, hdiv]
  constructor
  · intro e
    by_contra hne
    have h2 : (2 ^ 64 - n * (j - i)) / n ≤ (2 ^ 64 - n * (j - i)) / 2 := Nat.div_le_div_left (by omega) (by omega)
    rw [if_pos (by omega)] at e
    omega
  · intro e
    subst e
    rw [Nat.div_one, if_neg (by omega)]
    push_cast
    omega

theorem loop_from (h : ShowsArray read n v xs) : ∀ (k i : Nat), i + k = xs.length → ∀ it, PointsAt n v i it →
    ∃ l, CppLoop n (v.end n) it l ∧ l.map read = xs.drop i := by
  have hend := (C110_move h).2.1
  intro k
  induction k with
  | zero =>
    intro i hi it hit
    exact ⟨[], .done ((C110_compare h (by omega) hit hend).1.mpr (by omega)), by rw [List.drop_eq_nil_of_le (by omega)]; rfl⟩
  | succ k ih =>
    intro i hi it hit
    obtain ⟨a, b, -, -⟩ := (C110_move h).2.2 i (by omega) it hit
    obtain ⟨l, hl, e⟩ := ih (i + 1) (by omega) _ (b (by omega))
    have hne : it.eq (v.end n) = false := by
      rw [Bool.eq_false_iff]
      intro hc
      have := (C110_compare h (by omega) hit hend).1.mp hc
      omega
    refine ⟨_, .step hne hl, ?_⟩
    have hlt : i < xs.length := by omega
    rw [List.map_cons, e, a hlt, ← List.drop_eq_getElem_cons hlt]

theorem reverse_from (h : ShowsArray read n v xs) : ∀ (i : Nat), i ≤ xs.length → ∀ it, PointsAt n v i it →
    ∃ l, CppReverseLoop n v.begin it l ∧ l.map read = (xs.take i).reverse := by
  have hbegin := (C110_move h).1
  intro i
  induction i with
  | zero =>
    intro hi it hit
    exact ⟨[], .done ((C110_compare h hi hit hbegin).1.mpr rfl), by simp⟩
  | succ i ih =>
    intro hi it hit
    obtain ⟨-, -, b, -⟩ := (C110_move h).2.2 (i + 1) hi it hit
    have hp := b (by omega)
    rw [Nat.add_sub_cancel] at hp
    obtain ⟨l, hl, e⟩ := ih (by omega) _ hp
    obtain ⟨a, -⟩ := (C110_move h).2.2 i (by omega) _ hp
    have hne : it.eq v.begin = false := by
      rw [Bool.eq_false_iff]
      intro hc
      have := (C110_compare h hi hit hbegin).1.mp hc
      omega
    refine ⟨_, .step hne hl, ?_⟩
    have hlt : i < xs.length := by omega
    rw [List.map_cons, e, a hlt, List.take_add_one, List.getElem?_eq_getElem hlt, Option.toList_some, List.reverse_append]
    rfl

theorem loop_unique {n : Nat} {stop it : CppIterator} {l l' : List Address} (h : CppLoop n stop it l) (h' : CppLoop n stop it l') : l = l' := by
  induction h generalizing l' with
  | done e => cases h' with
    | done _ => rfl
    | step e' _ => rw [e] at e'; cases e'
  | step e _ ih => cases h' with
    | done e' => rw [e] at e'; cases e'
    | step _ r => rw [ih r]

theorem reverse_unique {n : Nat} {stop it : CppIterator} {l l' : List Address} (h : CppReverseLoop n stop it l) (h' : CppReverseLoop n stop it l') : l = l' := by
  induction h generalizing l' with
  | done e => cases h' with
    | done _ => rfl
    | step e' _ => rw [e] at e'; cases e'
  | step e _ ih => cases h' with
    | done e' => rw [e] at e'; cases e'
    | step _ r => rw [ih r]

/-- C110 (loops). A loop over a view ends and visits every element once, in order; a loop with reverse iterators visits them backwards. -/
theorem C110_loop (h : ShowsArray read n v xs) :
    (∃ l, CppLoop n (v.end n) v.begin l) ∧ (∀ l, CppLoop n (v.end n) v.begin l → l.map read = xs) ∧
    (∃ l, CppReverseLoop n v.begin (v.end n) l) ∧ (∀ l, CppReverseLoop n v.begin (v.end n) l → l.map read = xs.reverse) := by
  obtain ⟨l, hl, e⟩ := loop_from h xs.length 0 (by omega) _ (C110_move h).1
  obtain ⟨r, hr, e'⟩ := reverse_from h xs.length (Nat.le_refl _) _ (C110_move h).2.1
  refine ⟨⟨l, hl⟩, ?_, ⟨r, hr⟩, ?_⟩
  · intro l' hl'
    rw [loop_unique hl' hl, e, List.drop_zero]
  · intro r' hr'
    rw [reverse_unique hr' hr, e', List.take_length]

/-- C110 (sizes). `size_in_bytes` counts the element behind the end that ranges need, and so does the view that is made of this memory. -/
theorem C110_bytes (h : ShowsArray read n v xs) {overlapping : Bool} (hf : v.data.toNat + n * (xs.length + 1) < 2 ^ 64) :
    (v.sizeInBytes overlapping n).toNat = n * (xs.length + if overlapping then 1 else 0) ∧
    CppArray.ofRange overlapping n v.data (v.data + v.sizeInBytes overlapping n) = v := by
  have hn := h.width
  have hsz := h.size
  have hm : n * (xs.length + 1) = n * xs.length + n := by ring
  have hl1 := h.length_lt
  have h1 : (v.sizeInBytes overlapping n) = BitVec.ofNat 64 (n * (xs.length + if overlapping then 1 else 0)) := by
    unfold CppArray.sizeInBytes
    conv_lhs => rw [ofNat_of h.size]
    rw [BitVec.mul_comm, BitVec.ofNat_mul, BitVec.ofNat_add]
    cases overlapping <;> rfl
  have h2 : (v.sizeInBytes overlapping n).toNat = n * (xs.length + if overlapping then 1 else 0) := by
    rw [h1]
    refine ofNat_lt ?_
    cases overlapping
    · simp only [Bool.false_eq_true, if_false, Nat.add_zero]; omega
    · simp only [if_true]; omega
  refine ⟨h2, ?_⟩
  unfold CppArray.ofRange
  have h3 : (v.data + v.sizeInBytes overlapping n - v.data) / sizeT n = BitVec.ofNat 64 (xs.length + if overlapping then 1 else 0) := by
    rw [BitVec.add_comm, BitVec.add_sub_cancel]
    apply ofNat_of
    rw [BitVec.toNat_udiv, h2, ofNat_lt (by omega), Nat.mul_div_cancel_left _ hn]
  rw [h3]
  have hv : v.size = BitVec.ofNat 64 xs.length := ofNat_of h.size
  cases v with
  | mk d s =>
    simp only at hv
    subst hv
    cases overlapping
    · simp
    · have hne : BitVec.ofNat 64 (xs.length + 1) ≠ 0 := by
        intro e
        have := congrArg BitVec.toNat e
        rw [ofNat_lt (by omega)] at this
        simp at this
      have hs : BitVec.ofNat 64 (xs.length + 1) - 1 = BitVec.ofNat 64 xs.length := by
        rw [BitVec.ofNat_add]
        exact BitVec.add_sub_cancel _ _
      show (⟨d, if true = true ∧ BitVec.ofNat 64 (xs.length + 1) ≠ 0 then BitVec.ofNat 64 (xs.length + 1) - 1 else BitVec.ofNat 64 (xs.length + 1)⟩ : CppArray) = _
      rw [if_pos (And.intro rfl hne), hs]

/-- C110 (views). A view of `size` bytes at an address has the number of elements that C79 speaks of. -/
theorem C110_view {overlapping : Bool} {n : Nat} (hn : 0 < n) (hn' : n < 2 ^ 63) {d : Address} {size : Nat} (hs : size < 2 ^ 63) :
    (CppArray.ofRange overlapping n d (d + BitVec.ofNat 64 size)).size.toNat = viewSize overlapping n size := by
  unfold CppArray.ofRange
  have h3 : (d + BitVec.ofNat 64 size - d) / sizeT n = BitVec.ofNat 64 (size / n) := by
    rw [BitVec.add_comm, BitVec.add_sub_cancel]
    apply ofNat_of
    rw [BitVec.toNat_udiv, ofNat_lt (by omega), ofNat_lt (by omega)]
  have hle : size / n ≤ size := Nat.div_le_self ..
  have hq : (BitVec.ofNat 64 (size / n)).toNat = size / n := ofNat_lt (by omega)
  rw [h3]
  unfold viewSize
  cases overlapping
  · simpa using hq
  · by_cases e : size / n = 0
    · simp [e]
    · have hne : BitVec.ofNat 64 (size / n) ≠ 0 := by
        intro c
        rw [c] at hq
        exact e hq.symm
      simp only [hne, ne_eq, not_false_eq_true, and_self, if_true, e]
      rw [BitVec.toNat_sub, hq, show (1 : BitVec 64).toNat = 1 from rfl]
      omega

/-- C110 (text). The description of a view: its sizes in decimal digits; empty ones are called uninitialised, even if they are not. -/
theorem C110_describe (h : ShowsArray read n v xs) {overlapping : Bool} (hf : v.data.toNat + n * (xs.length + 1) < 2 ^ 64) :
    v.describe overlapping n = if xs = [] then "Uninitialized Array".toList else
      "Array of size: ".toList ++ natText xs.length ++ " in ".toList ++ natText (n * (xs.length + if overlapping then 1 else 0)) ++ " bytes".toList := by
  unfold CppArray.describe
  rw [(C110_bytes h hf).1, h.size]
  have he := (C110_elements h).1
  by_cases e : xs = []
  · rw [if_neg (by rw [not_not]; exact he.mpr e), if_pos e]
  · rw [if_pos (by intro c; exact e (he.mp c)), if_neg e]

end

/-! ## Counterexamples -/

/-- Structures of two bytes at the addresses 1000, 1002, 1004: 10, 20, 30. -/
def demoRead (a : Address) : Nat := (a.toNat - 1000) / 2 * 10 + 10

def demo : CppArray := ⟨1000, 3⟩

theorem demo_shows : ShowsArray demoRead 2 demo [10, 20, 30] :=
  ⟨by decide, by decide, by decide +kernel, by decide, by decide⟩

/-- The difference `begin( ) - end( )` of structures of two bytes is not -3, but 2^63 - 3. -/
theorem C110_counterexample_difference : ∃ (v : CppArray) (xs : List Nat), ShowsArray demoRead 2 v xs ∧ xs.length = 3 ∧ v.begin.diff (v.end 2) 2 = 2 ^ 63 - 3 :=
  ⟨demo, _, demo_shows, rfl, by decide +kernel⟩

/-- `skip` and `skip_last` do not check: of three elements, `skip( 5 )` leaves 2^64 - 2 elements behind the array, and so does `skip_last( 5 )`. -/
theorem C110_counterexample_skip : ∃ (v : CppArray) (xs : List Nat), ShowsArray demoRead 2 v xs ∧ xs.length = 3 ∧ (v.skip 2 5).size.toNat = 2 ^ 64 - 2 ∧
    (v.skipLast 5).size.toNat = 2 ^ 64 - 2 := ⟨demo, _, demo_shows, rfl, by decide +kernel, by decide +kernel⟩

/-! ## Examples -/

example : ShowsArray demoRead 2 (demo.slice 2 1 2) [20, 30] := (C110_slice (a := 1) (b := 2) demo_shows).1 (by decide)
example : ShowsArray demoRead 2 (demo.sliceRange 2 1 2) [20] := (C110_slice (a := 1) (b := 2) demo_shows).2.1 (by decide) (by decide)
example : ShowsArray demoRead 2 (demo.skipLast 1) [10, 20] := (C110_slice (a := 1) (b := 0) demo_shows).2.2.2.2.2 (by decide)
example : (demo.end 2).diff demo.begin 2 = 3 := (C110_compare demo_shows (i := 3) (j := 0) (by decide) (a := demo.end 2) (b := demo.begin) (by unfold PointsAt; decide +kernel) (by unfold PointsAt; decide +kernel)).2.2.2 (by decide)
example : ∃ l, CppLoop 2 (demo.end 2) demo.begin l ∧ l.map demoRead = [10, 20, 30] := by
  obtain ⟨⟨l, hl⟩, h, -⟩ := C110_loop demo_shows
  exact ⟨l, hl, h l hl⟩
example : demo.describe true 2 = "Array of size: 3 in 8 bytes".toList := by
  rw [C110_describe demo_shows (by decide)]; decide +kernel

end Props.Native.CppIterator
