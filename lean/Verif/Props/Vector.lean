import Verif.Lemmas.Vector

/-!
# C08 – C11 (vectors), C19

`Spec.unsignedAt mem 0 64` is the stored size header, `Spec.sliced` Python's list slicing.
-/

namespace Props
open Py Spec Model

/-! ## C08 -/

/-- **C08.** Opening a vector with a non-empty element type: `CorruptResourceError` iff the resource has
fewer than 16 bytes, the "malformed vector" assertion iff the stored 64-bit size is not a multiple of
the element size, and otherwise a vector of length stored size / element size over that buffer. -/
theorem C08_vector_open (mem : Bytes) (t : StructType) (ht : 0 < t.sizeInBytes) :
    FdVector.create mem t =
      if mem.length < 16 then .error .corruptResource
      else if unsignedAt mem 0 64 % t.sizeInBytes ≠ 0 then .error .assertionError
      else .ok { mem := mem, type := t, size := unsignedAt mem 0 64 / t.sizeInBytes } := by
  have ht' : ¬ t.sizeInBytes = 0 := by omega
  by_cases h : mem.length < 16
  · simp only [FdVector.create, checkResource_err h, h, if_true, bind, Except.bind]
  · simp only [FdVector.create, checkResource_ok (Nat.le_of_not_lt h), h, if_false, bind, Except.bind,
      read_header (show 8 ≤ mem.length by omega), ht', Int.toNat_natCast]
    rfl

/-- **C08.** An element type of size 0 (all field widths 0) can never be opened. -/
theorem C08_vector_open_empty_type (mem : Bytes) (t : StructType) (ht : t.sizeInBytes = 0) :
    FdVector.create mem t = .error (if mem.length < 16 then .corruptResource else .zeroDivisionError) := by
  by_cases h : mem.length < 16
  · simp only [FdVector.create, checkResource_err h, h, if_true, bind, Except.bind]
  · simp only [FdVector.create, checkResource_ok (Nat.le_of_not_lt h), h, if_false, bind, Except.bind,
      read_header (show 8 ≤ mem.length by omega), ht, if_true]
    rfl

/-- The reported length is the stored one (as long as it is a Python-representable length). -/
theorem C08_len (mem : Bytes) (t : StructType) (v : FdVector) (h : FdVector.create mem t = .ok v) :
    v.len = if unsignedAt mem 0 64 / t.sizeInBytes < 2 ^ 63 then
      .ok (unsignedAt mem 0 64 / t.sizeInBytes) else .error .overflowError := by
  by_cases ht : t.sizeInBytes = 0
  · rw [C08_vector_open_empty_type mem t ht] at h; simp at h
  · rw [C08_vector_open mem t (by omega)] at h
    split at h
    · simp at h
    · split at h
      · simp at h
      · cases h
        simp only [FdVector.len, pyLen]
        split <;> rfl

example : FdVector.create ([4, 0, 0, 0, 0, 0, 0, 0] ++ [1, 2, 3, 4] ++ List.replicate 8 0)
    (mkStruct "S" [⟨"x", 12, false⟩]) =
    .ok ⟨[4, 0, 0, 0, 0, 0, 0, 0] ++ [1, 2, 3, 4] ++ List.replicate 8 0, mkStruct "S" [⟨"x", 12, false⟩], 2⟩ := by
  decide +kernel

/-! ## C09 -/

/-- **C09.** For every open vector whose length is a valid Python length, and every integer `i`:
`v[i]` is the structure at byte `8 + i * element_size` if `0 ≤ i < len`, equals `v[i + len]` if
`-len ≤ i < 0`, and raises `IndexError` otherwise. -/
theorem C09_vector_index (v : FdVector) (hsize : v.size < 2 ^ 63) (i : Int) :
    (0 ≤ i → i < v.size →
      v.get i = .ok { type := v.type, mem := v.mem, pos := 8 + v.type.sizeInBytes * i.toNat }) ∧
    (-(v.size : Int) ≤ i → i < 0 → v.get i = v.get (i + v.size)) ∧
    ((i < -(v.size : Int) ∨ (v.size : Int) ≤ i) → v.get i = .error .indexError) := by
  have hnn : ∀ j : Int, 0 ≤ j → v.get j = if j.toNat < v.size then
      .ok (getItem v.type v.mem j.toNat) else .error .indexError := by
    intro j hj
    obtain ⟨k, rfl⟩ := Int.eq_ofNat_of_zero_le hj
    exact vector_get_nonneg v k
  have hneg : ∀ j : Int, j < 0 → v.get j =
      if j + v.size ≥ v.size ∨ j + (v.size : Int) < 0 then .error .indexError
      else .ok (getItem v.type v.mem (j + v.size).toNat) := by
    intro j hj
    simp only [FdVector.get, hj, if_true, vector_len_ok hsize, bind, Except.bind, pure, Except.pure]
    rfl
  refine ⟨fun h0 h1 => ?_, fun h0 h1 => ?_, fun h => ?_⟩
  · rw [hnn i h0, if_pos (by omega)]; rfl
  · rw [hneg i h1, hnn _ (by omega), if_neg (by omega), if_pos (by omega)]
  · by_cases h0 : i < 0
    · rw [hneg i h0, if_pos (by omega)]
    · rw [hnn i (by omega), if_neg (by omega)]

/-! ## C10, C11 -/

/-- **C11.** Iterating a vector: as many elements as `len`, the `i`-th being `v[i]`. -/
theorem C11_vector_iter (v : FdVector) (hsize : v.size < 2 ^ 63) :
    ∃ l, v.toList = .ok l ∧ v.len = .ok l.length ∧
      ∀ (i : Nat) x, l[i]? = some x → v.get (i : Int) = .ok x := by
  refine ⟨(List.range v.size).map fun i => getItem v.type v.mem i, ?_, ?_, ?_⟩
  · simp only [FdVector.toList, vector_len_ok hsize, bind, Except.bind]; rfl
  · rw [vector_len_ok hsize]; simp
  · intro i x hx
    rw [vector_get_nonneg]
    simp only [List.getElem?_map] at hx
    by_cases hi : i < v.size
    · simp [hi] at hx; simp [hi, hx]
    · simp [hi] at hx

/-- **C11.** `v.field` lists the field of every element in order. -/
theorem C11_vector_column (v : FdVector) (hsize : v.size < 2 ^ 63) (name : String) (c : List Int)
    (h : v.column name = .ok c) :
    c.length = v.size ∧ ∀ (i : Nat) y, c[i]? = some y → ∃ x, v.get (i : Int) = .ok x ∧ x.getAttr name = .ok y := by
  have hl : v.toList = .ok ((List.range v.size).map fun i => getItem v.type v.mem i) := by
    simp only [FdVector.toList, vector_len_ok hsize, bind, Except.bind]; rfl
  simp only [FdVector.column, hl, bind, Except.bind] at h
  obtain ⟨h1, h2⟩ := mapM_eq_ok h
  refine ⟨by simpa using h1, fun i y hy => ?_⟩
  have hi : i < v.size := by
    have := (List.getElem?_eq_some_iff.mp hy).1
    rw [h1] at this; simpa using this
  obtain ⟨y', hy', hf⟩ := h2 i (getItem v.type v.mem i) (by simp [hi])
  rw [hy] at hy'; cases hy'
  exact ⟨_, by rw [vector_get_nonneg, if_pos hi], hf⟩

/-- **C10.** Iterating `v[a:b:c]` yields exactly the elements Python's list slicing selects from
`list(v)`, for all starts, stops and steps other than 0. -/
theorem C10_vector_slice (v : FdVector) (hsize : v.size < 2 ^ 63) (s : Slice) (hs : s.step ≠ some 0)
    (l : List StructView) (hl : v.toList = .ok l) : v.slice s = .ok (sliced l s) := by
  have hl' : l = (List.range v.size).map fun i => getItem v.type v.mem i := by
    simp only [FdVector.toList, vector_len_ok hsize, bind, Except.bind] at hl
    cases hl; rfl
  obtain ⟨a, b, c, h1, h2⟩ := indices_range s v.size hs
  simp only [FdVector.slice, vector_len_ok hsize, bind, Except.bind, h1, h2]
  have hlen : l.length = v.size := by rw [hl']; simp
  rw [sliced, hlen, filterMap_range_map l (fun i => getItem v.type v.mem i) v.size _ hl'
    (fun i hi => mem_selected_lt hi)]
  rw [mapM_ok (g := fun i : Int => getItem v.type v.mem i.toNat)]
  · rw [List.map_map]; rfl
  · intro x hx
    obtain ⟨i, hi, rfl⟩ := List.mem_map.mp hx
    rw [vector_get_nonneg, if_pos (mem_selected_lt hi)]; rfl

/-- **C10.** A step of 0 raises `ValueError` when the slice is iterated. -/
theorem C10_vector_slice_zero (v : FdVector) (hsize : v.size < 2 ^ 63) (s : Slice) (hs : s.step = some 0) :
    v.slice s = .error .valueError := by
  simp only [FdVector.slice, vector_len_ok hsize, bind, Except.bind, indices_zero s _ hs]

/-- **C10, multivectors.** If all buckets can be read, slicing selects what list slicing selects. -/
theorem C10_multivector_slice (m : Multivector) (s : Slice) (hs : s.step ≠ some 0)
    (l : List (List StructView)) (hl : m.toList = .ok l) : m.slice s = .ok (sliced l s) := by
  cases hn : m.len with
  | error e => simp [Multivector.toList, hn, bind, Except.bind] at hl
  | ok n =>
    simp only [Multivector.toList, hn, bind, Except.bind] at hl
    obtain ⟨hlen, hget⟩ := mapM_eq_ok hl
    simp only [List.length_range] at hlen
    obtain ⟨a, b, c, h1, h2⟩ := indices_range s n hs
    simp only [Multivector.slice, hn, bind, Except.bind, h1, h2]
    have key : ∀ is : List Nat, (∀ i ∈ is, i < n) →
        (is.map (Nat.cast : Nat → Int)).mapM (fun i => m.get i) = .ok (is.filterMap (l[·]?)) := by
      intro is
      induction is with
      | nil => intro _; rfl
      | cons i is ih =>
        intro hlt
        obtain ⟨y, hy, hf⟩ := hget i i (by simp [hlt i (by simp)])
        rw [List.map_cons, List.mapM_cons, hf, ih fun j hj => hlt j (by simp [hj]), List.filterMap_cons, hy]
        rfl
    rw [key _ fun i hi => mem_selected_lt hi, sliced, hlen]

/-- **C11, multivectors.** Iterating visits bucket `0 .. len-1` in order. -/
theorem C11_multivector_iter (m : Multivector) (l : List (List StructView)) (hl : m.toList = .ok l) :
    m.len = .ok l.length ∧ ∀ (i : Nat) x, l[i]? = some x → m.get (i : Int) = .ok x := by
  cases hn : m.len with
  | error e => simp [Multivector.toList, hn, bind, Except.bind] at hl
  | ok n =>
    simp only [Multivector.toList, hn, bind, Except.bind] at hl
    obtain ⟨hlen, hget⟩ := mapM_eq_ok hl
    simp only [List.length_range] at hlen
    refine ⟨by rw [hlen], fun i x hx => ?_⟩
    have hi : i < n := by
      have := (List.getElem?_eq_some_iff.mp hx).1; omega
    obtain ⟨y, hy, hf⟩ := hget i i (by simp [hi])
    rw [hx] at hy; cases hy; exact hf

/-- **C11, instances.** Iterating an instance visits its single element. -/
theorem C11_instance_iter (x : Instance) :
    ∃ e, x.toList = [e] ∧ x.get 0 = .ok e ∧ x.get (-1) = .ok e :=
  ⟨getItem x.type x.mem 0, rfl, rfl, rfl⟩

/-- Non-vacuity: a two-element vector, sliced backwards. -/
example : ((FdVector.mk ([4, 0, 0, 0, 0, 0, 0, 0] ++ [1, 2, 3, 4] ++ List.replicate 8 0)
    (mkStruct "S" [⟨"x", 16, false⟩]) 2).sliceColumn ⟨none, none, some (-1)⟩ "x") = .ok [1027, 513] := by
  decide +kernel

/-! ## C19 -/

theorem fillRows_spec (items : List StructView) (tuples : List (List Int)) (k : Nat)
    (rows : List (Option (List Int)))
    (ht : items.map (fun x => x.asTuple) = tuples.map .ok) :
    fillRows items k rows =
      if k + items.length ≤ rows.length ∨ items = [] then
        .ok (rows.take k ++ tuples.map some ++ rows.drop (k + items.length))
      else .error .indexError := by
  induction items generalizing tuples k rows with
  | nil =>
    cases tuples with
    | nil => simp [fillRows]; rfl
    | cons => simp at ht
  | cons x xs ih =>
    cases tuples with
    | nil => simp at ht
    | cons t ts =>
      simp only [List.map_cons, List.cons.injEq] at ht
      simp only [fillRows, ht.1, bind, Except.bind]
      by_cases hk : k < rows.length
      · rw [if_pos hk, ih ts (k + 1) _ ht.2]
        by_cases hle : k + (x :: xs).length ≤ rows.length
        · simp only [List.length_cons] at hle
          have h1 : k + 1 + xs.length ≤ (rows.set k (some t)).length ∨ xs = [] := by
            left; simp; omega
          have h2 : k + (x :: xs).length ≤ rows.length ∨ x :: xs = [] := by left; simp; omega
          rw [if_pos h1, if_pos h2]
          congr 1
          have e1 : (rows.set k (some t)).take (k + 1) = rows.take k ++ [some t] := by
            rw [List.take_add_one, List.take_set_of_le (Nat.le_refl _)]
            simp [hk]
          have e2 : (rows.set k (some t)).drop (k + 1 + xs.length) = rows.drop (k + (xs.length + 1)) := by
            rw [List.drop_set_of_lt (by omega)]; congr 1; omega
          rw [e1, e2]; simp
        · simp only [List.length_cons] at hle
          have h1 : ¬ (k + 1 + xs.length ≤ (rows.set k (some t)).length ∨ xs = []) := by
            simp only [List.length_set]; rintro (h | h)
            · omega
            · subst h; simp at hle; omega
          have h2 : ¬ (k + (x :: xs).length ≤ rows.length ∨ x :: xs = []) := by
            simp; omega
          rw [if_neg h1, if_neg h2]
      · rw [if_neg hk, if_neg (by simp; omega)]; rfl

/-- **C19.** `v[s].to_numpy()` (no limit): one row per selected element, in order, holding the element's
fields; nothing is left uninitialised. -/
theorem C19_to_numpy (v : FdVector) (hsize : v.size < 2 ^ 63) (s : Slice) (hs : s.step ≠ some 0)
    (l : List StructView) (hl : v.toList = .ok l) (tuples : List (List Int))
    (ht : (sliced l s).map (fun x => x.asTuple) = tuples.map .ok) :
    v.toNumpy s none = .ok (tuples.map some) := by
  have hsl := C10_vector_slice v hsize s hs l hl
  have hlen : l.length = v.size := by
    simp only [FdVector.toList, vector_len_ok hsize, bind, Except.bind] at hl
    cases hl; simp
  obtain ⟨a, b, c, h1, h2⟩ := indices_range s v.size hs
  have hn : rangeLen a b c = (sliced l s).length := by
    rw [← range_length, h2, sliced, hlen]
    rw [List.length_map]
    have : ∀ is : List Nat, (∀ i ∈ is, i < l.length) → is.length = (is.filterMap (l[·]?)).length := by
      intro is
      induction is with
      | nil => intro _; rfl
      | cons i is ih =>
        intro h
        have := h i (by simp)
        rw [List.filterMap_cons, List.getElem?_eq_getElem this]
        simp only [List.length_cons]
        rw [ih fun j hj => h j (by simp [hj])]
    exact this _ fun i hi => by rw [hlen]; exact mem_selected_lt hi
  simp only [FdVector.toNumpy, vector_len_ok hsize, bind, Except.bind, h1, hsl]
  rw [fillRows_spec _ tuples 0 _ ht, if_pos (by left; simp [hn])]
  simp [hn]

/-- **C19, limit.** With a positive limit the array has exactly `limit` rows: if the selection is larger
than the limit the call raises `IndexError` instead of truncating; if it is smaller, the surplus rows are
uninitialised. -/
theorem C19_to_numpy_limit (v : FdVector) (hsize : v.size < 2 ^ 63) (s : Slice) (hs : s.step ≠ some 0)
    (l : List StructView) (hl : v.toList = .ok l) (tuples : List (List Int))
    (ht : (sliced l s).map (fun x => x.asTuple) = tuples.map .ok) (limit : Nat) (hlim : 0 < limit) :
    v.toNumpy s (some limit) =
      if (sliced l s).length ≤ limit then
        .ok (tuples.map some ++ List.replicate (limit - (sliced l s).length) none)
      else .error .indexError := by
  have hsl := C10_vector_slice v hsize s hs l hl
  obtain ⟨a, b, c, h1, h2⟩ := indices_range s v.size hs
  simp only [FdVector.toNumpy, vector_len_ok hsize, bind, Except.bind, h1, hsl]
  obtain ⟨k, rfl⟩ : ∃ k, limit = k + 1 := ⟨limit - 1, by omega⟩
  simp only
  rw [fillRows_spec _ tuples 0 _ ht]
  by_cases h : (sliced l s).length ≤ k + 1
  · rw [if_pos (by left; simpa using h), if_pos h]; simp
  · rw [if_neg (by simp; exact ⟨by omega, by rintro hc; simp [hc] at h⟩), if_neg h]

/-- The claim "printing a slice (`__repr__`, limit 100) works" is false: any slice selecting more than
100 elements raises `IndexError`. -/
theorem C19_repr_fails (v : FdVector) (hsize : v.size < 2 ^ 63) (s : Slice) (hs : s.step ≠ some 0)
    (l : List StructView) (hl : v.toList = .ok l) (tuples : List (List Int))
    (ht : (sliced l s).map (fun x => x.asTuple) = tuples.map .ok) (hlong : 100 < (sliced l s).length) :
    v.toNumpy s (some 100) = .error .indexError := by
  rw [C19_to_numpy_limit v hsize s hs l hl tuples ht 100 (by omega), if_neg (by omega)]

example : (FdVector.mk ([4, 0, 0, 0, 0, 0, 0, 0] ++ [1, 2, 3, 4] ++ List.replicate 8 0)
    (mkStruct "S" [⟨"x", 16, false⟩]) 2).toNumpy ⟨none, none, none⟩ (some 3) =
    .ok [some [513], some [1027], none] := by decide +kernel
example : (FdVector.mk ([4, 0, 0, 0, 0, 0, 0, 0] ++ [1, 2, 3, 4] ++ List.replicate 8 0)
    (mkStruct "S" [⟨"x", 16, false⟩]) 2).toNumpy ⟨none, none, none⟩ (some 1) = .error .indexError := by
  decide +kernel

end Props
