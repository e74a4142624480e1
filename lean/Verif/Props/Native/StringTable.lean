import Verif.Model.Native.CppString
import Verif.Spec.StringTable
import Verif.Props.RawData
import Verif.Lemmas.Archive

/-!
# C111: tables of strings are read the same in Python, Rust and C++
-/

namespace Props.Native.StringTable
open Py Spec Model Model.Native

/-! ## UTF-8 has a zero byte only for NUL -/

theorem char_bytes {c : Char} (h : c ≠ '\x00') : (0 : UInt8) ∉ String.utf8EncodeChar c := by
  have hv : c.val.toNat ≠ 0 := by
    intro e
    apply h
    apply Char.ext
    apply UInt32.toNat_inj.mp
    rw [e]; rfl
  have key : ∀ k, 0 < k → k < 256 → (0 : UInt8) ≠ UInt8.ofNat k := by
    intro k h1 h2 e
    have := congrArg UInt8.toNat e
    rw [UInt8.toNat_ofNat'] at this
    simp only [UInt8.toNat_zero] at this
    omega
  have hlt : c.val.toNat < 0x110000 := by
    have := c.valid
    rcases this with h | h <;> omega
  unfold String.utf8EncodeChar
  simp only
  split
  · simp only [List.mem_cons, List.not_mem_nil, or_false]; exact key _ (by omega) (by omega)
  split
  · simp only [List.mem_cons, List.not_mem_nil, or_false, not_or]; exact ⟨key _ (by omega) (by omega), key _ (by omega) (by omega)⟩
  split
  · simp only [List.mem_cons, List.not_mem_nil, or_false, not_or]
    exact ⟨key _ (by omega) (by omega), key _ (by omega) (by omega), key _ (by omega) (by omega)⟩
  · simp only [List.mem_cons, List.not_mem_nil, or_false, not_or]
    exact ⟨key _ (by omega) (by omega), key _ (by omega) (by omega), key _ (by omega) (by omega), key _ (by omega) (by omega)⟩

theorem string_bytes {s : String} (h : '\x00' ∉ s.toList) : (0 : UInt8) ∉ encodeUtf8 s := by
  have e : encodeUtf8 s = s.toList.flatMap String.utf8EncodeChar := by
    unfold encodeUtf8
    have := String.utf8Encode_toList (b := s)
    rw [String.toUTF8, ← this]
    unfold List.utf8Encode
    simp
  rw [e]
  intro hm
  obtain ⟨c, hc, h0⟩ := List.mem_flatMap.mp hm
  exact char_bytes (fun e => h (e ▸ hc)) h0

/-! ## One string -/

theorem takeWhile_zero {s rest : Bytes} (h : (0 : UInt8) ∉ s) : (s ++ 0 :: rest).takeWhile (· ≠ 0) = s := by
  rw [List.takeWhile_append_of_pos (by intro x hx; simp only [ne_eq, decide_eq_true_eq]; rintro rfl; exact h hx)]
  simp

theorem takeWhile_none {s : Bytes} (h : (0 : UInt8) ∉ s) : s.takeWhile (· ≠ 0) = s := by
  have := List.takeWhile_append_of_pos (p := fun x : UInt8 => decide (x ≠ 0)) (l₁ := s) (l₂ := [])
    (by intro x hx; simp only [ne_eq, decide_eq_true_eq]; rintro rfl; exact h hx)
  simpa using this

theorem raw_len {b : Bytes} (hlen : b.length < 2 ^ 63) : (RawData.mk (frame b)).len = .ok b.length := by
  simp only [RawData.len, read_header (show 8 ≤ (frame b).length by rw [frame_length]; omega), bind, Except.bind,
    frame_header b (by omega), Int.toNat_natCast]
  exact pyLen_ok hlen

theorem sep_zero {pre s rest : Bytes} {j : Nat} (hj : j ≤ s.length) :
    SepAt ⟨frame (pre ++ (s ++ 0 :: rest))⟩ [0] (pre.length + j) ↔ (s ++ [0])[j]? = some 0 := by
  unfold SepAt
  rw [frame_tail]
  have e : pre ++ (s ++ 0 :: rest) ++ List.replicate 8 0 = pre ++ (s ++ [0] ++ (rest ++ List.replicate 8 0)) := by simp
  rw [e, ← List.drop_drop, List.drop_left, List.drop_append_of_le_length (by simp; omega)]
  have hlt : j < (s ++ [0]).length := by simp; omega
  rw [List.drop_eq_getElem_cons hlt, List.cons_append, List.getElem?_eq_getElem hlt, Option.some_inj]
  rw [List.cons_prefix_cons]
  constructor
  · rintro ⟨h, -⟩; exact h.symm
  · intro h; exact ⟨h.symm, List.nil_prefix⟩

theorem python_string {pre s rest : Bytes} (hs : (0 : UInt8) ∉ s) (hlen : (pre ++ (s ++ 0 :: rest)).length < 2 ^ 63) :
    (RawData.mk (frame (pre ++ (s ++ 0 :: rest)))).subStr pre.length = decodeUtf8 s := by
  have h := (C18_sub_str ⟨frame (pre ++ (s ++ 0 :: rest))⟩ [0] pre.length _ (raw_len hlen)).1 (pre.length + s.length) (by omega)
    (by simp only [List.length_append, List.length_cons]; omega) ((sep_zero (Nat.le_refl _)).mpr (by simp)) (by
      intro j h1 h2 h3
      obtain ⟨k, rfl⟩ := Nat.exists_eq_add_of_le h1
      rw [sep_zero (by omega), List.getElem?_append_left (by omega)] at h3
      exact hs (List.mem_of_getElem? h3))
  rw [h, frame_tail]
  congr 1
  have e : pre ++ (s ++ 0 :: rest) ++ List.replicate 8 0 = pre ++ (s ++ (0 :: rest ++ List.replicate 8 0)) := by simp
  rw [e, List.drop_left, Nat.add_sub_cancel_left, List.take_left]

/-! ## Tables -/

theorem table_append (a b : List String) : stringTable (a ++ b) = stringTable a ++ stringTable b := by
  unfold stringTable; rw [List.flatMap_append]

theorem start_length (l : List String) (i : Nat) : stringStart l i = (stringTable (l.take i)).length := by
  unfold stringStart stringTable
  rw [List.length_flatMap]
  congr 1
  apply List.map_congr_left
  intro s _
  simp

theorem table_split {l : List String} {i : Nat} (h : i < l.length) :
    stringTable l = stringTable (l.take i) ++ (encodeUtf8 l[i] ++ 0 :: stringTable (l.drop (i + 1))) := by
  conv_lhs => rw [← List.take_append_drop i l, List.drop_eq_getElem_cons h, table_append]
  congr 1
  unfold stringTable
  rw [List.flatMap_cons]
  simp

theorem table_terminated : ∀ {l : List String}, NoNul l → terminated 0 (stringTable l) = l.map encodeUtf8
  | [], _ => rfl
  | s :: l, h => by
    have e : stringTable (s :: l) = encodeUtf8 s ++ 0 :: stringTable l := by
      unfold stringTable; rw [List.flatMap_cons]; simp
    rw [e, Props.terminated_append (string_bytes (h s List.mem_cons_self))]
    unfold terminated
    rw [if_pos rfl, table_terminated (fun x hx => h x (List.mem_cons_of_mem _ hx))]
    simp

theorem decodeAll_encode : ∀ l : List String, decodeAll (l.map encodeUtf8) = .ok l
  | [] => rfl
  | s :: l => by
    have := decodeAll_encode l
    unfold decodeAll at this ⊢
    rw [List.map_cons, List.mapM_cons, (decodeUtf8_iff _ s).mpr rfl, this]
    rfl

/-- C111. Every string of a table is the one that is found at its start: by Python's `sub_str`, Rust's `substring` and C++'s `char_ptr`. -/
theorem C111_table {l : List String} (hl : NoNul l) (hlen : (stringTable l).length < 2 ^ 63) {i : Nat} (hi : i < l.length) :
    (RawData.mk (frame (stringTable l))).subStr (stringStart l i) = .ok l[i] ∧
    rustSubstringStr (stringTable l) (stringStart l i) = some (.ok l[i]) ∧
    cppString ((frame (stringTable l)).drop 8) (stringStart l i) = some (encodeUtf8 l[i]) := by
  have hz : (0 : UInt8) ∉ encodeUtf8 l[i] := string_bytes (hl _ (List.getElem_mem hi))
  have hd : decodeUtf8 (encodeUtf8 l[i]) = .ok l[i] := (decodeUtf8_iff _ _).mpr rfl
  rw [start_length, table_split hi] at *
  refine ⟨?_, ?_, ?_⟩
  · rw [python_string hz hlen, hd]
  · unfold rustSubstringStr rustSubstring
    rw [if_neg (by simp), List.drop_left, takeWhile_zero hz, Option.map_some, hd]
  · unfold cppString
    rw [frame_tail]
    have e : ∀ p q z : Bytes, p ++ (q ++ 0 :: z) ++ List.replicate 8 0 = p ++ (q ++ 0 :: (z ++ List.replicate 8 0)) := by simp
    simp only [e, List.drop_left]
    rw [if_pos (by simp), takeWhile_zero hz]

/-- C111 (arrays). Python's `sub_str_array` from the start of string `i` gives it and the strings behind it: as many as are asked for, or
all for 0 and negative numbers. -/
theorem C111_array {l : List String} (hl : NoNul l) (hlen : (stringTable l).length < 2 ^ 63) (i : Nat) (size : Int) :
    (RawData.mk (frame (stringTable l))).subStrArray (stringStart l i) size = .ok (if 0 < size then (l.drop i).take size.toNat else l.drop i) := by
  have hs : stringTable l = stringTable (l.take i) ++ stringTable (l.drop i) := by rw [← table_append, List.take_append_drop]
  have hle : stringStart l i ≤ (stringTable l).length := by rw [start_length, hs, List.length_append]; omega
  have h := C18_sub_str_array ⟨frame (stringTable l)⟩ 0 (stringStart l i) (stringTable l).length size (raw_len hlen)
    (by show _ ≤ (frame _).length; rw [frame_length]; omega) hle
  rw [h, frame_tail]
  have e : (List.drop (stringStart l i) (stringTable l ++ List.replicate 8 0)).take ((stringTable l).length - stringStart l i) = stringTable (l.drop i) := by
    rw [start_length, hs, List.append_assoc, List.drop_left, List.length_append, Nat.add_sub_cancel_left, List.take_left]
  rw [e, table_terminated (fun x hx => hl x (List.mem_of_mem_drop hx))]
  unfold limited
  split
  · rw [← List.map_take, decodeAll_encode]
  · rw [decodeAll_encode]

/-- C111 (last string). A last string without a zero byte behind it is found by Rust and C++ (because of the padding), but Python decodes its
first byte only. -/
theorem C111_last {l : List String} (_hl : NoNul l) {s : String} (hs : '\x00' ∉ s.toList) (hlen : (stringTable l ++ encodeUtf8 s).length < 2 ^ 63) :
    (RawData.mk (frame (stringTable l ++ encodeUtf8 s))).subStr (stringTable l).length = decodeUtf8 ((encodeUtf8 s ++ [0]).take 1) ∧
    rustSubstringStr (stringTable l ++ encodeUtf8 s) (stringTable l).length = some (.ok s) ∧
    cppString ((frame (stringTable l ++ encodeUtf8 s)).drop 8) (stringTable l).length = some (encodeUtf8 s) := by
  have hz := string_bytes hs
  have e8 : stringTable l ++ encodeUtf8 s ++ List.replicate 8 0 = stringTable l ++ (encodeUtf8 s ++ 0 :: List.replicate 7 0) := by
    rw [List.append_assoc]; rfl
  refine ⟨?_, ?_, ?_⟩
  · rw [(C18_sub_str _ [0] _ _ (raw_len hlen)).2]
    · rw [frame_tail, e8, List.drop_left]
      congr 1
      cases encodeUtf8 s <;> rfl
    · intro j h1 h2 h3
      unfold SepAt at h3
      rw [frame_tail, e8] at h3
      obtain ⟨k, rfl⟩ := Nat.exists_eq_add_of_le h1
      rw [List.length_append] at h2
      rw [← List.drop_drop, List.drop_left, List.drop_append_of_le_length (by omega), List.drop_eq_getElem_cons (by omega), List.cons_append,
        List.cons_prefix_cons] at h3
      exact hz (h3.1 ▸ List.getElem_mem _)
  · unfold rustSubstringStr rustSubstring
    rw [if_neg (by simp), List.drop_left, takeWhile_none hz, Option.map_some, (decodeUtf8_iff _ s).mpr rfl]
  · unfold cppString
    rw [frame_tail, e8, List.drop_left, if_pos (by simp), takeWhile_zero hz]

/-! ## Examples -/

theorem demo_nul : NoNul ["ab", "", "ü"] := by
  intro s hs
  simp only [List.mem_cons, List.not_mem_nil, or_false] at hs
  rcases hs with rfl | rfl | rfl <;> decide +kernel

example : (RawData.mk (frame (stringTable ["ab", "", "ü"]))).subStr (stringStart ["ab", "", "ü"] 2) = .ok "ü" :=
  (C111_table (i := 2) demo_nul (by decide +kernel) (by decide)).1
example : (RawData.mk (frame (stringTable ["ab", "", "ü"]))).subStrArray (stringStart ["ab", "", "ü"] 1) 0 = .ok ["", "ü"] :=
  C111_array demo_nul (by decide +kernel) 1 0

/-- Python gives the first letter of `ab` if no zero byte is behind it, and fails for `ü`. -/
theorem C111_counterexample_last : (RawData.mk (frame (stringTable [] ++ encodeUtf8 "ab"))).subStr 0 = .ok "a" ∧
    (∃ e, (RawData.mk (frame (stringTable [] ++ encodeUtf8 "ü"))).subStr 0 = .error e) ∧
    rustSubstringStr (stringTable [] ++ encodeUtf8 "ab") 0 = some (.ok "ab") := by
  have hn : NoNul [] := fun s hs => by cases hs
  refine ⟨?_, ?_, (C111_last hn (s := "ab") (by decide +kernel) (by decide +kernel)).2.1⟩
  · exact (C111_last hn (s := "ab") (by decide +kernel) (by decide +kernel)).1.trans ((decodeUtf8_iff _ "a").mpr (by decide +kernel))
  · exact ⟨.unicodeDecodeError, (C111_last hn (s := "ü") (by decide +kernel) (by decide +kernel)).1.trans (by decide +kernel)⟩

end Props.Native.StringTable
