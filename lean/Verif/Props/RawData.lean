import Verif.Lemmas.Raw
import Verif.Props.RoundTrip

/-!
# C17, C18: raw data
-/

namespace Props
open Py Spec Model

/-- Setting raw data succeeds and leaves the framed bytes. -/
theorem set_raw_run (A : ArchiveType) (path name schema : String) (opt : Bool) (b : Bytes) (s : BState) (f : Files)
    (hA : A.resources.lookup name = some (.rawData schema opt))
    (hpath : path ≠ "") (hname : name ≠ "") (hnew : name ∉ s.written) (hlen : b.length < 2 ^ 64) :
    ∃ s', setResource A path name (.bytes b) s = (.ok (), s') ∧ filesOfState f s' name = some (frame b) := by
  have hpay : ∀ s : BState, s.store.lookup name = some ⟨[], true⟩ →
      ∃ s', setPayload path name (.rawData schema opt) (.bytes b) s = (.ok (), s') ∧
        s'.ops = s.ops ++ [] ∧ s'.written = s.written ++ [] ∧ s'.store.lookup name = some ⟨b, true⟩ := by
    intro s hs
    obtain ⟨s', e', hw⟩ := resWrite_ok (b := b) hs
    exact ⟨s', e', by simp [hw.ops], by simp [hw.written], by simpa using hw.own _ hs⟩
  obtain ⟨s', e1, ho, -, -⟩ := setBody_ok hpath hname hlen hpay s
  obtain ⟨hf1, -, -⟩ := simple_files f s.ops name (encodeUtf8 schema) b
  refine ⟨s', by rw [set_run hA hnew, e1], ?_⟩
  unfold filesOfState; rw [ho]; exact hf1

/-- **C17.** Raw data written by the builder and opened again: the length is the number of bytes, `r[i]` is
byte `i`, and every slice with non-negative bounds is the slice of the bytes followed by eight zero bytes;
within the length this is the slice of the bytes. A slice without start raises `TypeError`, a slice without
stop exposes the padding. -/
theorem C17_raw_roundtrip (A : ArchiveType) (path name schema : String) (opt : Bool) (b : Bytes)
    (s : BState) (f : Files)
    (hA : A.resources.lookup name = some (.rawData schema opt))
    (hpath : path ≠ "") (hname : name ≠ "") (hnew : name ∉ s.written) (hlen : b.length < 2 ^ 63) :
    ∃ s' mem r, setResource A path name (.bytes b) s = (.ok (), s') ∧
      filesOfState f s' name = some mem ∧ RawData.create mem = .ok r ∧
      r.len = .ok b.length ∧
      (∀ (i : Nat) x, b[i]? = some x → r.get (i : Int) = .ok [x]) ∧
      (∀ i j : Nat, i ≤ j → j ≤ b.length →
        r.getSlice ⟨some (i : Int), some (j : Int), none⟩ = .ok ((b.drop i).take (j - i))) ∧
      (∀ i j : Nat, r.getSlice ⟨some (i : Int), some (j : Int), none⟩ =
        .ok (((b ++ List.replicate 8 0).drop i).take (j - i))) ∧
      (∀ i : Nat, r.getSlice ⟨some (i : Int), none, none⟩ = .ok ((b ++ List.replicate 8 0).drop i)) ∧
      (∀ stop step, r.getSlice ⟨none, stop, step⟩ = .error .typeError) := by
  have hlen' : b.length < 2 ^ 64 := by omega
  obtain ⟨s', e, hf⟩ := set_raw_run A path name schema opt b s f hA hpath hname hnew hlen'
  have hsub : ∀ i j : Nat, (RawData.mk (frame b)).getSlice ⟨some (i : Int), some (j : Int), none⟩ =
        .ok (((b ++ List.replicate 8 0).drop i).take (j - i)) := by
    intro i j
    have := raw_sub ⟨frame b⟩ i j
    rw [frame_tail] at this; exact this
  refine ⟨s', frame b, ⟨frame b⟩, e, hf, ?_, ?_, ?_, ?_, hsub, ?_, fun _ _ => rfl⟩
  · have : checkResource (frame b) = .ok () := checkResource_ok (by rw [frame_length]; omega)
    simp only [RawData.create, this, bind, Except.bind]; rfl
  · simp only [RawData.len, read_header (show 8 ≤ (frame b).length by rw [frame_length]; omega), bind, Except.bind,
      frame_header b hlen', Int.toNat_natCast]
    exact pyLen_ok hlen
  · intro i x hx
    have hi : i < b.length := (List.getElem?_eq_some_iff.mp hx).1
    rw [raw_get, frame_tail, List.drop_append_of_le_length (by omega), List.take_append_of_le_length (by simp; omega)]
    rw [List.take_one, List.head?_drop, hx]; rfl
  · intro i j hij hj
    rw [hsub, List.drop_append_of_le_length (by omega), List.take_append_of_le_length (by simp; omega)]
  · intro i
    show sliceSeq (frame b) ⟨some ((i : Int) + 8), none, none⟩ = _
    rw [sliceSeq_eq _ _ (by simp)]
    have h2 := sliceSeq_eq (frame b) ⟨some ((i + 8 : Nat) : Int), some ((frame b).length : Int), none⟩ (by simp)
    rw [sliceSeq_nat] at h2
    have h3 : sliced (frame b) ⟨some ((i + 8 : Nat) : Int), some ((frame b).length : Int), none⟩ =
        sliced (frame b) ⟨some ((i : Int) + 8), none, none⟩ := by
      have : ¬ ((frame b).length : Int) < 0 := by omega
      simp only [sliced, selected, fromEnd, this, if_false]
      push_cast; rfl
    rw [← h3]
    rw [← Except.ok.inj h2]
    congr 1
    rw [List.take_of_length_le (by simp), Nat.add_comm, ← List.drop_drop, frame_tail]

example : ∃ s' mem r, setResource (mkArchive "A" "sA" [("r", .rawData "sr" false)]) "dir" "r" (.bytes [1, 2, 3])
    BState.initial = (.ok (), s') ∧ filesOfState (fun _ => none) s' "r" = some mem ∧ RawData.create mem = .ok r ∧
    r.len = .ok 3 := by
  obtain ⟨s', mem, r, h1, h2, h3, h4, -⟩ := C17_raw_roundtrip (mkArchive "A" "sA" [("r", .rawData "sr" false)])
    "dir" "r" "sr" false [1, 2, 3] BState.initial (fun _ => none) (by simp [mkArchive, List.lookup]) (by decide)
    (by decide) (by simp [BState.initial]) (by decide)
  exact ⟨s', mem, r, h1, h2, h3, h4⟩

/-! ## C18 -/

/-- The separator is stored at position `i` of the raw data (it may reach into the padding). -/
def SepAt (r : RawData) (sep : Bytes) (i : Nat) : Prop := sep <+: (r.mem.drop 8).drop i

theorem subStrLoop_spec (r : RawData) (sep : Bytes) (index fuel i : Nat) (hi : index ≤ i) :
    (∃ k, i ≤ k ∧ k < i + fuel ∧ SepAt r sep k ∧ (∀ j, i ≤ j → j < k → ¬ SepAt r sep j) ∧
      subStrLoop r sep index fuel i =
        (decodeUtf8 (((r.mem.drop 8).drop index).take (k - index))).map some) ∨
    ((∀ j, i ≤ j → j < i + fuel → ¬ SepAt r sep j) ∧ subStrLoop r sep index fuel i = .ok none) := by
  induction fuel generalizing i with
  | zero => right; exact ⟨fun j h1 h2 => by omega, rfl⟩
  | succ fuel ih =>
    have hstep : r.sub i (i + sep.length) = .ok (((r.mem.drop 8).drop i).take sep.length) := by
      rw [raw_sub]; congr 2; omega
    by_cases hm : SepAt r sep i
    · left
      refine ⟨i, le_refl _, by omega, hm, fun j h1 h2 => by omega, ?_⟩
      have : ((r.mem.drop 8).drop i).take sep.length = sep := take_eq_iff_prefix.mpr hm
      simp only [subStrLoop, hstep, this, bind, Except.bind, if_true, raw_sub]
      cases decodeUtf8 (((r.mem.drop 8).drop index).take (i - index)) <;> rfl
    · have : ¬ ((r.mem.drop 8).drop i).take sep.length = sep := fun e => hm (take_eq_iff_prefix.mp e)
      have hloop : subStrLoop r sep index (fuel + 1) i = subStrLoop r sep index fuel (i + 1) := by
        simp only [subStrLoop, hstep, bind, Except.bind, this, if_false]
      rw [hloop]
      rcases ih (i + 1) (by omega) with ⟨k, h1, h2, h3, h4, h5⟩ | ⟨h1, h2⟩
      · left
        refine ⟨k, by omega, by omega, h3, fun j hj1 hj2 => ?_, h5⟩
        by_cases hji : j = i
        · subst hji; exact hm
        · exact h4 j (by omega) hj2
      · right
        refine ⟨fun j hj1 hj2 => ?_, h2⟩
        by_cases hji : j = i
        · subst hji; exact hm
        · exact h1 j (by omega) (by omega)

/-- **C18, `sub_str`.** For every separator and start index: if a separator occurs at or after the index
(below the length), the result is the text from the index up to the first such position; otherwise it is
the single byte at the index. -/
theorem C18_sub_str (r : RawData) (sep : Bytes) (index n : Nat) (hn : r.len = .ok n) :
    (∀ k, index ≤ k → k < n → SepAt r sep k → (∀ j, index ≤ j → j < k → ¬ SepAt r sep j) →
      r.subStr index sep = decodeUtf8 (((r.mem.drop 8).drop index).take (k - index))) ∧
    ((∀ j, index ≤ j → j < n → ¬ SepAt r sep j) →
      r.subStr index sep = decodeUtf8 (((r.mem.drop 8).drop index).take 1)) := by
  have hs := subStrLoop_spec r sep index (n - index) index (le_refl _)
  constructor
  · intro k hk1 hk2 hk3 hk4
    rcases hs with ⟨k', h1, h2, h3, h4, h5⟩ | ⟨h1, h2⟩
    · have : k' = k := by
        rcases Nat.lt_trichotomy k' k with h | h | h
        · exact absurd h3 (hk4 k' h1 h)
        · exact h
        · exact absurd hk3 (h4 k hk1 h)
      subst this
      simp only [RawData.subStr, hn, bind, Except.bind, h5]
      cases decodeUtf8 (((r.mem.drop 8).drop index).take (k' - index)) <;> rfl
    · exact absurd hk3 (h1 k hk1 (by omega))
  · intro hno
    rcases hs with ⟨k', h1, h2, h3, h4, h5⟩ | ⟨h1, h2⟩
    · exact absurd h3 (hno k' h1 (by omega))
    · simp only [RawData.subStr, hn, bind, Except.bind, h2, raw_get]

/-- Fetching one more byte. -/
theorem drop_cons {q : Bytes} {i : Nat} (h : i < q.length) : q.drop i = q[i] :: q.drop (i + 1) :=
  List.drop_eq_getElem_cons h

/-- Decode a list of byte strings, in order; the first failure is raised. -/
def decodeAll (l : List Bytes) : M (List String) := l.mapM decodeUtf8

theorem terminated_append {c : UInt8} {pre rest : Bytes} (hpre : c ∉ pre) :
    terminated c (pre ++ rest) = match terminated c rest with
      | [] => []
      | piece :: pieces => (pre ++ piece) :: pieces := by
  induction pre with
  | nil => simp only [List.nil_append]; cases terminated c rest <;> rfl
  | cons b pre ih =>
    simp only [List.mem_cons, not_or] at hpre
    have hb : ¬ b = c := fun e => hpre.1 e.symm
    simp only [List.cons_append, terminated, hb, if_false, ih hpre.2]
    cases terminated c rest <;> rfl

/-- The pieces limited by the requested number: a non-positive number is no limit. -/
def limited (size : Int) (l : List Bytes) : List Bytes := if 0 < size then l.take size.toNat else l

theorem seg_extend {q : Bytes} {index i : Nat} (hi : index ≤ i) (hl : i < q.length) :
    (q.drop index).take (i + 1 - index) = (q.drop index).take (i - index) ++ [q[i]] := by
  rw [show i + 1 - index = (i - index) + 1 by omega, List.take_add_one, List.getElem?_drop,
    show index + (i - index) = i by omega, List.getElem?_eq_getElem hl]; rfl

theorem take_split (q : Bytes) {index i : Nat} (hi : index ≤ i) (n : Nat) :
    (q.drop index).take (i + n - index) = (q.drop index).take (i - index) ++ (q.drop i).take n := by
  rw [show i + n - index = (i - index) + n by omega, List.take_add, List.drop_drop,
    show index + (i - index) = i by omega]

theorem sub_one (r : RawData) (c : UInt8) (i : Nat) (hl : i < (r.mem.drop 8).length) :
    r.sub i (i + [c].length) = .ok [(r.mem.drop 8)[i]] := by
  rw [raw_sub, drop_cons hl]; simp

theorem subStrArrayLoop_spec (r : RawData) (c : UInt8) (size : Int) (fuel i index : Nat) (acc : List String)
    (hi : index ≤ i) (hlen : i + fuel ≤ (r.mem.drop 8).length)
    (hno : c ∉ ((r.mem.drop 8).drop index).take (i - index)) (hacc : 0 < size → (acc.length : Int) < size) :
    subStrArrayLoop r [c] size fuel i index acc =
      (decodeAll (limited (size - if 0 < size then (acc.length : Int) else 0)
        (terminated c (((r.mem.drop 8).drop index).take (i + fuel - index))))).map (acc ++ ·) := by
  induction fuel generalizing i index acc with
  | zero =>
    have : terminated c (((r.mem.drop 8).drop index).take (i - index)) = [] := by
      have := terminated_append (rest := []) hno
      simpa [terminated] using this
    simp only [subStrArrayLoop, Nat.add_zero, this]
    have : limited (size - if 0 < size then (acc.length : Int) else 0) [] = [] := by unfold limited; split <;> simp
    rw [this]; simp [decodeAll, pure, Except.pure, Except.map]
  | succ fuel ih =>
    have hl : i < (r.mem.drop 8).length := by omega
    have hsplit : ((r.mem.drop 8).drop index).take (i + (fuel + 1) - index) =
        ((r.mem.drop 8).drop index).take (i - index) ++ ((r.mem.drop 8).drop i).take (fuel + 1) := by
      exact take_split _ hi _
    have hcons : ((r.mem.drop 8).drop i).take (fuel + 1) =
        (r.mem.drop 8)[i] :: ((r.mem.drop 8).drop (i + 1)).take fuel := by
      rw [drop_cons hl, List.take_succ_cons]
    by_cases hm : (r.mem.drop 8)[i] = c
    · have hterm : terminated c (((r.mem.drop 8).drop index).take (i + (fuel + 1) - index)) =
          ((r.mem.drop 8).drop index).take (i - index) ::
            terminated c (((r.mem.drop 8).drop (i + 1)).take (i + 1 + fuel - (i + 1))) := by
        rw [hsplit, terminated_append hno, hcons]
        simp only [terminated, hm, if_true, List.append_nil, Nat.add_sub_cancel_left]
      rw [hterm]
      simp only [subStrArrayLoop, sub_one r c i hl, hm, bind, Except.bind, if_true, raw_sub]
      generalize hpiece : ((r.mem.drop 8).drop index).take (i - index) = piece
      by_cases hpos : 0 < size
      · have hlt := hacc hpos
        have hlim : ∀ rest, limited (size - if 0 < size then (acc.length : Int) else 0) (piece :: rest) =
            piece :: rest.take (size - acc.length - 1).toNat := by
          intro rest
          simp only [hpos, if_true]
          unfold limited
          rw [if_pos (by omega), show (size - acc.length).toNat = (size - acc.length - 1).toNat + 1 by omega,
            List.take_succ_cons]
        rw [hlim]
        cases hd : decodeUtf8 piece with
        | error e => simp [decodeAll, List.mapM_cons, hd, Except.map, bind, Except.bind]
        | ok str =>
          simp only
          by_cases heq : ((acc ++ [str]).length : Int) = size
          · rw [if_pos heq]
            have : (size - acc.length - 1).toNat = 0 := by simp at heq; omega
            rw [this]
            simp [decodeAll, List.mapM_cons, hd, Except.map, bind, Except.bind, pure, Except.pure]
          · rw [if_neg heq]
            rw [ih (i + 1) (i + 1) (acc ++ [str]) (le_refl _) (by omega) (by simp) (fun _ => by simp at heq ⊢; omega)]
            have hlim2 : ∀ rest, limited (size - if 0 < size then ((acc ++ [str]).length : Int) else 0) rest =
                rest.take (size - acc.length - 1).toNat := by
              intro rest
              simp only [hpos, if_true]
              unfold limited
              simp at heq
              rw [if_pos (by simp; omega)]
              congr 1; simp; omega
            rw [hlim2]
            simp only [decodeAll, List.mapM_cons, hd, bind, Except.bind]
            cases List.mapM decodeUtf8 (List.take (size - ↑acc.length - 1).toNat
              (terminated c (((r.mem.drop 8).drop (i + 1)).take (i + 1 + fuel - (i + 1))))) <;>
              simp [Except.map, pure, Except.pure]
      · have hlim : ∀ (a : Nat) rest, limited (size - if 0 < size then (a : Int) else 0) rest = rest := by
          intro a rest
          simp only [hpos, if_false]
          unfold limited
          rw [if_neg (by omega)]
        rw [hlim]
        cases hd : decodeUtf8 piece with
        | error e => simp [decodeAll, List.mapM_cons, hd, Except.map, bind, Except.bind]
        | ok str =>
          simp only
          rw [if_neg (by simp; omega)]
          rw [ih (i + 1) (i + 1) (acc ++ [str]) (le_refl _) (by omega) (by simp) (fun h => absurd h hpos), hlim]
          simp only [decodeAll, List.mapM_cons, hd, bind, Except.bind]
          cases List.mapM decodeUtf8
              (terminated c (((r.mem.drop 8).drop (i + 1)).take (i + 1 + fuel - (i + 1)))) <;>
              simp [Except.map, pure, Except.pure]
    · have hloop : subStrArrayLoop r [c] size (fuel + 1) i index acc =
          subStrArrayLoop r [c] size fuel (i + 1) index acc := by
        have : ¬ [(r.mem.drop 8)[i]] = [c] := by simpa using hm
        simp only [subStrArrayLoop, sub_one r c i hl, this, bind, Except.bind, if_false]
      rw [hloop, ih (i + 1) index acc (by omega) (by omega) ?_ hacc]
      · rw [show i + 1 + fuel - index = i + (fuel + 1) - index by omega]
      · rw [seg_extend hi hl]
        simp only [List.mem_append, List.mem_singleton, not_or]
        exact ⟨hno, fun e => hm e.symm⟩

/-- **C18, `sub_str_array`.** With a one-byte separator: the first `size` separator-terminated strings from
the index on (all of them if `size` is not positive), decoded; an unterminated rest is ignored. -/
theorem C18_sub_str_array (r : RawData) (c : UInt8) (index n : Nat) (size : Int) (hn : r.len = .ok n)
    (hmem : 8 + n ≤ r.mem.length) (hidx : index ≤ n) :
    r.subStrArray index size [c] =
      decodeAll (limited size (terminated c (((r.mem.drop 8).drop index).take (n - index)))) := by
  simp only [RawData.subStrArray, hn, bind, Except.bind]
  rw [subStrArrayLoop_spec r c size (n - index) index index [] (le_refl _) (by simp; omega) (by simp)
    (fun h => by simpa using h)]
  rw [show index + (n - index) - index = n - index by omega]
  simp only [List.length_nil, Nat.cast_zero, ite_self, Int.sub_zero, List.nil_append]
  cases decodeAll (limited size (terminated c (((r.mem.drop 8).drop index).take (n - index)))) <;> rfl

theorem terminated_head {c : UInt8} {pre rest : Bytes} (hpre : c ∉ pre) :
    terminated c (pre ++ c :: rest) = pre :: terminated c rest := by
  rw [terminated_append hpre]; simp [terminated]

theorem starts_shift (a b : Nat) (l : List Bytes) : starts (a + b) l = (starts a l).map (· + b) := by
  induction l generalizing a with
  | nil => rfl
  | cons p l ih =>
    simp only [starts, List.map_cons, List.cons.injEq, true_and]
    rw [← ih]; congr 1; omega

/-- `untilListEnd` peels one piece. -/
theorem untilListEnd_cons (ls mem : Bytes) (p : Bytes) (ps : List Bytes) :
    untilListEnd ls mem (p :: ps) = if ls <+: mem then [] else p :: untilListEnd ls (mem.drop (p.length + 1)) ps := by
  unfold untilListEnd
  simp only [starts, List.zip_cons_cons, List.takeWhile_cons, List.drop_zero]
  by_cases h : ls <+: mem
  · simp [h]
  · simp only [h, not_false_eq_true, decide_true, if_true, List.map_cons, if_false, List.cons.injEq, true_and]
    rw [show 0 + p.length + 1 = 0 + (p.length + 1) by omega, starts_shift]
    generalize starts 0 ps = st
    induction ps generalizing st with
    | nil => simp
    | cons q ps ih =>
      cases st with
      | nil => simp
      | cons x st =>
        simp only [List.map_cons, List.zip_cons_cons, List.takeWhile_cons, List.drop_drop]
        by_cases h2 : ls <+: mem.drop (p.length + 1 + x)
        · simp [h2, Nat.add_comm x]
        · simp only [Nat.add_comm x, h2, not_false_eq_true, decide_true, if_true, List.map_cons, ih, List.drop_drop]

theorem untilListEnd_nil (ls mem : Bytes) : untilListEnd ls mem [] = [] := rfl

theorem untilListEnd_end (ls mem : Bytes) (ps : List Bytes) (h : ls <+: mem) : untilListEnd ls mem ps = [] := by
  cases ps with
  | nil => rfl
  | cons p ps => rw [untilListEnd_cons, if_pos h]

theorem subStrListLoop_spec (r : RawData) (c : UInt8) (ls : Bytes) (fuel i index : Nat) (acc : List String)
    (hi : index ≤ i) (hlen : i + fuel ≤ (r.mem.drop 8).length)
    (hno : c ∉ ((r.mem.drop 8).drop index).take (i - index))
    (hls : index < i → ¬ ls <+: (r.mem.drop 8).drop index) :
    subStrListLoop r [c] ls fuel i index acc =
      (decodeAll (untilListEnd ls ((r.mem.drop 8).drop index)
        (terminated c (((r.mem.drop 8).drop index).take (i + fuel - index))))).map (acc ++ ·) := by
  induction fuel generalizing i index acc with
  | zero =>
    have : terminated c (((r.mem.drop 8).drop index).take (i - index)) = [] := by
      have := terminated_append (rest := []) hno
      simpa [terminated] using this
    simp only [subStrListLoop, Nat.add_zero, this, untilListEnd_nil]
    simp [decodeAll, pure, Except.pure, Except.map]
  | succ fuel ih =>
    have hl : i < (r.mem.drop 8).length := by omega
    have hsplit : ((r.mem.drop 8).drop index).take (i + (fuel + 1) - index) =
        ((r.mem.drop 8).drop index).take (i - index) ++ ((r.mem.drop 8).drop i).take (fuel + 1) := by
      exact take_split _ hi _
    have hcons : ((r.mem.drop 8).drop i).take (fuel + 1) =
        (r.mem.drop 8)[i] :: ((r.mem.drop 8).drop (i + 1)).take fuel := by
      rw [drop_cons hl, List.take_succ_cons]
    have hsubls : r.sub i (i + ls.length) = .ok (((r.mem.drop 8).drop i).take ls.length) := by
      rw [raw_sub]; congr 2; omega
    by_cases hend : index = i ∧ ls <+: (r.mem.drop 8).drop i
    · obtain ⟨rfl, hp⟩ := hend
      have : ((r.mem.drop 8).drop index).take ls.length = ls := take_eq_iff_prefix.mpr hp
      simp only [subStrListLoop, hsubls, this, bind, Except.bind, true_and, if_true]
      rw [untilListEnd_end _ _ _ hp]
      simp [decodeAll, pure, Except.pure, Except.map]
    · have hls' : ¬ ls <+: (r.mem.drop 8).drop index := by
        by_cases he : index = i
        · intro hp; exact hend ⟨he, he ▸ hp⟩
        · exact hls (by omega)
      have hcond : ¬ (index = i ∧ ((r.mem.drop 8).drop i).take ls.length = ls) := by
        rintro ⟨h1, h2⟩; exact hend ⟨h1, take_eq_iff_prefix.mp h2⟩
      by_cases hm : (r.mem.drop 8)[i] = c
      · have hterm : terminated c (((r.mem.drop 8).drop index).take (i + (fuel + 1) - index)) =
            ((r.mem.drop 8).drop index).take (i - index) ::
              terminated c (((r.mem.drop 8).drop (i + 1)).take (i + 1 + fuel - (i + 1))) := by
          rw [hsplit, hcons, hm, terminated_head hno, Nat.add_sub_cancel_left]
        rw [hterm, untilListEnd_cons, if_neg hls']
        have hdrop : ((r.mem.drop 8).drop index).drop ((((r.mem.drop 8).drop index).take (i - index)).length + 1) =
            (r.mem.drop 8).drop (i + 1) := by
          rw [List.drop_drop]; congr 1
          have : (((r.mem.drop 8).drop index).take (i - index)).length = i - index := by
            rw [List.length_take, List.length_drop]; omega
          omega
        rw [hdrop]
        simp only [subStrListLoop, hsubls, sub_one r c i hl, hm, bind, Except.bind, hcond, if_false, if_true, raw_sub]
        generalize hpiece : ((r.mem.drop 8).drop index).take (i - index) = piece
        cases hd : decodeUtf8 piece with
        | error e => simp [decodeAll, List.mapM_cons, hd, Except.map, bind, Except.bind]
        | ok str =>
          simp only
          rw [ih (i + 1) (i + 1) (acc ++ [str]) (le_refl _) (by omega) (by simp) (fun h => absurd h (by omega))]
          simp only [decodeAll, List.mapM_cons, hd, bind, Except.bind]
          cases List.mapM decodeUtf8 (untilListEnd ls ((r.mem.drop 8).drop (i + 1))
              (terminated c (((r.mem.drop 8).drop (i + 1)).take (i + 1 + fuel - (i + 1))))) <;>
              simp [Except.map, pure, Except.pure]
      · have hloop : subStrListLoop r [c] ls (fuel + 1) i index acc =
            subStrListLoop r [c] ls fuel (i + 1) index acc := by
          have : ¬ [(r.mem.drop 8)[i]] = [c] := by simpa using hm
          simp only [subStrListLoop, hsubls, sub_one r c i hl, this, bind, Except.bind, hcond, if_false]
        rw [hloop, ih (i + 1) index acc (by omega) (by omega) ?_ (fun _ => hls')]
        · rw [show i + 1 + fuel - index = i + (fuel + 1) - index by omega]
        · rw [seg_extend hi hl]
          simp only [List.mem_append, List.mem_singleton, not_or]
          exact ⟨hno, fun e => hm e.symm⟩

/-- **C18, `sub_str_list`.** With a one-byte separator and an arbitrary list terminator: the
separator-terminated strings from the index on, up to the first one that starts with the terminator. -/
theorem C18_sub_str_list (r : RawData) (c : UInt8) (ls : Bytes) (index n : Nat) (hn : r.len = .ok n)
    (hmem : 8 + n ≤ r.mem.length) (hidx : index ≤ n) :
    r.subStrList index [c] ls =
      decodeAll (untilListEnd ls ((r.mem.drop 8).drop index)
        (terminated c (((r.mem.drop 8).drop index).take (n - index)))) := by
  simp only [RawData.subStrList, hn, bind, Except.bind]
  rw [subStrListLoop_spec r c ls (n - index) index index [] (le_refl _) (by simp; omega) (by simp)
    (fun h => absurd h (by omega))]
  rw [show index + (n - index) - index = n - index by omega]
  cases decodeAll (untilListEnd ls ((r.mem.drop 8).drop index)
        (terminated c (((r.mem.drop 8).drop index).take (n - index)))) <;> rfl

/-- Non-vacuity: "AB\0C\0\0D" behind a size header. -/
example : (RawData.mk (frame [65, 66, 0, 67, 0, 0, 0, 68])).len = .ok 8 ∧
    (RawData.mk (frame [65, 66, 0, 67, 0, 0, 0, 68])).subStr 0 = .ok "AB" ∧
    (RawData.mk (frame [65, 66, 0, 67, 0, 0, 0, 68])).subStrArray 0 2 = .ok ["AB", "C"] ∧
    (RawData.mk (frame [65, 66, 0, 67, 0, 0, 0, 68])).subStrList 0 = .ok ["AB", "C"] := by
  decide +kernel

end Props
