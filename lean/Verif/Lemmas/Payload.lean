import Verif.Lemmas.BuilderOk
import Verif.Props.Structure

namespace Model
open Py Spec Props

/-! ## Frames -/

theorem frame_length (p : Bytes) : (frame p).length = 16 + p.length := by
  simp [frame, toLE_length]; omega

theorem bitAt_append_left {a b : Bytes} {i : Nat} (h : i < 8 * a.length) : bitAt (a ++ b) i = bitAt a i := by
  have : i / 8 < a.length := by omega
  simp [bitAt, List.getD, List.getElem?_append_left this]

theorem frame_header (p : Bytes) (h : p.length < 2 ^ 64) : unsignedAt (frame p) 0 64 = p.length := by
  apply Nat.eq_of_testBit_eq; intro k
  rw [unsignedAt_testBit]
  by_cases hk : k < 64
  · rw [frame, List.append_assoc, bitAt_append_left (by rw [toLE_length]; omega), bitAt_toLE]
    simp [hk]
  · have : p.length.testBit k = false := by
      apply Nat.testBit_lt_two_pow
      exact lt_of_lt_of_le h (Nat.pow_le_pow_right (by omega) (by omega))
    simp [hk, this]

theorem frame_drop (p : Bytes) (k n : Nat) (h : k + n ≤ p.length) :
    ((frame p).drop (8 + k)).take n = (p.drop k).take n := by
  have e : frame p = toLE 8 p.length ++ (p ++ List.replicate 8 0) := by simp [frame]
  have : (frame p).drop (8 + k) = p.drop k ++ List.replicate 8 0 := by
    have hl : (toLE 8 p.length).length = 8 := toLE_length 8 p.length
    rw [e, ← List.drop_drop, List.drop_left' hl, List.drop_append_of_le_length (by omega)]
  rw [this, List.take_append_of_le_length (by simp; omega)]

/-! ## Validation -/

theorem checkMissing_ok {name : String} {d : Dict} {keys : List String} :
    checkMissing name d keys = .ok () ↔ ∀ k ∈ keys, (d.lookup k).isSome := by
  induction keys with
  | nil => simp [checkMissing]; rfl
  | cons k ks ih =>
    simp only [checkMissing]
    by_cases h : (d.lookup k).isSome
    · simp only [h, if_true, ih, List.mem_cons, forall_eq_or_imp, true_and]
    · simp only [h, List.mem_cons, forall_eq_or_imp]
      constructor
      · intro hc; cases hc
      · rintro ⟨h', -⟩; exact absurd h' (by simp)

theorem checkUnknown_ok {name : String} {fk : List String} {keys : List String} :
    checkUnknown name fk keys = .ok () ↔ ∀ k ∈ keys, k ∈ fk := by
  induction keys with
  | nil => simp [checkUnknown]; rfl
  | cons k ks ih =>
    simp only [checkUnknown]
    by_cases h : k ∈ fk
    · simp only [h, if_true, ih, List.mem_cons, forall_eq_or_imp, true_and]
    · simp only [h, if_false, List.mem_cons, forall_eq_or_imp, false_and, iff_false]
      intro hc; cases hc

theorem validate_ok {name : String} {d : Dict} {t : StructType} :
    validateStructureFields name d t = .ok () ↔
      (∀ k ∈ t.fieldKeys, (d.lookup k).isSome) ∧ ∀ p ∈ d, p.1 ∈ t.fieldKeys := by
  unfold validateStructureFields
  cases h : checkMissing name d t.fieldKeys with
  | error e =>
    simp only [bind, Except.bind]
    constructor
    · intro hc; cases hc
    · rintro ⟨h1, -⟩; rw [checkMissing_ok.mpr h1] at h; cases h
  | ok u =>
    have h1 := checkMissing_ok.mp h
    simp only [bind, Except.bind]
    rw [checkUnknown_ok]
    constructor
    · intro h2; exact ⟨h1, fun p hp => h2 p.1 (List.mem_map_of_mem hp)⟩
    · rintro ⟨-, h2⟩ k hk
      obtain ⟨p, hp, rfl⟩ := List.mem_map.mp hk
      exact h2 p hp

/-! ## Loops -/

theorem forEach_lift_ok {α} {l : List α} {f : α → M Unit} (h : ∀ a ∈ l, f a = .ok ()) (s : BState) :
    forEach l (fun a => BM.lift (f a)) s = (.ok (), s) := by
  induction l with
  | nil => rfl
  | cons a l ih =>
    show (BM.lift (f a) >>= fun _ => forEach l fun a => BM.lift (f a)) s = _
    rw [BM.bind_ok (lift_ok (h a (by simp)) s)]
    exact ih fun b hb => h b (by simp [hb])

theorem writeElements_ok {name : String} {t : StructType} (ds : List Dict) (bufs : List Bytes)
    (h : ds.mapM (serialize t) = .ok bufs) (s : BState) {d0 : Bytes}
    (hs : s.store.lookup name = some ⟨d0, true⟩) :
    ∃ s', forEach ds (fun v => writeElement name t v) s = (.ok (), s') ∧ Wrote name bufs.flatten s s' := by
  induction ds generalizing bufs s d0 with
  | nil => cases h; exact ⟨s, rfl, Wrote.refl name s⟩
  | cons d ds ih =>
    rw [List.mapM_cons] at h
    cases hd : serialize t d with
    | error e => rw [hd] at h; simp [bind, Except.bind] at h
    | ok b =>
      rw [hd] at h
      cases hds : ds.mapM (serialize t) with
      | error e => rw [hds] at h; simp [bind, Except.bind] at h
      | ok bs =>
        rw [hds] at h
        simp only [bind, Except.bind, pure, Except.pure, Except.ok.injEq] at h
        subst h
        obtain ⟨s1, e1, hw1⟩ := resWrite_ok (b := b) hs
        obtain ⟨s2, e2, hw2⟩ := ih bs hds s1 (hw1.own _ hs)
        refine ⟨s2, ?_, ?_⟩
        · show (writeElement name t d >>= fun _ => forEach ds fun v => writeElement name t v) s = _
          have : writeElement name t d s = (.ok (), s1) := by
            show (BM.lift (serialize t d) >>= fun bout => resWrite name bout) s = _
            rw [BM.bind_ok (lift_ok hd s), e1]
          rw [BM.bind_ok this, e2]
        · simpa using hw1.trans hw2

/-! ## Element lookup in a concatenation -/

theorem flatten_slice {n : Nat} (bufs : List Bytes) (h : ∀ b ∈ bufs, b.length = n) (i : Nat) (b : Bytes)
    (hi : bufs[i]? = some b) : (bufs.flatten.drop (n * i)).take n = b := by
  induction bufs generalizing i with
  | nil => simp at hi
  | cons c bufs ih =>
    have hc := h c (by simp)
    cases i with
    | zero =>
      simp at hi; subst hi
      simp only [List.flatten_cons, Nat.mul_zero, List.drop_zero]
      rw [List.take_append_of_le_length (by omega), List.take_of_length_le (by omega)]
    | succ i =>
      simp at hi
      rw [List.flatten_cons, Nat.mul_succ, Nat.add_comm, ← List.drop_drop]
      have : (c ++ bufs.flatten).drop n = bufs.flatten := by rw [← hc, List.drop_left]
      rw [this]
      exact ih (fun b hb => h b (by simp [hb])) i hi

theorem flatten_length_const {n : Nat} (bufs : List Bytes) (h : ∀ b ∈ bufs, b.length = n) :
    bufs.flatten.length = n * bufs.length := by
  induction bufs with
  | nil => simp
  | cons c bufs ih =>
    rw [List.flatten_cons, List.length_append, ih fun b hb => h b (by simp [hb]), h c (by simp),
      List.length_cons, Nat.mul_succ, Nat.add_comm]

end Model
