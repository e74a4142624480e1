import Verif.Lemmas.Payload
import Verif.Spec.Strings

namespace Model
open Py Spec

theorem sliceSeq_nat {α : Type _} (l : List α) (a b : Nat) :
    sliceSeq l ⟨some (a : Int), some (b : Int), none⟩ = .ok ((l.drop a).take (b - a)) := by
  have ha : ¬ (a : Int) < 0 := by omega
  have hb : ¬ (b : Int) < 0 := by omega
  simp only [sliceSeq, Slice.indices, Option.getD_none, bind, Except.bind, adjustIndex, ha, hb, if_false]
  show Except.ok _ = _
  congr 1
  have h1 : ¬ ((1 : Int) < 0) := by omega
  simp only [h1, if_false]
  rw [show (min (a : Int) l.length) = ((min a l.length : Nat) : Int) by omega,
    show (min (b : Int) l.length) = ((min b l.length : Nat) : Int) by omega]
  apply List.ext_getElem?
  intro i
  have hlen : rangeLen ((min a l.length : Nat) : Int) ((min b l.length : Nat) : Int) 1 =
      min b l.length - min a l.length := by
    simp [rangeLen]; omega
  have hr : range ((min a l.length : Nat) : Int) ((min b l.length : Nat) : Int) 1 =
      (List.range (min b l.length - min a l.length)).map fun k => ((min a l.length + k : Nat) : Int) := by
    unfold range; rw [hlen]; apply List.map_congr_left; intro k _; push_cast; omega
  rw [hr, List.filterMap_map]
  have hf : ((fun i : Int => l[i.toNat]?) ∘ fun k : Nat => ((min a l.length + k : Nat) : Int)) =
      fun k => l[min a l.length + k]? := by
    funext k; simp only [Function.comp, Int.toNat_natCast]
  rw [hf]
  have hall : (List.range (min b l.length - min a l.length)).filterMap (fun k => l[min a l.length + k]?) =
      (l.drop a).take (b - a) := by
    have hb : ∀ k ∈ List.range (min b l.length - min a l.length), min a l.length + k < l.length := by
      intro k hk; simp at hk; omega
    apply List.ext_getElem?
    intro j
    have : ∀ (ks : List Nat), (∀ k ∈ ks, min a l.length + k < l.length) →
        (ks.filterMap (fun k => l[min a l.length + k]?))[j]? = ks[j]?.bind (fun k => l[min a l.length + k]?) := by
      intro ks
      induction ks generalizing j with
      | nil => simp
      | cons k ks ih =>
        intro hk
        have h0 := hk k (by simp)
        rw [List.filterMap_cons_some (f := fun k => l[min a l.length + k]?) (List.getElem?_eq_getElem h0)]
        cases j with
        | zero => simp [List.getElem?_eq_getElem h0]
        | succ j => simp only [List.getElem?_cons_succ]; exact ih j fun k' h' => hk k' (by simp [h'])
    rw [this _ hb, List.getElem?_take, List.getElem?_drop]
    by_cases hj : j < min b l.length - min a l.length
    · rw [List.getElem?_range hj, if_pos (by omega)]
      simp only [Option.bind_some]
      congr 1; omega
    · have hn : (List.range (min b l.length - min a l.length))[j]? = none := by
        rw [List.getElem?_eq_none]; simp; omega
      rw [hn]
      split
      · simp only [Option.bind_none]; symm; apply List.getElem?_eq_none; omega
      · rfl
  rw [hall]

/-- Slicing raw data with non-negative bounds slices what is stored behind the size header. -/
theorem raw_sub (r : RawData) (a b : Nat) : r.sub a b = .ok (((r.mem.drop 8).drop a).take (b - a)) := by
  unfold RawData.sub RawData.getSlice
  simp only [Option.map_some]
  rw [show ((a : Int) + 8) = ((a + 8 : Nat) : Int) by push_cast; rfl,
    show ((b : Int) + 8) = ((b + 8 : Nat) : Int) by push_cast; rfl, sliceSeq_nat, List.drop_drop]
  congr 2
  · omega
  · congr 1; omega

theorem raw_get (r : RawData) (i : Nat) : r.get (i : Int) = .ok (((r.mem.drop 8).drop i).take 1) := by
  unfold RawData.get
  rw [show ((i : Int) + 8 + 1) = ((i + 8 + 1 : Nat) : Int) by push_cast; rfl,
    show ((i : Int) + 8) = ((i + 8 : Nat) : Int) by push_cast; rfl, sliceSeq_nat, List.drop_drop]
  congr 2
  · omega
  · congr 1; omega

theorem frame_tail (p : Bytes) : (frame p).drop 8 = p ++ List.replicate 8 0 := by
  have hl : (toLE 8 p.length).length = 8 := toLE_length 8 p.length
  rw [frame, List.append_assoc, List.drop_left' hl]

theorem take_eq_iff_prefix {α} [DecidableEq α] {l s : List α} : l.take s.length = s ↔ s <+: l := by
  rw [List.prefix_iff_eq_take]; exact eq_comm

end Model
