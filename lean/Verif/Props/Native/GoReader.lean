import Verif.Props.Native.RustReader
import Verif.Props.Native.Go
import Verif.Model.Native.GoReader

/-!
# C87: what the Go readers show of the documented files
-/

namespace Props
open Py Spec Model Model.Native _root_.Native

/-! ## Structures -/

/-- The Go types of the fields can hold their values. -/
def GoTypes (ty : String → GoType) (fs : List FieldDecl) : Prop :=
  ∀ f ∈ fs, GoHolds (ty f.name) f.width ∧ (ty f.name).isSigned = f.isSigned

/-- A field of `w` bits at bit `o` lies in one byte, but does not begin with it. -/
def InsideByte (o w : Nat) : Prop := o % 8 ≠ 0 ∧ o % 8 + w ≤ 8

instance (o w : Nat) : Decidable (InsideByte o w) := by unfold InsideByte; infer_instance

/-- What Go shows of a value that was stored in a field of `w` bits at bit `o` of a structure. The sign is lost inside of a byte; a signed
field of one bit shows -1 for a stored 1. -/
def goShown (o w : Nat) (s : Bool) (v : Int) : Int :=
  if s = true ∧ InsideByte o w then (storedNat w v : Int)
  else if s = true ∧ w = 1 then -(storedNat w v : Int)
  else storedValue w s v

/-- The structure at this position of the file shows the stored values: values in the range of the field as they are, with the exception of
negative ones in signed fields inside of a byte and in signed fields of one bit. -/
def GoShows (ty : String → GoType) (fs : List FieldDecl) (file : Bytes) (position : Int) (d : Dict) : Prop :=
  ∀ (i : Nat) f, fs[i]? = some f → ∀ v, d.lookup f.name = some v →
    goField ty fs file position f.name = some (goShown (bitOffset fs i) f.width f.isSigned v) ∧
    (InRange f.width f.isSigned v → (goShown (bitOffset fs i) f.width f.isSigned v = v ↔
      ¬ (f.isSigned = true ∧ v < 0 ∧ (f.width = 1 ∨ InsideByte (bitOffset fs i) f.width))))

theorem goShown_range {o w : Nat} {s : Bool} {v : Int} (hw : 1 ≤ w) (h : InRange w s v) :
    goShown o w s v = v ↔ ¬ (s = true ∧ v < 0 ∧ (w = 1 ∨ InsideByte o w)) := by
  unfold goShown
  cases s with
  | false => simp [storedValue_range h]
  | true =>
    simp only [true_and]
    have hst : w ≠ 1 → (storedNat w v : Int) = v % 2 ^ w := by
      intro h1
      simp only [storedNat, if_neg h1]
      exact emod_toNat_cast v w
    have hmod : 0 ≤ v → v % 2 ^ w = v := by
      intro h0
      apply Int.emod_eq_of_lt h0
      simp only [InRange, if_true] at h
      have : (2 : Int) ^ w = 2 * 2 ^ (w - 1) := by
        rw [← pow_succ']; congr 1; omega
      omega
    have hneg : v < 0 → v % 2 ^ w ≠ v := by
      intro h0 e
      have := Int.emod_nonneg v (b := 2 ^ w) (by positivity)
      omega
    by_cases h1 : w = 1
    · subst h1
      have hv : v = -1 ∨ v = 0 := by simp [InRange] at h; omega
      rcases hv with rfl | rfl <;> simp [storedNat]
    · by_cases hi : InsideByte o w
      · simp only [hi, if_true, or_true, and_true, hst h1]
        by_cases h0 : v < 0
        · simp [h0, hneg h0]
        · simp [h0, hmod (by omega)]
      · simp [hi, h1, storedValue_range h]

theorem goBits_nat {p o : Nat} (h : p * 8 + o < 2 ^ 64) : goBits (p : Int) o = p * 8 + o := by
  unfold goBits
  have : ((p : Int) * 8 + (o : Int)) % 2 ^ 64 = ((p * 8 + o : Nat) : Int) := by
    rw [Int.emod_eq_of_lt (by omega) (by exact_mod_cast h)]; push_cast; rfl
  rw [this, Int.toNat_natCast]

theorem unsignedAt_drop (d : Bytes) (p o w : Nat) : unsignedAt d (p * 8 + o) w = unsignedAt (d.drop p) o w := by
  apply Nat.eq_of_testBit_eq; intro k
  rw [unsignedAt_testBit, unsignedAt_testBit, bitAt_drop]
  congr 2; omega

theorem drop_length_of_eq {file : Bytes} {p : Nat} {x : Bytes} (h : file.drop p = x) (hx : 0 < x.length) :
    file.length = p + x.length := by
  have := congrArg List.length h
  rw [List.length_drop] at this; omega

/-- A structure in the file. -/
theorem go_shows {ty : String → GoType} {fs : List FieldDecl} (hg : GoodStruct fs) (ht : GoTypes ty fs) (d : Dict) {file : Bytes} {p : Nat}
    {rest : Bytes} (hd : file.drop p = structBytes fs d ++ rest) (hr : 1 ≤ rest.length) (hlen : 8 * file.length < 2 ^ 64) :
    GoShows ty fs file p d := by
  intro i f hi v hv
  have hf := List.mem_of_getElem? hi
  have hw := hg.widths f hf
  refine ⟨?_, goShown_range hw.1⟩
  have hkeysn : ((layoutFrom 0 fs).map (·.1)).Nodup := by rw [layoutFrom_keys]; exact hg.names
  have hlk := layoutFrom_getElem? 0 fs i
  rw [hi] at hlk
  have hlk := lookup_of_mem_nodup hkeysn (List.mem_of_getElem? hlk)
  obtain ⟨ht1, ht2⟩ := ht f hf
  have hfit := bitOffset_fits hi
  have hfl : file.length = p + (((fs.map (·.width)).sum + 7) / 8 + rest.length) := by
    have := drop_length_of_eq hd (by rw [List.length_append]; omega)
    rw [List.length_append, structBytes_length] at this
    exact this
  simp only [goField, hlk, Option.bind_eq_bind, Option.bind_some, Nat.zero_add]
  show goGet (ty f.name) file (goBits p (bitOffset fs i)) f.width = _
  rw [goBits_nat (by omega), C74_go_get _ _ _ _ hw.1 hw.2 ht1 (by omega)]
  have hb := structBytes_field hg hi hv rest
  have hu : unsignedAt file (p * 8 + bitOffset fs i) f.width = storedNat f.width v := by
    rw [unsignedAt_drop, hd]
    apply Nat.eq_of_testBit_eq; intro k
    rw [unsignedAt_testBit]
    by_cases hk : k < f.width
    · rw [hb k hk, storedNat_testBit hk]; simp [hk]
    · have : (storedNat f.width v).testBit k = false := Nat.testBit_lt_two_pow (lt_of_lt_of_le (storedNat_lt hw.1)
        (Nat.pow_le_pow_right (by omega) (by omega)))
      simp [hk, this]
  have hm : (p * 8 + bitOffset fs i) % 8 = bitOffset fs i % 8 := by omega
  simp only [fieldValue, hu, ht2, goShown]
  congr 1
  have hmis : GoMisread (ty f.name) (p * 8 + bitOffset fs i) f.width ↔ f.isSigned = true ∧ InsideByte (bitOffset fs i) f.width := by
    simp only [GoMisread, InsideByte, hm, ht2]
  by_cases hm' : f.isSigned = true ∧ InsideByte (bitOffset fs i) f.width
  · rw [if_pos hm', if_pos (hmis.mpr hm')]
  rw [if_neg hm', if_neg (fun h => hm' (hmis.mp h))]
  by_cases h1 : f.width = 1
  · simp only [h1, and_true, storedValue, if_true, storedNat]
    cases f.isSigned
    · simp only [Bool.false_eq_true, if_false]; split <;> rfl
    · simp only [if_true, twosComplement]; split <;> simp_all
  · simp only [h1, and_false, if_false, storedValue, storedNat, wrap]
    cases f.isSigned
    · simp only [Bool.false_eq_true, if_false]; exact emod_toNat_cast v f.width
    · simp only [if_true]

/-! ## Sizes -/

theorem frame_split (p : Bytes) : frame p = toLE 8 p.length ++ (p ++ List.replicate 8 0) := by rw [frame, List.append_assoc]

theorem frame_length' (p : Bytes) : (frame p).length = p.length + 16 := by simp [frame, Py.toLE_length]; omega

theorem frame_drop (p : Bytes) (k : Nat) : (frame p).drop (k + 8) = (p ++ List.replicate 8 0).drop k := by
  rw [Nat.add_comm, ← List.drop_drop, frame_split, List.drop_left' (Py.toLE_length _ _)]

theorem goSize_frame (p : Bytes) (hp : p.length < 2 ^ 63) : goSize (frame p) = p.length := by
  have h : goReadAt (frame p) 8 0 = some (toLE 8 p.length) := by
    unfold goReadAt
    rw [if_pos (by rw [frame_length']; omega), List.drop_zero, frame_split, List.take_left' (Py.toLE_length _ _)]
  simp only [goSize, h, fromLE_toLE]
  rw [Nat.mod_eq_of_lt (by omega), toInt_twos, BitVec.toNat_ofNat, Nat.mod_eq_of_lt (by omega), twosComplement, if_neg (by omega)]

/-- **C87 (single structures).** The structure `Get` returns on the documented file shows the stored values. -/
theorem C87_go_instance (ty : String → GoType) (fs : List FieldDecl) (hg : GoodStruct fs) (ht : GoTypes ty fs) (d : Dict)
    (hlen : 8 * (((fs.map (·.width)).sum + 7) / 8 + 16) < 2 ^ 64) :
    GoShows ty fs (frame (structBytes fs d)) goInstanceGet d := by
  have hd : (frame (structBytes fs d)).drop 8 = structBytes fs d ++ List.replicate 8 0 := frame_drop _ 0
  exact go_shows hg ht d (p := 8) hd (by simp) (by rw [frame_length', structBytes_length]; exact hlen)

/-- **C87 (raw data).** -/
theorem C87_go_raw_data (b : Bytes) (hlen : b.length < 2 ^ 63) : goRawValue (frame b) = some b ∧ goSize (frame b) = b.length := by
  have hs := goSize_frame b hlen
  refine ⟨?_, hs⟩
  unfold goRawValue
  rw [hs, if_neg (by omega)]
  simp only [Int.toNat_natCast, goReadAt]
  rw [if_pos (by rw [frame_length']; omega)]
  have : (frame b).drop 8 = b ++ List.replicate 8 0 := frame_drop b 0
  rw [this, List.take_left]

theorem structBytes_pos {fs : List FieldDecl} (hg : GoodStruct fs) (hfs : fs ≠ []) : 0 < ((fs.map (·.width)).sum + 7) / 8 := by
  obtain ⟨f, fs', rfl⟩ := List.exists_cons_of_ne_nil hfs
  have := (hg.widths f (by simp)).1
  simp only [List.map_cons, List.sum_cons]; omega

/-- **C87 (vectors).** On the documented file of a vector, `GetSize` is the number of stored structures (for structures with a range, too:
one more than in the other languages), and `Get(i)` shows structure `i`. -/
theorem C87_go_vector (ty : String → GoType) (fs : List FieldDecl) (hg : GoodStruct fs) (hfs : fs ≠ []) (ht : GoTypes ty fs)
    (ds : List Dict) (hlen : 8 * (((fs.map (·.width)).sum + 7) / 8 * ds.length + 16) < 2 ^ 64) :
    goVectorSize (((fs.map (·.width)).sum + 7) / 8) (frame (vectorBytes fs ds)) = ds.length ∧
    ∀ i (hi : i < ds.length),
      GoShows ty fs (frame (vectorBytes fs ds)) (goVectorGet (((fs.map (·.width)).sum + 7) / 8) i) ds[i] := by
  have hn := structBytes_pos hg hfs
  constructor
  · unfold goVectorSize
    rw [goSize_frame _ (by rw [vectorBytes_length]; omega), vectorBytes_length, Int.tdiv_eq_ediv_of_nonneg (by omega)]
    exact_mod_cast Nat.mul_div_cancel_left _ hn
  · intro i hi
    obtain ⟨tail, e⟩ := vectorBytes_split fs ds i hi (List.replicate 8 0)
    have hp : goVectorGet (((fs.map (·.width)).sum + 7) / 8) i = ((((fs.map (·.width)).sum + 7) / 8 * i + 8 : Nat) : Int) := by
      unfold goVectorGet; push_cast; ring
    rw [hp]
    refine go_shows hg ht ds[i] (p := ((fs.map (·.width)).sum + 7) / 8 * i + 8) (rest := tail ++ List.replicate 8 0) ?_ (by simp) ?_
    · rw [frame_drop, e]
    · rw [frame_length', vectorBytes_length]; exact hlen

theorem goSliceLoop_spec (n : Nat) (stop step : Int) (hs : 1 ≤ step) (fuel : Nat) (start : Int) (hf : (stop - start + 1).toNat ≤ fuel) :
    goSliceLoop n stop step fuel start = some (((List.range fuel).filter fun k : Nat => decide (start + k * step ≤ stop)).map fun k : Nat =>
      goVectorGet n (start + k * step)) := by
  induction fuel generalizing start with
  | zero => simp [goSliceLoop]; omega
  | succ fuel ih =>
    unfold goSliceLoop
    by_cases h : start ≤ stop
    · rw [if_pos h, ih (start + step) (by omega), List.range_succ_eq_map]
      have hk : ∀ k : Nat, start + step + (k : Int) * step = start + ((k + 1 : Nat) : Int) * step := by intro k; push_cast; ring
      have hc : ((fun k : Nat => decide (start + (k : Int) * step ≤ stop)) ∘ Nat.succ) =
          fun k : Nat => decide (start + step + (k : Int) * step ≤ stop) := by
        funext k
        simp only [Function.comp_apply, hk k, Nat.succ_eq_add_one]
      have h0 : decide (start + ((0 : Nat) : Int) * step ≤ stop) = true := by simp [h]
      rw [List.filter_cons, if_pos h0, List.filter_map, hc, List.map_cons, List.map_map]
      simp only [Option.map_some, Option.some.injEq, List.cons.injEq]
      refine ⟨by simp, ?_⟩
      apply List.map_congr_left
      intro k _
      simp only [Function.comp_apply, hk k, Nat.succ_eq_add_one]
    · rw [if_neg h]
      symm
      simp only [Option.some.injEq, List.map_eq_nil_iff, List.filter_eq_nil_iff, decide_eq_true_eq, not_le]
      intro k _
      have : 0 ≤ (k : Int) * step := by positivity
      omega

/-- **C87 (slices).** `GetSlice(start, end, step)` with a positive step returns the structures with the numbers `start`, `start + step`, ... up to
`end`, including `end` itself; with another step it does not return, unless `end < start`. -/
theorem C87_go_slice (n : Nat) (start stop step : Int) :
    (1 ≤ step → ∃ k : Nat, goVectorSlice n start stop step = some ((List.range k).map fun j : Nat => goVectorGet n (start + j * step)) ∧
      ∀ j : Nat, j < k ↔ start + j * step ≤ stop) ∧
    (step ≤ 0 → goVectorSlice n start stop step = if start ≤ stop then none else some []) := by
  constructor
  · intro hs
    unfold goVectorSlice
    rw [if_neg (by omega), goSliceLoop_spec n stop step hs _ start (le_refl _)]
    by_cases hlt : stop < start
    · refine ⟨0, ?_, ?_⟩
      · have : (stop - start + 1).toNat = 0 := by omega
        rw [this]; rfl
      · intro j
        have : 0 ≤ (j : Int) * step := by positivity
        omega
    · have key : ∀ j : Nat, j < ((stop - start) / step + 1).toNat ↔ start + j * step ≤ stop := by
        intro j
        have h0 : 0 ≤ (stop - start) / step := Int.ediv_nonneg (by omega) (by omega)
        have : (j : Int) ≤ (stop - start) / step ↔ (j : Int) * step ≤ stop - start := Int.le_ediv_iff_mul_le (by omega)
        omega
      refine ⟨((stop - start) / step + 1).toNat, ?_, key⟩
      have hle : ((stop - start) / step + 1).toNat ≤ (stop - start + 1).toNat := by
        have : (stop - start) / step ≤ stop - start := Int.ediv_le_self _ (by omega)
        omega
      congr 2
      obtain ⟨m, hm⟩ := Nat.exists_eq_add_of_le hle
      rw [hm, List.range_add, List.filter_append]
      rw [List.filter_eq_self.mpr, List.filter_eq_nil_iff.mpr, List.append_nil]
      · intro x hx
        obtain ⟨y, -, rfl⟩ := List.mem_map.mp hx
        have := key (((stop - start) / step + 1).toNat + y)
        simp only [decide_eq_true_eq]
        omega
      · intro x hx
        simp only [decide_eq_true_eq]
        exact (key x).mp (List.mem_range.mp hx)
  · intro hs
    unfold goVectorSlice
    rw [if_pos hs]

/-! ## Multivectors -/

theorem goByte {data : Bytes} {p : Nat} {t : UInt8} (ht : data[p]? = some t) (hp : p + 2 ≤ data.length) (hlen : 8 * data.length < 2 ^ 64) :
    goRead data (goBits p 0) 8 false = some (t.toNat : Int) := by
  rw [goBits_nat (by omega), Nat.add_zero, C74_go_read_exact data (p * 8) 8 false (by omega) (by omega) (by omega)]
  rw [if_neg (by omega)]
  have hu : unsignedAt data (p * 8) 8 = t.toNat := by
    apply Nat.eq_of_testBit_eq; intro k
    rw [unsignedAt_testBit]
    by_cases hk : k < 8
    · unfold bitAt
      rw [show (p * 8 + k) / 8 = p by omega, show (p * 8 + k) % 8 = k by omega, List.getD_eq_getElem?_getD, ht]
      simp [hk]
    · have : t.toNat.testBit k = false := Nat.testBit_lt_two_pow (lt_of_lt_of_le t.toNat_lt (Nat.pow_le_pow_right (by omega : 0 < 2) (by omega : 8 ≤ k)))
      simp [hk, this]
  have := t.toNat_lt
  simp only [Bool.false_eq_true, if_false, hu, twosComplement]
  rw [if_neg (by omega)]

/-- Where the object of type `t` is after the loop: at the last element of this type, or where it was. -/
def LastAt (data rest : Bytes) (l : List (Nat × Bytes)) (before after : Nat → Int) : Prop :=
  ∀ t, match (l.filter (·.1 == t)).getLast? with
    | some x => ∃ p : Nat, after t = p ∧ AtPos data rest p x.2
    | none => after t = before t

theorem goBucket_ok (sizes : List Nat) (data rest : Bytes) (hrest : 1 ≤ rest.length) (hlen : 8 * data.length < 2 ^ 64)
    (l : List (Nat × Bytes)) (hk : KnownTypes sizes l) (fuel pos : Nat) (before : Nat → Int)
    (hd : data.drop pos = rawElements l ++ rest) (hfuel : (rawElements l).length ≤ fuel) :
    ∃ after, goBucketLoop sizes data ((pos + (rawElements l).length : Nat) : Int) fuel pos before = some (l.map (·.1), after) ∧
      LastAt data rest l before after := by
  induction l generalizing fuel pos before with
  | nil =>
    refine ⟨before, ?_, fun t => by simp⟩
    cases fuel <;> simp [goBucketLoop, rawElements]
  | cons x l ih =>
    obtain ⟨j, b⟩ := x
    obtain ⟨hj, hsz⟩ := hk (j, b) (by simp)
    obtain ⟨⟨t, ht, htj⟩, hd1, hd2⟩ := first_element hj hd
    have hl : (rawElements ((j, b) :: l)).length = 1 + b.length + (rawElements l).length := by simp [rawElements]; omega
    rw [hl] at hfuel ⊢
    obtain ⟨fuel, rfl⟩ : ∃ k, fuel = k + 1 := ⟨fuel - 1, by omega⟩
    obtain ⟨after, e, hr⟩ := ih (fun e he => hk e (by simp [he])) fuel (pos + 1 + b.length) (fun t => if t = j then (pos : Int) + 1 else before t)
      hd2 (by omega)
    have hdl : data.length = pos + (1 + b.length + (rawElements l).length + rest.length) := by
      have := drop_length_of_eq hd (by rw [List.length_append, hl]; omega)
      rw [List.length_append, hl] at this
      exact this
    refine ⟨after, ?_, ?_⟩
    · unfold goBucketLoop
      rw [if_pos (by omega), goByte ht (by omega) hlen]
      simp only [Option.bind_eq_bind, Option.bind_some, Int.toNat_natCast, htj, hsz]
      have e1 : (((pos + 1 + b.length + (rawElements l).length : Nat)) : Int) = ((pos + (1 + b.length + (rawElements l).length) : Nat) : Int) := by
        push_cast; ring
      rw [e1] at e
      have e2 : ((pos + 1 + b.length : Nat) : Int) = (pos : Int) + 1 + b.length := by push_cast; ring
      rw [e2] at e
      rw [e]
      rfl
    · intro u
      have := hr u
      by_cases hu : j = u
      · subst hu
        have hf : ((j, b) :: l).filter (·.1 == j) = (j, b) :: l.filter (·.1 == j) := by simp
        rw [hf]
        cases hc : (l.filter (·.1 == j)).getLast? with
        | none =>
          rw [hc] at this
          simp only [if_true] at this
          have hnil : l.filter (·.1 == j) = [] := List.getLast?_eq_none_iff.mp hc
          rw [hnil]
          simp only [List.getLast?_singleton]
          refine ⟨pos + 1, ?_, ⟨rawElements l, hd1⟩⟩
          rw [this]; push_cast; rfl
        | some y =>
          rw [hc] at this
          have : (((j, b) :: l.filter (·.1 == j)).getLast?) = some y := by
            rw [List.getLast?_cons, hc]; rfl
          rw [this]
          simpa using ‹∃ p : Nat, after j = p ∧ AtPos data rest p y.2›
      · have hf : ((j, b) :: l).filter (·.1 == u) = l.filter (·.1 == u) := by simp [hu]
        rw [hf]
        cases hc : (l.filter (·.1 == u)).getLast? with
        | none =>
          rw [hc] at this
          simp only at this ⊢
          rw [this, if_neg (fun h => hu h.symm)]
        | some y =>
          rw [hc] at this
          exact this

theorem go_index {w x : Nat} (hw : 1 ≤ w) (hw' : w ≤ 64) (hx : x < 2 ^ w) (hx' : x < 2 ^ 63) {file : Bytes} {p : Nat} {rest : Bytes}
    (hd : file.drop p = toLE ((w + 7) / 8) x ++ rest) (hr : 1 ≤ rest.length) (hlen : 8 * file.length < 2 ^ 64) :
    goGet (.int 64 false) file (goBits p 0) w = some (x : Int) := by
  have hg : GoodStruct [⟨"value", w, false⟩] := ⟨fun f hf => by simp at hf; subst hf; exact ⟨hw, hw'⟩, by simp⟩
  have := (go_shows (ty := fun _ => .int 64 false) hg (by
    intro f hf; simp at hf; subst hf; exact ⟨by simp [GoHolds]; omega, rfl⟩) [("value", (x : Int))] (file := file) (p := p) (rest := rest)
      (by rw [hd, indexStruct_bytes w x hx]) hr hlen 0 ⟨"value", w, false⟩ rfl x (by simp [List.lookup])).1
  simp only [goField, layoutFrom, List.lookup, beq_self_eq_true, Option.bind_eq_bind, Option.bind_some] at this
  rw [this]
  congr 1
  simp only [goShown, Bool.false_eq_true, false_and, if_false]
  exact (storedValue_range (by simp [InRange]; exact_mod_cast hx)).mpr (by simp)

/-- **C87 (multivectors).** A multivector object on the documented files, whatever was read with it before. `GetSize` is one more than the
number of buckets, and the last bucket is empty. `Get(i)` returns one reference for every element of bucket `i`, in order, to the structure
object of its type; the object of a type is on the last element of this type in the bucket, and shows its values. If there is none, it
stays where it was. -/
theorem C87_go_multivector (w : Nat) (hw : 1 ≤ w) (hw' : w ≤ 64) (decls : List (String × List FieldDecl)) (hd : GoodDecls decls)
    (ty : String → String → GoType) (ht : ∀ p ∈ decls, GoTypes (ty p.1) p.2)
    (value : List (List Obj)) (hv : ∀ b ∈ value, ∀ o ∈ b, ∃ fs, (o.name, fs) ∈ decls)
    (hsize : (bucketsBytes decls value).length < 2 ^ w) (hsize' : 8 * ((bucketsBytes decls value).length + 16) < 2 ^ 64)
    (hlen : 8 * ((w + 7) / 8 * (value.length + 1) + 16) < 2 ^ 64) (m : GoMulti) (hm : m.data = frame (bucketsBytes decls value))
    (hm' : m.index = frame (indexBytes w decls value)) :
    m.size w = value.length + 1 ∧ m.get w (declSizes decls) value.length = some ([], m) ∧
    ∀ i (hi : i < value.length), ∃ l m', m.get w (declSizes decls) i = some (l, m') ∧ m'.data = m.data ∧ m'.index = m.index ∧
      List.Forall₂ (fun t o => ∃ fs, decls[t]? = some (o.name, fs)) l value[i] ∧
      ∀ (t : Nat) n fs, decls[t]? = some (n, fs) →
        match (value[i].filter (·.name == n)).getLast? with
        | some o => GoShows (ty n) fs m'.data (m'.position t) o.attributes
        | none => m'.position t = m.position t := by
  have hil : (indexBytes w decls value).length = (w + 7) / 8 * (value.length + 1) := by
    rw [indexBytes, flatten_length_const _ (toLE_all _)]; simp [indexEntries]
  have hn : 0 < (w + 7) / 8 := by omega
  have hsz : m.size w = value.length + 1 := by
    unfold GoMulti.size goVectorSize
    rw [hm', goSize_frame _ (by rw [hil]; omega), hil, Int.tdiv_eq_ediv_of_nonneg (by omega)]
    exact_mod_cast Nat.mul_div_cancel_left _ hn
  have hent : ∀ k, k ≤ value.length → ∃ tail, m.index.drop ((w + 7) / 8 * k + 8) =
      toLE ((w + 7) / 8) (bucketsBytes decls (value.take k)).length ++ (tail ++ List.replicate 8 0) := by
    intro k hk
    have hk' : k < (indexEntries decls value).length := by simp [indexEntries]; omega
    obtain ⟨tail, e⟩ := index_drop (n := (w + 7) / 8) (indexEntries decls value) k hk' (List.replicate 8 0)
    refine ⟨tail, ?_⟩
    rw [hm', frame_drop, indexBytes, e]
    congr 2
    simp [indexEntries]
  have hle : ∀ k, (bucketsBytes decls (value.take k)).length ≤ (bucketsBytes decls value).length := by
    intro k
    conv => rhs; rw [← List.take_append_drop k value]
    simp only [bucketsBytes, List.map_append, List.flatten_append, List.length_append]
    exact Nat.le_add_right _ _
  have hoff : ∀ k : Nat, k ≤ value.length → m.bucketOffset w k = some (((bucketsBytes decls (value.take k)).length + 8 : Nat) : Int) := by
    intro k hk
    obtain ⟨tail, e⟩ := hent k hk
    have := hle k
    unfold GoMulti.bucketOffset
    rw [if_neg (by rw [hsz]; omega)]
    have hp : goVectorGet ((w + 7) / 8) k = (((w + 7) / 8 * k + 8 : Nat) : Int) := by unfold goVectorGet; push_cast; ring
    rw [hp, go_index hw hw' (by omega) (by omega) e (by simp) (by rw [hm', frame_length', hil]; exact hlen)]
    simp only [Option.bind_eq_bind, Option.bind_some, Option.some.injEq]
    rw [toInt_twos, BitVec.toNat_ofInt, twosComplement]
    rw [show (((bucketsBytes decls (List.take k value)).length : Int) % ((2 ^ 64 : Nat) : Int)).toNat = (bucketsBytes decls (List.take k value)).length by omega,
      if_neg (by omega)]
    push_cast; rfl
  have hdl : m.data.length = (bucketsBytes decls value).length + 16 := by rw [hm, frame_length']
  refine ⟨hsz, ?_, ?_⟩
  · have h2 : m.bucketOffset w ((value.length : Int) + 1) = some (((bucketsBytes decls value).length + 8 : Nat) : Int) := by
      unfold GoMulti.bucketOffset
      rw [if_pos hsz.symm, hdl]
      congr 1; push_cast; ring
    have h1 := hoff value.length (le_refl _)
    rw [List.take_length] at h1
    simp only [GoMulti.get, h1, h2, Option.bind_eq_bind, Option.bind_some, Int.sub_self, Int.toNat_zero, goBucketLoop, lt_irrefl, if_false]
  intro i hi
  obtain ⟨tail, hdrop⟩ := buckets_drop decls value i hi (List.replicate 8 0)
  rw [bucketBytes_raw, ← frame_drop, ← hm] at hdrop
  have hnext : (bucketsBytes decls (value.take (i + 1))).length + 8 =
      (bucketsBytes decls (value.take i)).length + 8 + (rawElements (bucketElements decls value[i])).length := by
    rw [← bucketBytes_raw, List.take_succ_eq_append_getElem hi]
    simp only [bucketsBytes, List.map_append, List.flatten_append, List.length_append, List.map_cons, List.map_nil, List.flatten_cons,
      List.flatten_nil, List.length_nil, Nat.add_zero]
    omega
  have hknown := bucket_known hd (hv value[i] (List.getElem_mem hi))
  obtain ⟨after, e, hlast⟩ := goBucket_ok (declSizes decls) m.data (tail ++ List.replicate 8 0) (by simp) (by rw [hdl]; exact hsize')
    _ hknown (rawElements (bucketElements decls value[i])).length _ m.position hdrop (le_refl _)
  have h1 := hoff i (by omega)
  have h2 := hoff (i + 1) (by omega)
  rw [hnext] at h2
  refine ⟨(bucketElements decls value[i]).map (·.1), { m with position := after }, ?_, rfl, rfl, ?_, ?_⟩
  · have h2' : m.bucketOffset w ((i : Int) + 1) = some (((bucketsBytes decls (value.take i)).length + 8 + (rawElements (bucketElements decls value[i])).length : Nat) : Int) := by
      rw [← h2]; rfl
    simp only [GoMulti.get, h1, h2', Option.bind_eq_bind, Option.bind_some]
    rw [show ((((bucketsBytes decls (value.take i)).length + 8 + (rawElements (bucketElements decls value[i])).length : Nat) : Int) -
      (((bucketsBytes decls (value.take i)).length + 8 : Nat) : Int)).toNat = (rawElements (bucketElements decls value[i])).length by omega, e]
    rfl
  · unfold bucketElements
    rw [List.map_map, List.forall₂_map_left_iff, List.forall₂_same]
    intro o ho
    obtain ⟨fs, hmem⟩ := hv value[i] (List.getElem_mem hi) o ho
    obtain ⟨k, hk⟩ := List.getElem?_of_mem hmem
    refine ⟨fs, ?_⟩
    simp only [Function.comp_apply, idxOf_decl hd.names hk]
    exact hk
  · intro t n fs hj
    have hl := hlast t
    have hfil : (bucketElements decls value[i]).filter (·.1 == t) = bucketElements decls (value[i].filter (·.name == n)) := by
      unfold bucketElements
      rw [List.filter_map]
      congr 1
      apply List.filter_congr
      intro o ho
      obtain ⟨fs', hmem⟩ := hv value[i] (List.getElem_mem hi) o ho
      obtain ⟨k, hk⟩ := List.getElem?_of_mem hmem
      simp only [Function.comp_apply, idxOf_decl hd.names hk]
      by_cases hkj : k = t
      · subst hkj
        rw [hj] at hk
        have : n = o.name := by cases hk; rfl
        simp [this]
      · have : o.name ≠ n := by
          intro h
          subst h
          apply hkj
          rw [← idxOf_decl hd.names hk, idxOf_decl hd.names hj]
        simp [hkj, this]
    rw [hfil] at hl
    unfold bucketElements at hl
    rw [List.getLast?_map] at hl
    cases hc : (value[i].filter (·.name == n)).getLast? with
    | none => rw [hc] at hl; exact hl
    | some o =>
      rw [hc] at hl
      obtain ⟨p, hp, r, hr⟩ := hl
      have ho : o.name = n := by
        have := List.mem_of_getLast? hc
        simpa using (List.mem_filter.mp this).2
      subst ho
      have hmem := List.mem_of_getElem? hj
      simp only [lookup_of_mem hd.names hmem, Option.getD_some] at hr
      show GoShows (ty o.name) fs m.data (after t) o.attributes
      rw [hp]
      exact go_shows (hd.good _ hmem) (ht _ hmem) _ hr (by simp; omega) (by rw [hdl]; exact hsize')

/-- **C87 (distinct types).** If no two elements of a bucket have the same type, the elements `Get` returns show their values, until the next
call of `Get`. -/
theorem C87_go_distinct (w : Nat) (hw : 1 ≤ w) (hw' : w ≤ 64) (decls : List (String × List FieldDecl)) (hd : GoodDecls decls)
    (ty : String → String → GoType) (ht : ∀ p ∈ decls, GoTypes (ty p.1) p.2)
    (value : List (List Obj)) (hv : ∀ b ∈ value, ∀ o ∈ b, ∃ fs, (o.name, fs) ∈ decls)
    (hsize : (bucketsBytes decls value).length < 2 ^ w) (hsize' : 8 * ((bucketsBytes decls value).length + 16) < 2 ^ 64)
    (hlen : 8 * ((w + 7) / 8 * (value.length + 1) + 16) < 2 ^ 64) (m : GoMulti) (hm : m.data = frame (bucketsBytes decls value))
    (hm' : m.index = frame (indexBytes w decls value)) (i : Nat) (hi : i < value.length) (hdist : (value[i].map (·.name)).Nodup) :
    ∃ l m', m.get w (declSizes decls) i = some (l, m') ∧ m'.data = m.data ∧ m'.index = m.index ∧
      List.Forall₂ (fun t o => ∃ fs, decls[t]? = some (o.name, fs) ∧ GoShows (ty o.name) fs m'.data (m'.position t) o.attributes) l value[i] := by
  obtain ⟨-, -, h⟩ := C87_go_multivector w hw hw' decls hd ty ht value hv hsize hsize' hlen m hm hm'
  obtain ⟨l, m', e, e1, e2, hf, hs⟩ := h i hi
  refine ⟨l, m', e, e1, e2, forall₂_imp_mem ?_ hf⟩
  rintro t o ho ⟨fs, hfs⟩
  refine ⟨fs, hfs, ?_⟩
  have := hs t o.name fs hfs
  have hfil : value[i].filter (·.name == o.name) = [o] := by
    have key : ∀ l : List Obj, (l.map (·.name)).Nodup → o ∈ l → l.filter (·.name == o.name) = [o] := by
      intro l
      induction l with
      | nil => intro _ h; simp at h
      | cons a l ih =>
        intro hn ho
        have hn' := List.nodup_cons.mp (by simpa using hn : (a.name :: l.map (·.name)).Nodup)
        rcases List.mem_cons.mp ho with rfl | h
        · have : l.filter (·.name == o.name) = [] := by
            rw [List.filter_eq_nil_iff]
            intro x hx hxn
            simp only [beq_iff_eq] at hxn
            exact hn'.1 (hxn ▸ List.mem_map_of_mem hx)
          simp [this]
        · have hne : a.name ≠ o.name := fun hne => hn'.1 (hne ▸ List.mem_map_of_mem h)
          simp [hne, ih hn'.2 h]
    exact key _ hdist ho
  rw [hfil] at this
  exact this

/-! ## Concrete cases -/

def goSampleDecls : List (String × List FieldDecl) := [("A", [⟨"x", 16, true⟩, ⟨"y", 3, false⟩]), ("B", [⟨"z", 8, false⟩])]

def goSampleTy : String → String → GoType
  | _, "x" => .int 16 true
  | _, _ => .int 8 false

def goSampleValue : List (List Obj) :=
  [[⟨"A", [("x", -300), ("y", 5)]⟩, ⟨"B", [("z", 200)]⟩], [], [⟨"B", [("z", 1)]⟩, ⟨"B", [("z", 2)]⟩]]

def goSampleMulti : GoMulti :=
  goMultiNew (frame (bucketsBytes goSampleDecls goSampleValue)) (frame (indexBytes 32 goSampleDecls goSampleValue))

/-- The hypotheses of the theorems about multivectors are met by this multivector with three buckets. -/
theorem goSample_hypotheses : GoodDecls goSampleDecls ∧ (∀ p ∈ goSampleDecls, GoTypes (goSampleTy p.1) p.2) ∧
    (∀ b ∈ goSampleValue, ∀ o ∈ b, ∃ fs, (o.name, fs) ∈ goSampleDecls) ∧ (bucketsBytes goSampleDecls goSampleValue).length < 2 ^ 32 ∧
    8 * ((bucketsBytes goSampleDecls goSampleValue).length + 16) < 2 ^ 64 := by
  refine ⟨⟨by decide, by decide, ?_⟩, ?_, ?_, by decide +kernel, by decide +kernel⟩
  · intro p hp
    simp only [goSampleDecls, List.mem_cons, List.not_mem_nil, or_false] at hp
    rcases hp with rfl | rfl
    · exact ⟨by intro f hf; simp at hf; rcases hf with rfl | rfl <;> decide, by decide⟩
    · exact ⟨by intro f hf; simp at hf; subst hf; decide, by decide⟩
  · intro p hp
    simp only [goSampleDecls, List.mem_cons, List.not_mem_nil, or_false] at hp
    rcases hp with rfl | rfl
    · intro f hf; simp at hf; rcases hf with rfl | rfl <;> simp [goSampleTy, GoHolds, GoType.isSigned]
    · intro f hf; simp at hf; subst hf; simp [goSampleTy, GoHolds, GoType.isSigned]
  · intro b hb o ho
    simp only [goSampleValue, List.mem_cons, List.not_mem_nil, or_false] at hb
    rcases hb with rfl | rfl | rfl <;> simp [goSampleDecls] at ho ⊢ <;> rcases ho with rfl | rfl <;> simp

/-- What is shown of a bucket: the field `n` of the elements after the call. -/
def goBucketShown (m : GoMulti) (i : Int) (n : String) : Option (List Nat × List (Option Int)) := do
  let (l, m') ← m.get 32 (declSizes goSampleDecls) i
  some (l, l.map fun t => ((goSampleDecls[t]?).bind fun d => goField (goSampleTy d.1) d.2 m'.data (m'.position t) n))

example : goBucketShown goSampleMulti 0 "x" = some ([0, 1], [some (-300), none]) ∧
    goBucketShown goSampleMulti 0 "y" = some ([0, 1], [some 5, none]) ∧
    goBucketShown goSampleMulti 0 "z" = some ([0, 1], [none, some 200]) ∧
    goBucketShown goSampleMulti 1 "z" = some ([], []) := by decide +kernel

/-- Two elements of the same type in a bucket, 1 and 2: Go shows 2 twice. -/
theorem C87_counterexample_same_type : (goSampleValue[2]?.map fun b => b.map (·.attributes)) = some [[("z", 1)], [("z", 2)]] ∧
    goBucketShown goSampleMulti 2 "z" = some ([1, 1], [some 2, some 2]) := by decide +kernel

/-- `GetSize` of this multivector with three buckets is 4. -/
theorem C87_counterexample_size : goSampleValue.length = 3 ∧ goSampleMulti.size 32 = 4 := by decide +kernel

/-- There is no check of the index: `Get(-1)` on a vector of two structures with two fields of 64 bits shows the size of the vector as its
second field; `Get(1)` on a vector with one structure of one byte shows the bytes behind the vector. -/
theorem C87_counterexample_index :
    goField (fun _ => .int 64 false) [⟨"a", 64, false⟩, ⟨"b", 64, false⟩] (frame (vectorBytes [⟨"a", 64, false⟩, ⟨"b", 64, false⟩]
      [[("a", 1), ("b", 2)], [("a", 3), ("b", 4)]])) (goVectorGet 16 (-1)) "b" = some 32 ∧
    goField (fun _ => .int 8 false) [⟨"a", 8, false⟩] (frame (vectorBytes [⟨"a", 8, false⟩] [[("a", 7)]])) (goVectorGet 1 1) "a" = some 0 := by
  decide +kernel

example : goVectorSlice 4 1 7 3 = some [12, 24, 36] ∧ goVectorSlice 4 1 7 0 = none := by decide +kernel

end Props
