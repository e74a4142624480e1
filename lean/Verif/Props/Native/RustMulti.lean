import Verif.Props.Native.RustReader

/-!
# C82, continued: multivectors in Rust
-/

namespace Props
open Py Spec Model Model.Native _root_.Native

/-- The element a bucket iterator returns is this object: the type number is that of its type, and the getters show its values. -/
def RustShowsObj (ty : String → String → RustType) (decls : List (String × List FieldDecl)) (e : Nat × Bytes) (o : Obj) : Prop :=
  ∃ fs, decls[e.1]? = some (o.name, fs) ∧ RustShows (ty o.name) fs e.2 o.attributes

theorem rustItems_ok (sizes : List Nat) (l : List (Nat × Bytes)) (hk : KnownTypes sizes l) (fuel : Nat)
    (hfuel : (rawElements l).length ≤ fuel) :
    ∃ r, rustItems sizes fuel (rawElements l) = some r ∧ List.Forall₂ (fun e x => e.1 = x.1 ∧ ∃ rest, e.2 = x.2 ++ rest) r l := by
  induction l generalizing fuel with
  | nil =>
    refine ⟨[], ?_, .nil⟩
    cases fuel <;> simp [rustItems, rustItemNext, rawElements]
  | cons x l ih =>
    obtain ⟨j, b⟩ := x
    obtain ⟨hj, hsz⟩ := hk (j, b) (by simp)
    have hraw : rawElements ((j, b) :: l) = UInt8.ofNat j :: (b ++ rawElements l) := by simp [rawElements]
    have hlen : (rawElements ((j, b) :: l)).length = 1 + b.length + (rawElements l).length := by simp [rawElements]; omega
    rw [hlen] at hfuel
    obtain ⟨fuel, rfl⟩ : ∃ k, fuel = k + 1 := ⟨fuel - 1, by omega⟩
    obtain ⟨r, e, hr⟩ := ih (fun e he => hk e (by simp [he])) fuel (by omega)
    have ht : (UInt8.ofNat j).toNat = j := by simp; omega
    refine ⟨(j, b ++ rawElements l) :: r, ?_, .cons ⟨rfl, _, rfl⟩ hr⟩
    rw [hraw]
    simp only [rustItems, rustItemNext, ht, hsz, Option.bind_eq_bind, Option.bind_some]
    rw [if_neg (by simp)]
    simp only [Option.bind_some, List.drop_left, e]

/-- The multivector shows these buckets. -/
def ShowsBuckets (w : Nat) (m : RustMulti) (l : List Bytes) : Prop :=
  m.index.len = l.length ∧ ∀ i (hi : i < l.length), m.at w i = some l[i]

theorem slice_at {w : Nat} {m : RustMulti} {l : List Bytes} (h : ShowsBuckets w m l) {a b : Nat} (hab : a ≤ b) (hb : b ≤ l.length) :
    ∃ m', m.slice w a b = some m' ∧ ShowsBuckets w m' ((l.take b).drop a) := by
  obtain ⟨h1, h2⟩ := h
  refine ⟨_, if_pos ⟨hab, by omega⟩, ?_, ?_⟩
  · simp; omega
  · intro i hi
    have hi' : a + i < l.length := by simp at hi; omega
    have := h2 (a + i) hi'
    have hlt : a + i < m.index.len := by omega
    have hlt2 : i < b - a := by simp at hi; omega
    simp only [RustMulti.at, RustSlice.at, hlt, hlt2, if_true, List.drop_drop] at this ⊢
    rw [← Nat.mul_add, this]
    simp

/-- The results of taking buckets from the front (`true`) and from the back (`false`) of a list. -/
def takeEnds {α : Type} : List Bool → List α → List (Option α)
  | [], _ => []
  | true :: cs, l => l.head? :: takeEnds cs l.tail
  | false :: cs, l => l.getLast? :: takeEnds cs l.dropLast

theorem run_ok (w : Nat) (cs : List Bool) (m : RustMulti) (l : List Bytes) (h : ShowsBuckets w m l) :
    m.run w cs = some (takeEnds cs l) := by
  induction cs generalizing m l with
  | nil => rfl
  | cons c cs ih =>
    have hl := h.1
    by_cases h0 : l = []
    · subst h0
      simp only [List.length_nil] at hl
      cases c <;> simp [RustMulti.run, RustMulti.next, RustMulti.nextBack, hl, takeEnds, ih m [] h]
    · have hpos : 0 < l.length := List.length_pos_iff.mpr h0
      have hne : m.index.len ≠ 0 := by omega
      cases c with
      | true =>
        obtain ⟨m', e, hm'⟩ := slice_at h (a := 1) (b := l.length) (by omega) (le_refl _)
        rw [← hl] at e
        rw [List.take_length, List.drop_one] at hm'
        simp only [RustMulti.run, RustMulti.next, hne, ne_eq, not_false_eq_true, if_true, h.2 0 hpos, e, Option.bind_eq_bind,
          Option.bind_some, ih m' _ hm', takeEnds]
        rw [List.head?_eq_getElem?, List.getElem?_eq_getElem hpos]
      | false =>
        obtain ⟨m', e, hm'⟩ := slice_at h (a := 0) (b := l.length - 1) (by omega) (by omega)
        rw [← hl] at e
        rw [List.drop_zero, ← List.dropLast_eq_take] at hm'
        have hlast : m.at w (m.index.len - 1) = some (l[l.length - 1]'(by omega)) := by
          rw [hl]; exact h.2 (l.length - 1) (by omega)
        simp only [RustMulti.run, RustMulti.nextBack, hne, ne_eq, not_false_eq_true, if_true, hlast, e, Option.bind_eq_bind,
          Option.bind_some, ih m' _ hm', takeEnds, Bool.false_eq_true, if_false]
        rw [List.getLast?_eq_getElem?]
        rw [List.getElem?_eq_getElem (by omega)]

theorem rust_index_shows (w x : Nat) (hw : 1 ≤ w) (hw' : w ≤ 64) (hx : x < 2 ^ w) (rest : Bytes) :
    rustRead (.int 64 false) (toLE ((w + 7) / 8) x ++ rest) 0 w = some (x : Int) := by
  have hg : GoodStruct [⟨"value", w, false⟩] := ⟨fun f hf => by simp at hf; subst hf; exact ⟨hw, hw'⟩, by simp⟩
  have := rust_field (t := .int 64 false) (i := 0) (f := ⟨"value", w, false⟩) (d := [("value", (x : Int))]) (v := x) hg rfl (Or.inl (by simp [bitOffset]))
    ⟨by omega, hw'⟩ rfl (by simp [List.lookup]) rest
  rw [indexStruct_bytes w x hx] at this
  simp only at this
  rw [show storedValue w false (x : Int) = x from
    (storedValue_range (by simp [InRange]; exact_mod_cast hx)).mpr (by simp)] at this
  simpa [bitOffset] using this

/-- **C82 (multivectors).** The Rust reader opens a multivector with the documented files; it has as many buckets as the multivector;
the iterator of a bucket returns its elements, in order, with their types and values, and then stops; for any sequence of calls of
`next` and `next_back` the iterator through the multivector returns the buckets that are left at the respective end, each one once,
and nothing when all are consumed; slicing gives the buckets of the slice. -/
theorem C82_rust_multivector (w : Nat) (hw : 1 ≤ w) (hw' : w ≤ 64) (decls : List (String × List FieldDecl)) (hd : GoodDecls decls)
    (hr : ∀ p ∈ decls, RustStruct p.2) (ty : String → String → RustType) (ht : ∀ p ∈ decls, RustTypes (ty p.1) p.2) (f : Files)
    (name schema : String) (value : List (List Obj)) (hv : ∀ b ∈ value, ∀ o ∈ b, ∃ fs, (o.name, fs) ∈ decls)
    (hsize : (bucketsBytes decls value).length < 2 ^ w) (hsize' : (bucketsBytes decls value).length + 16 < 2 ^ 64)
    (hlen : (w + 7) / 8 * (value.length + 1) + 16 < 2 ^ 64)
    (hf : HasFiles f [(name, frame (bucketsBytes decls value)), (name ++ ".schema", encodeUtf8 schema),
      (name ++ "_index", frame (indexBytes w decls value)), (name ++ "_index.schema", encodeUtf8 ("index(" ++ schema ++ ")"))]) :
    ∃ m, rustOpenMulti f name schema w = .ok m ∧ m.index.len = value.length ∧
      (∀ i (hi : i < value.length), ∃ b l, m.at w i = some b ∧ rustItems (declSizes decls) b.length b = some l ∧
        List.Forall₂ (RustShowsObj ty decls) l value[i]) ∧
      (∀ i, value.length ≤ i → m.at w i = none) ∧
      (∀ cs, m.run w cs = some (takeEnds cs (value.map (bucketBytes decls)))) ∧
      ∀ a b, a ≤ b → b ≤ value.length → ∃ m', m.slice w a b = some m' ∧
        ∀ cs, m'.run w cs = some (takeEnds cs (((value.take b).drop a).map (bucketBytes decls))) := by
  have hil : (indexBytes w decls value).length = (w + 7) / 8 * (value.length + 1) := by
    rw [indexBytes, flatten_length_const _ (toLE_all _)]; simp [indexEntries]
  have hdata := rust_read_ok (hf (name, _) List.mem_cons_self) (hf (name ++ ".schema", _) (List.mem_cons_of_mem _ List.mem_cons_self)) hsize'
  have hidx := rust_read_ok (hf (name ++ "_index", _) (List.mem_cons_of_mem _ (List.mem_cons_of_mem _ List.mem_cons_self)))
    (by rw [String.append_assoc]
        exact hf (name ++ "_index.schema", _) (List.mem_cons_of_mem _ (List.mem_cons_of_mem _ (List.mem_cons_of_mem _ List.mem_cons_self)))) (by rw [hil]; exact hlen)
  have hn : 0 < (w + 7) / 8 := by omega
  have hent : ∀ k, k ≤ value.length → ∃ tail, (indexBytes w decls value).drop ((w + 7) / 8 * k) =
      toLE ((w + 7) / 8) (bucketsBytes decls (value.take k)).length ++ tail := by
    intro k hk
    have hk' : k < (indexEntries decls value).length := by simp [indexEntries]; omega
    obtain ⟨tail, e⟩ := index_drop (n := (w + 7) / 8) (indexEntries decls value) k hk' []
    rw [List.append_nil, List.append_nil] at e
    refine ⟨tail, ?_⟩
    rw [indexBytes, e]
    congr 2
    simp [indexEntries]
  have hlt : ∀ k, (bucketsBytes decls (value.take k)).length < 2 ^ w := by
    intro k
    refine lt_of_le_of_lt ?_ hsize
    conv => rhs; rw [← List.take_append_drop k value]
    simp only [bucketsBytes, List.map_append, List.flatten_append, List.length_append]
    exact Nat.le_add_right _ _
  have hshow : ShowsBuckets w ⟨⟨indexBytes w decls value, value.length⟩, bucketsBytes decls value⟩ (value.map (bucketBytes decls)) := by
    refine ⟨by simp, ?_⟩
    intro i hi
    rw [List.length_map] at hi
    have hrange : rustRange (.int 64 false) ((indexBytes w decls value).drop ((w + 7) / 8 * i)) 0 w ((w + 7) / 8) =
        some (((bucketsBytes decls (value.take i)).length : Int), ((bucketsBytes decls (value.take (i + 1))).length : Int)) := by
      obtain ⟨t1, e1⟩ := hent i (by omega)
      obtain ⟨t2, e2⟩ := hent (i + 1) (by omega)
      have hd2 : ((indexBytes w decls value).drop ((w + 7) / 8 * i)).drop ((w + 7) / 8) =
          toLE ((w + 7) / 8) (bucketsBytes decls (value.take (i + 1))).length ++ t2 := by
        rw [List.drop_drop, ← Nat.mul_succ]; exact e2
      have hl2 := congrArg List.length hd2
      rw [List.length_drop, List.length_append, Py.toLE_length] at hl2
      unfold rustRange
      rw [rustRead_next (.int 64 false) _ 0 w _ hw hw' ⟨by omega, hw'⟩ (by omega) (by omega), hd2, e1,
        rust_index_shows w _ hw hw' (hlt i), rust_index_shows w _ hw hw' (hlt (i + 1))]
      rfl
    obtain ⟨tail, hdrop⟩ := buckets_drop decls value i hi []
    rw [List.append_nil, List.append_nil] at hdrop
    have hnext : (bucketsBytes decls (value.take (i + 1))).length =
        (bucketsBytes decls (value.take i)).length + (bucketBytes decls value[i]).length := by
      rw [List.take_succ_eq_append_getElem hi]
      simp only [bucketsBytes, List.map_append, List.flatten_append, List.length_append, List.map_cons, List.map_nil, List.flatten_cons,
        List.flatten_nil, List.length_nil, Nat.add_zero]
    have hdl := congrArg List.length hdrop
    rw [List.length_drop, List.length_append] at hdl
    have hle : (bucketsBytes decls (value.take i)).length ≤ (bucketsBytes decls value).length := by
      conv => rhs; rw [← List.take_append_drop i value]
      simp only [bucketsBytes, List.map_append, List.flatten_append, List.length_append]
      exact Nat.le_add_right _ _
    simp only [RustMulti.at, RustSlice.at, hi, if_true, hrange, Option.bind_eq_bind, Option.bind_some, Int.toNat_natCast, hnext]
    rw [if_neg (by omega), Option.some.injEq, List.drop_take, hdrop, Nat.add_sub_cancel_left, List.take_left]
    simp
  refine ⟨_, ?_, rfl, ?_, ?_, fun cs => run_ok w cs _ _ hshow, ?_⟩
  · simp only [rustOpenMulti, hidx, hdata, rustFromBytes, hn.ne', if_false, hil, Nat.mul_mod_right, ne_eq, not_true_eq_false, if_true]
    rw [if_neg (by rw [Nat.mul_succ]; omega), Nat.mul_succ, Nat.add_sub_cancel, Nat.mul_div_cancel_left _ hn]
    rfl
  · intro i hi
    have hat := hshow.2 i (by simpa using hi)
    rw [List.getElem_map] at hat
    obtain ⟨r, e, hrr⟩ := rustItems_ok (declSizes decls) _ (bucket_known hd (hv value[i] (List.getElem_mem hi))) (bucketBytes decls value[i]).length
      (by rw [bucketBytes_raw])
    rw [← bucketBytes_raw] at e
    refine ⟨_, r, hat, e, ?_⟩
    unfold bucketElements at hrr
    rw [List.forall₂_map_right_iff] at hrr
    refine forall₂_imp_mem ?_ hrr
    rintro ⟨j, mem⟩ o ho ⟨h1, rest, h2⟩
    simp only at h1 h2
    obtain ⟨fs, hm⟩ := hv value[i] (List.getElem_mem hi) o ho
    obtain ⟨k, hk⟩ := List.getElem?_of_mem hm
    rw [idxOf_decl hd.names hk] at h1
    subst h1
    rw [lookup_of_mem hd.names hm, Option.getD_some] at h2
    refine ⟨fs, hk, ?_⟩
    simp only
    rw [h2]
    exact rust_shows (hd.good _ hm) (hr _ hm) (ht _ hm) _ _
  · intro i hi
    simp only [RustMulti.at, RustSlice.at]
    rw [if_neg (by omega)]; rfl
  · intro a b hab hb
    obtain ⟨m', e, hm'⟩ := slice_at hshow hab (by simpa using hb)
    refine ⟨m', e, fun cs => ?_⟩
    rw [run_ok w cs m' _ hm', ← List.map_take, ← List.map_drop]

end Props
