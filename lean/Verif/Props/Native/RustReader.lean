import Verif.Props.Native.CppReader
import Verif.Props.Native.RustFiles
import Verif.Model.Native.RustReader

/-!
# C82: the Rust readers show the values in the documented files
-/

namespace Props
open Py Spec Model Model.Native _root_.Native

/-! ## Structures -/

/-- The Rust types of the fields can hold their values. -/
def RustTypes (ty : String → RustType) (fs : List FieldDecl) : Prop :=
  ∀ f ∈ fs, RustHolds (ty f.name) f.width ∧ (ty f.name).isSigned = f.isSigned

/-- The getters of the structure in this memory show the stored values. -/
def RustShows (ty : String → RustType) (fs : List FieldDecl) (mem : Bytes) (d : Dict) : Prop :=
  ∀ f ∈ fs, ∀ v, d.lookup f.name = some v →
    rustGet ty fs mem f.name = some (storedValue f.width f.isSigned v) ∧
    (InRange f.width f.isSigned v → (storedValue f.width f.isSigned v = v ↔ ¬ (f.isSigned = true ∧ f.width = 1 ∧ v = -1)))

/-- What the Rust reader gets from a field in the memory of a stored structure. -/
theorem rust_field {t : RustType} {fs : List FieldDecl} (hg : GoodStruct fs) {d : Dict} {i : Nat} {f : FieldDecl} (hi : fs[i]? = some f)
    (hp : RustPortable (bitOffset fs i) f.width) (ht : RustHolds t f.width) (hs : t.isSigned = f.isSigned)
    {v : Int} (hv : d.lookup f.name = some v) (rest : Bytes) :
    rustRead t (structBytes fs d ++ rest) (bitOffset fs i) f.width = some (storedValue f.width f.isSigned v) := by
  have hw := hg.widths f (List.mem_of_getElem? hi)
  have hfit := bitOffset_fits hi
  rw [C72_rust_read _ _ _ _ hw.1 hw.2 ht hp (by rw [List.length_append, structBytes_length]; omega), hs]
  have hb := structBytes_field hg hi hv rest
  congr 1
  unfold storedValue
  by_cases h1 : f.width = 1
  · rw [if_pos h1]
    have hb0 := hb 0 (by omega)
    rw [Nat.add_zero] at hb0
    have e : storedDigit f.width v 0 = decide (v = 1) := by simp [storedDigit, h1]
    rw [e] at hb0
    by_cases hs : f.isSigned = true ∧ f.width = 1
    · rw [if_pos hs, hb0]; simp
    · rw [if_neg hs]
      have hs' : f.isSigned = false := by
        cases h : f.isSigned
        · rfl
        · exact absurd ⟨h, h1⟩ hs
      rw [hs', h1]
      simp [fieldValue, unsignedAt, hb0]
  · rw [if_neg h1, if_neg (fun h => h1 h.2)]
    apply fieldValue_wrap
    intro k hk
    rw [hb k hk, storedDigit, if_neg h1]

theorem rust_shows {ty : String → RustType} {fs : List FieldDecl} (hg : GoodStruct fs) (hr : RustStruct fs) (ht : RustTypes ty fs) (d : Dict)
    (rest : Bytes) : RustShows ty fs (structBytes fs d ++ rest) d := by
  intro f hf v hv
  refine ⟨?_, storedValue_range⟩
  obtain ⟨i, hi⟩ := List.getElem?_of_mem hf
  have hkeysn : ((layoutFrom 0 fs).map (·.1)).Nodup := by rw [layoutFrom_keys]; exact hg.names
  have hlk := layoutFrom_getElem? 0 fs i
  rw [hi] at hlk
  have hlk := lookup_of_mem_nodup hkeysn (List.mem_of_getElem? hlk)
  obtain ⟨ht1, ht2⟩ := ht f hf
  simp only [rustGet, hlk, Option.bind_eq_bind, Option.bind_some, Nat.zero_add]
  exact rust_field hg hi (hr i f hi) ht1 ht2 hv rest

theorem bitAt_drop (d : Bytes) (n k : Nat) : bitAt (d.drop n) k = bitAt d (k + n * 8) := by
  unfold bitAt
  rw [show (k + n * 8) / 8 = n + k / 8 by omega, show (k + n * 8) % 8 = k % 8 by omega]
  simp [List.getD_eq_getElem?_getD]

/-- Reading a field of the next structure. -/
theorem rustRead_next (t : RustType) (d : Bytes) (o w n : Nat) (hw : 1 ≤ w) (hw' : w ≤ 64) (ht : RustHolds t w) (h9 : o % 8 + w ≤ 64)
    (hlen : o + n * 8 + w ≤ 8 * d.length) : rustRead t d (o + n * 8) w = rustRead t (d.drop n) o w := by
  rw [C72_rust_read t d _ w hw hw' ht (Or.inr (by omega)) hlen,
    C72_rust_read t (d.drop n) _ w hw hw' ht (Or.inr h9) (by rw [List.length_drop]; omega), bitAt_drop]
  have : unsignedAt d (o + n * 8) w = unsignedAt (d.drop n) o w := by
    apply Nat.eq_of_testBit_eq; intro k
    rw [unsignedAt_testBit, unsignedAt_testBit, bitAt_drop]
    congr 2; omega
  simp only [fieldValue, this]

/-! ## Opening files -/

theorem rust_readSize (b : Bytes) (hb : 8 ≤ b.length) : rustRead (.int 64 false) b 0 64 = some (unsignedAt b 0 64 : Int) := by
  rw [C72_rust_read (.int 64 false) b 0 64 (by omega) (by omega) ⟨by omega, by omega⟩ (Or.inl (by omega)) (by omega)]
  simp [RustType.isSigned, fieldValue]

theorem unsignedAt_size (n : Nat) (hn : n < 2 ^ 64) (rest : Bytes) : unsignedAt (toLE 8 n ++ rest) 0 64 = n := by
  apply Nat.eq_of_testBit_eq; intro k
  rw [unsignedAt_testBit]
  by_cases hk : k < 64
  · rw [bitAt_append_left (by rw [Py.toLE_length]; omega), bitAt_toLE]; simp [hk]
  · have : n.testBit k = false := Nat.testBit_lt_two_pow (lt_of_lt_of_le hn (Nat.pow_le_pow_right (by omega) (by omega)))
    simp [hk, this]

theorem size_prefix (b : Bytes) (hb : 8 ≤ b.length) : b.take 8 = toLE 8 (unsignedAt b 0 64) := by
  apply bytes_ext
  · rw [Py.toLE_length, List.length_take]; omega
  · intro j hj
    rw [List.length_take, Nat.min_eq_left (by omega)] at hj
    rw [bitAt_toLE, unsignedAt_testBit]
    have : bitAt (b.take 8) j = bitAt b j := by
      conv => rhs; rw [← List.take_append_drop 8 b]
      rw [bitAt_append_left (by rw [List.length_take]; omega)]
    rw [this]
    simp [show j < 64 by omega, show j < 8 * 8 by omega]

/-- The files of a resource with the payload `p` are well-formed: size, payload, eight more bytes, and the schema. -/
def GoodResource (f : Files) (name schema : String) (p : Bytes) : Prop :=
  ∃ tail : Bytes, f name = some (toLE 8 p.length ++ p ++ tail) ∧ tail.length = 8 ∧ f (name ++ ".schema") = some (encodeUtf8 schema)

/-- **C82 (which files are accepted).** Reading a resource never panics; it gives the payload `p` if and only if the files are
well-formed files with this payload and the schema; it reports "missing" if and only if there is no data file. -/
theorem C82_rust_accepts_iff (f : Files) (name schema : String) (hmax : ∀ b, f name = some b → b.length < 2 ^ 64) :
    (∀ p, rustReadAndCheck f name schema = .ok p ↔ GoodResource f name schema p) ∧
    (rustReadAndCheck f name schema = .error .missing ↔ f name = none) ∧
    rustReadAndCheck f name schema ≠ .panic := by
  unfold rustReadAndCheck GoodResource
  cases h1 : f name with
  | none => simp
  | some b =>
    have hb := hmax b h1
    cases h2 : f (name ++ ".schema") with
    | none => simp
    | some sch =>
      simp only [reduceCtorEq, iff_false, Option.some.injEq]
      by_cases hl : b.length < 8 + 8
      · simp only [hl, if_true, reduceCtorEq, false_iff, not_exists, not_false_eq_true, ne_eq, and_true, true_and, implies_true,
          RResult.error.injEq]
        rintro p tail ⟨rfl, ht, -⟩
        simp [Py.toLE_length] at hl; omega
      have hult := unsignedAt_lt b 0 64
      simp only [hl, if_false, rust_readSize b (by omega), Int.toNat_natCast]
      by_cases hsz : (unsignedAt b 0 64 + 8 + 8) % 2 ^ 64 ≠ b.length
      · rw [if_pos hsz]
        refine ⟨fun p => ⟨by simp, ?_⟩, by simp, by simp⟩
        rintro ⟨tail, rfl, ht, -⟩
        exfalso
        apply hsz
        have hlen : (toLE 8 p.length ++ p ++ tail).length = p.length + 16 := by simp [Py.toLE_length, ht]; omega
        rw [hlen] at hb ⊢
        rw [List.append_assoc, unsignedAt_size _ (by omega)]
        omega
      rw [if_neg hsz]
      rw [not_not] at hsz
      have hlen : unsignedAt b 0 64 + 16 = b.length := by omega
      have hpl : ((b.drop 8).take (unsignedAt b 0 64)).length = unsignedAt b 0 64 := by
        rw [List.length_take, List.length_drop]; omega
      have hnolt : ¬ (b.drop 8).length < unsignedAt b 0 64 := by rw [List.length_drop]; omega
      have hdec := decodeUtf8_iff sch
      cases hd : decodeUtf8 sch with
      | error e =>
        refine ⟨fun p => ⟨by simp, ?_⟩, by simp, by simp⟩
        rintro ⟨tail, -, -, rfl⟩
        have := (hdec schema).mpr rfl
        rw [hd] at this; cases this
      | ok s =>
        have hss := (hdec s).mp hd
        simp only
        by_cases hs : s ≠ schema
        · rw [if_pos hs]
          refine ⟨fun p => ⟨by simp, ?_⟩, by simp, by simp⟩
          rintro ⟨tail, -, -, rfl⟩
          have := (hdec schema).mpr rfl
          rw [hd] at this
          exact absurd (by cases this; rfl) hs
        · rw [if_neg hs, if_neg hnolt]
          rw [not_not] at hs
          subst hs
          refine ⟨fun p => ⟨?_, ?_⟩, by simp, by simp⟩
          · rw [RResult.ok.injEq]
            rintro rfl
            refine ⟨(b.drop 8).drop (unsignedAt b 0 64), ?_, ?_, hss⟩
            · rw [hpl, ← size_prefix b (by omega), List.append_assoc, List.take_append_drop, List.take_append_drop]
            · rw [List.length_drop, List.length_drop]; omega
          · rintro ⟨tail, rfl, ht, -⟩
            have hl' : (toLE 8 p.length ++ p ++ tail).length = p.length + 16 := by simp [Py.toLE_length, ht]; omega
            rw [List.append_assoc, unsignedAt_size _ (by omega), List.drop_left' (Py.toLE_length _ _), List.take_left]

/-- A well-formed data file with the right schema is accepted. -/
theorem rust_read_ok {f : Files} {name schema : String} {p : Bytes} (h1 : f name = some (frame p))
    (h2 : f (name ++ ".schema") = some (encodeUtf8 schema)) (hp : p.length + 16 < 2 ^ 64) :
    rustReadAndCheck f name schema = .ok p := by
  rw [(C82_rust_accepts_iff f name schema (by
    intro b hb; rw [h1] at hb; cases hb; simp [frame, Py.toLE_length]; omega)).1]
  exact ⟨List.replicate 8 0, by rw [h1, frame], by simp, h2⟩

/-- **C82 (single structures).** -/
theorem C82_rust_instance (ty : String → RustType) (fs : List FieldDecl) (hg : GoodStruct fs) (hr : RustStruct fs) (ht : RustTypes ty fs)
    (f : Files) (name schema : String) (d : Dict) (hlen : ((fs.map (·.width)).sum + 7) / 8 + 16 < 2 ^ 64)
    (hf : HasFiles f [(name, frame (structBytes fs d)), (name ++ ".schema", encodeUtf8 schema)]) :
    ∃ mem, (rustReadAndCheck f name schema).andThen (rustFromBytesSlice (((fs.map (·.width)).sum + 7) / 8)) = .ok mem ∧
      RustShows ty fs mem d := by
  have := rust_read_ok (hf (name, _) List.mem_cons_self) (hf (name ++ ".schema", _) (List.mem_cons_of_mem _ List.mem_cons_self)) (by rw [structBytes_length]; exact hlen)
  refine ⟨structBytes fs d, ?_, ?_⟩
  · rw [this]
    simp [RResult.andThen, rustFromBytesSlice, structBytes_length]
  · have := rust_shows hg hr ht d []
    rwa [List.append_nil] at this

/-- **C82 (raw data).** -/
theorem C82_rust_raw_data (f : Files) (name schema : String) (b : Bytes) (hlen : b.length + 16 < 2 ^ 64)
    (hf : HasFiles f [(name, frame b), (name ++ ".schema", encodeUtf8 schema)]) : rustReadAndCheck f name schema = .ok b :=
  rust_read_ok (hf (name, _) List.mem_cons_self) (hf (name ++ ".schema", _) (List.mem_cons_of_mem _ List.mem_cons_self)) hlen

/-- **C82 (strings in raw data).** From every position inside the data, or at its end, the string that is returned is the longest one
without a zero byte: it begins there, has no zero byte, and is followed by a zero byte or the end. -/
theorem C82_rust_substring (data : Bytes) (start : Nat) :
    (data.length < start → rustSubstring data start = none) ∧
    (start ≤ data.length → ∃ s, rustSubstring data start = some s ∧ (0 : UInt8) ∉ s ∧
      (data.drop start = s ∨ ∃ rest, data.drop start = s ++ 0 :: rest)) := by
  unfold rustSubstring
  constructor
  · intro h; rw [if_pos h]
  · intro h
    rw [if_neg (by omega)]
    refine ⟨_, rfl, ?_, ?_⟩
    · intro hm
      have := List.all_eq_true.mp (List.all_takeWhile (p := fun x : UInt8 => decide (x ≠ 0)) (l := data.drop start)) 0 hm
      simp at this
    · generalize data.drop start = l
      induction l with
      | nil => left; rfl
      | cons x l ih =>
        by_cases hx : x = 0
        · subst hx; right; exact ⟨l, by simp⟩
        · rw [List.takeWhile_cons_of_pos (by simpa using hx)]
          rcases ih with h | ⟨rest, h⟩
          · left; rw [← h]
          · right; exact ⟨rest, by rw [List.cons_append, ← h]⟩

/-- **C82 (vectors).** The Rust reader opens a vector with the documented files (which needs at least one element for structures with a
range), it has as many elements as the vector (one less for structures with a range, whose last element only ends the range of the
one before), they show their values, and an access behind the last one panics. The range of a field that does not span nine bytes is
the value in this element and the value in the next one. -/
theorem C82_rust_vector (ty : String → RustType) (fs : List FieldDecl) (hg : GoodStruct fs) (hfs : fs ≠ []) (hr : RustStruct fs)
    (ht : RustTypes ty fs) (overlapping : Bool) (f : Files) (name schema : String) (ds : List Dict)
    (hlen : ((fs.map (·.width)).sum + 7) / 8 * ds.length + 16 < 2 ^ 64)
    (hf : HasFiles f [(name, frame (vectorBytes fs ds)), (name ++ ".schema", encodeUtf8 schema)]) :
    (overlapping = true ∧ ds = [] →
      (rustReadAndCheck f name schema).andThen (rustFromBytes overlapping (((fs.map (·.width)).sum + 7) / 8)) = .error .unexpectedDataSize) ∧
    (¬ (overlapping = true ∧ ds = []) → ∃ v,
      (rustReadAndCheck f name schema).andThen (rustFromBytes overlapping (((fs.map (·.width)).sum + 7) / 8)) = .ok v ∧
      v.len = (if overlapping then ds.length - 1 else ds.length) ∧
      (∀ i, v.len ≤ i → v.at (((fs.map (·.width)).sum + 7) / 8) i = none) ∧
      ∀ i (hi : i < ds.length), i < v.len → ∃ mem, v.at (((fs.map (·.width)).sum + 7) / 8) i = some mem ∧ RustShows ty fs mem ds[i] ∧
        (overlapping = true → ∀ (k : Nat) g, fs[k]? = some g → bitOffset fs k % 8 + g.width ≤ 64 → ∀ x y,
          ds[i].lookup g.name = some x → (∃ d ∈ ds[i + 1]?, d.lookup g.name = some y) →
          rustRange (ty g.name) mem (bitOffset fs k) g.width (((fs.map (·.width)).sum + 7) / 8) =
            some (storedValue g.width g.isSigned x, storedValue g.width g.isSigned y))) := by
  have hn : 0 < ((fs.map (·.width)).sum + 7) / 8 := by
    obtain ⟨f, fs', rfl⟩ := List.exists_cons_of_ne_nil hfs
    have := (hg.widths f (by simp)).1
    simp only [List.map_cons, List.sum_cons]; omega
  have hread := rust_read_ok (hf (name, _) List.mem_cons_self) (hf (name ++ ".schema", _) (List.mem_cons_of_mem _ List.mem_cons_self)) (by rw [vectorBytes_length]; exact hlen)
  rw [hread]
  simp only [RResult.andThen]
  have hvl := vectorBytes_length fs ds
  constructor
  · rintro ⟨rfl, rfl⟩
    simp only [rustFromBytes, hn.ne', if_false, vectorBytes, List.map_nil, List.flatten_nil, List.length_nil, Nat.zero_mod, ne_eq,
      not_true_eq_false, if_true, hn]
  · intro hne
    refine ⟨⟨vectorBytes fs ds, if overlapping then ds.length - 1 else ds.length⟩, ?_, rfl, ?_, ?_⟩
    · unfold rustFromBytes
      rw [if_neg hn.ne', if_neg (by rw [hvl]; simp)]
      cases overlapping with
      | false => simp [hvl, Nat.mul_div_cancel_left _ hn]
      | true =>
        have hds : 0 < ds.length := by
          rw [List.length_pos_iff]
          intro h; exact hne ⟨rfl, h⟩
        have : ((fs.map (·.width)).sum + 7) / 8 * 1 ≤ ((fs.map (·.width)).sum + 7) / 8 * ds.length := Nat.mul_le_mul_left _ hds
        rw [if_pos rfl, if_neg (by rw [hvl]; omega)]
        congr 2
        rw [hvl, if_pos rfl, ← Nat.mul_sub_one, Nat.mul_div_cancel_left _ hn]
    · intro i hi
      exact if_neg (by simpa using hi)
    · intro i hi hi'
      obtain ⟨tail, e⟩ := vectorBytes_split fs ds i hi []
      rw [List.append_nil, List.append_nil] at e
      refine ⟨_, if_pos hi', ?_, ?_⟩
      · simp only
        rw [e]
        exact rust_shows hg hr ht _ _
      · intro hov k g hk h9 x y hx hy
        subst hov
        simp only [if_true] at hi'
        have hi2 : i + 1 < ds.length := by omega
        obtain ⟨d', hd', hy⟩ := hy
        rw [List.getElem?_eq_getElem hi2, Option.mem_some_iff] at hd'
        subst hd'
        obtain ⟨tail2, e2⟩ := vectorBytes_split fs ds (i + 1) hi2 []
        rw [List.append_nil, List.append_nil] at e2
        have hw := hg.widths g (List.mem_of_getElem? hk)
        obtain ⟨ht1, ht2⟩ := ht g (List.mem_of_getElem? hk)
        have hfit := bitOffset_fits hk
        simp only [rustRange]
        have e3 : ((vectorBytes fs ds).drop (((fs.map (·.width)).sum + 7) / 8 * i)).drop (((fs.map (·.width)).sum + 7) / 8) =
            structBytes fs ds[i + 1] ++ tail2 := by
          rw [List.drop_drop, ← Nat.mul_succ]; exact e2
        have hlen2 : ((vectorBytes fs ds).drop (((fs.map (·.width)).sum + 7) / 8 * i)).length =
            ((fs.map (·.width)).sum + 7) / 8 + (((fs.map (·.width)).sum + 7) / 8 + tail2.length) := by
          have := congrArg List.length e3
          rw [List.length_drop, List.length_append, structBytes_length] at this
          omega
        rw [rustRead_next _ _ _ _ _ hw.1 hw.2 ht1 h9 (by rw [hlen2]; omega), e3, e,
          rust_field hg hk (Or.inr h9) ht1 ht2 hx, rust_field hg hk (Or.inr h9) ht1 ht2 hy]
        rfl

end Props
