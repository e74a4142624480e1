import Verif.Props.Native.CppFiles
import Verif.Model.Native.CppReader

/-!
# C79: the C++ readers show the values in the documented files
-/

namespace Props
open Py Spec Model Model.Native _root_.Native

/-! ## Structures -/

/-- The C++ types of the fields can hold their values. -/
def CppTypes (ty : String → CppType) (fs : List FieldDecl) : Prop :=
  ∀ f ∈ fs, CppHolds (ty f.name) f.width ∧ (ty f.name).isSigned = f.isSigned

/-- The members of the structure object on this memory show the stored values. -/
def CppShows (ty : String → CppType) (fs : List FieldDecl) (mem : Bytes) (d : Dict) : Prop :=
  ∀ f ∈ fs, ∀ v, d.lookup f.name = some v →
    cppGet ty fs mem f.name = some (storedValue f.width f.isSigned v) ∧
    (InRange f.width f.isSigned v → (storedValue f.width f.isSigned v = v ↔ ¬ (f.isSigned = true ∧ f.width = 1 ∧ v = -1)))

theorem fieldValue_wrap {d : Bytes} {o w : Nat} {s : Bool} {v : Int} (h : ∀ k, k < w → bitAt d (o + k) = digit v k) :
    fieldValue d o w s = wrap w s v := by
  cases s
  · simp only [fieldValue, wrap, unsignedAt_of_bits h, Bool.false_eq_true, if_false]; exact emod_toNat_cast v w
  · simp only [fieldValue, wrap, unsignedAt_of_bits h, if_true]

theorem structBytes_field {fs : List FieldDecl} (hg : GoodStruct fs) {d : Dict} {i : Nat} {f : FieldDecl} (hi : fs[i]? = some f)
    {v : Int} (hv : d.lookup f.name = some v) (rest : Bytes) (k : Nat) (hk : k < f.width) :
    bitAt (structBytes fs d ++ rest) (bitOffset fs i + k) = storedDigit f.width v k := by
  have hfit := bitOffset_fits hi
  rw [bitAt_append_left (by rw [structBytes_length]; omega), structBytes_bit fs hg.widths]
  have hc : image d fs = image ((f.name, v) :: d) fs := image_congr (by
    intro g hgm
    simp only [List.lookup]
    by_cases e : g.name = f.name
    · simp [e, hv]
    · have : (g.name == f.name) = false := by simpa using e
      simp [this])
  rw [hc, image_update fs hg.widths hg.names i f hi, if_pos (by omega)]
  congr 1; omega

theorem storedValue_range {w : Nat} {s : Bool} {v : Int} (h : InRange w s v) :
    storedValue w s v = v ↔ ¬ (s = true ∧ w = 1 ∧ v = -1) := by
  unfold storedValue
  by_cases h1 : w = 1
  · subst h1
    cases s <;> simp [InRange] at h ⊢
    · split <;> omega
    · split <;> omega
  · simp [h1, wrap_of_inRange h]

theorem cpp_shows {ty : String → CppType} {fs : List FieldDecl} (hg : GoodStruct fs) (ht : CppTypes ty fs) (d : Dict) (rest : Bytes)
    (hr : 8 ≤ rest.length) : CppShows ty fs (structBytes fs d ++ rest) d := by
  intro f hf v hv
  refine ⟨?_, storedValue_range⟩
  obtain ⟨i, hi⟩ := List.getElem?_of_mem hf
  have hkeysn : ((layoutFrom 0 fs).map (·.1)).Nodup := by rw [layoutFrom_keys]; exact hg.names
  have hlk := layoutFrom_getElem? 0 fs i
  rw [hi] at hlk
  have hlk := lookup_of_mem_nodup hkeysn (List.mem_of_getElem? hlk)
  have hw := hg.widths f hf
  obtain ⟨ht1, ht2⟩ := ht f hf
  have hfit := bitOffset_fits hi
  simp only [cppGet, hlk, Option.bind_eq_bind, Option.bind_some, Nat.zero_add]
  show cppRead (ty f.name) _ (bitOffset fs i) f.width = _
  rw [C70_cpp_read _ _ _ _ hw.1 hw.2 ht1 (by rw [List.length_append, structBytes_length]; omega), ht2]
  have hb := structBytes_field hg hi hv rest
  congr 1
  unfold storedValue
  by_cases h1 : f.width = 1
  · rw [if_pos h1]
    have hb0 := hb 0 (by omega)
    rw [Nat.add_zero] at hb0
    have e : storedDigit f.width v 0 = decide (v = 1) := by simp [storedDigit, h1]
    rw [e] at hb0
    by_cases hs : f.isSigned = true ∧ f.width = 1
    · rw [if_pos hs, hb0]; simp
    · rw [if_neg hs]
      have hs' : f.isSigned = false := by
        cases h : f.isSigned
        · rfl
        · exact absurd ⟨h, h1⟩ hs
      rw [hs', h1]
      simp [fieldValue, unsignedAt, hb0]
  · rw [if_neg h1, if_neg (fun h => h1 h.2)]
    apply fieldValue_wrap
    intro k hk
    rw [hb k hk, storedDigit, if_neg h1]

/-! ## Opening files -/

theorem readSize (p rest : Bytes) (hp : p.length < 2 ^ 64) (hr : 8 ≤ (p ++ rest).length) :
    cppRead (.int 64 false) (toLE 8 p.length ++ (p ++ rest)) 0 64 = some (p.length : Int) := by
  have hg : GoodStruct [⟨"value", 64, false⟩] := ⟨fun f hf => by simp at hf; subst hf; exact ⟨by decide, by decide⟩, by simp⟩
  have := (cpp_shows (ty := fun _ => .int 64 false) hg (by
    intro f hf; simp at hf; subst hf; exact ⟨by simp [CppHolds], rfl⟩) [("value", (p.length : Int))] (p ++ rest) hr
      ⟨"value", 64, false⟩ (by simp) p.length (by simp [List.lookup])).1
  rw [indexStruct_bytes 64 p.length hp] at this
  rw [show storedValue 64 false (p.length : Int) = p.length from
    (storedValue_range (by simp [InRange]; exact_mod_cast hp)).mpr (by simp)] at this
  simpa [cppGet, layoutFrom] using this

/-- A well-formed data file with the right schema is accepted. -/
theorem readAndCheck_ok {f : Files} {name schema : String} {p : Bytes} (h1 : f name = some (frame p))
    (h2 : f (name ++ ".schema") = some (encodeUtf8 schema)) (hs : encodeUtf8 schema ≠ []) (hp : p.length + 16 < 2 ^ 64) :
    readAndCheckSchema f name schema = some (p ++ List.replicate 8 0, p.length) := by
  have hl : (frame p).length = p.length + 16 := by simp [frame, Py.toLE_length]; omega
  have hne : frame p ≠ [] := by
    intro h; rw [h] at hl; simp at hl
  have hf : frame p = toLE 8 p.length ++ (p ++ List.replicate 8 0) := by rw [frame, List.append_assoc]
  have hsz := readSize p (List.replicate 8 0) (by omega) (by simp)
  rw [← hf] at hsz
  have hdrop : (frame p).drop 8 = p ++ List.replicate 8 0 := by rw [hf, List.drop_left' (Py.toLE_length _ _)]
  unfold readAndCheckSchema readResource
  simp only [h1, h2, hne, hs, if_false, Option.bind_eq_bind, Option.bind_some, hl, paddingSize, hsz, Int.toNat_natCast,
    ne_eq, not_true_eq_false, hdrop]
  rw [if_neg (by omega), if_neg (by simp; omega)]

/-- **C79 (which files are accepted).** A resource is accepted if and only if both files are there and not empty, the data file
consists of a size, as many bytes as the size says, and eight more bytes, and the schema file has exactly the expected contents. The
memory that is used then begins behind the size. -/
theorem C79_cpp_accepts_iff (f : Files) (name schema : String) (m : Bytes × Nat)
    (hmax : ∀ b, f name = some b → b.length < 2 ^ 64) :
    readAndCheckSchema f name schema = some m ↔
      ∃ p tail : Bytes, f name = some (toLE 8 p.length ++ p ++ tail) ∧ tail.length = 8 ∧
        f (name ++ ".schema") = some (encodeUtf8 schema) ∧ encodeUtf8 schema ≠ [] ∧ m = (p ++ tail, p.length) := by
  constructor
  · intro h
    unfold readAndCheckSchema readResource at h
    cases h1 : f name with
    | none => simp [h1] at h
    | some b =>
      have hb := hmax b h1
      cases h2 : f (name ++ ".schema") with
      | none =>
        simp only [h1, h2] at h
        by_cases hb0 : b = [] <;> simp [hb0] at h
      | some sch =>
        by_cases hb0 : b = []
        · simp [h1, hb0] at h
        by_cases hs0 : sch = []
        · simp [h1, h2, hb0, hs0] at h
        simp only [h1, h2, hb0, hs0, if_false, Option.bind_eq_bind, Option.bind_some] at h
        have hps : paddingSize = 8 := rfl
        by_cases hl : 8 + paddingSize > b.length
        · simp [hl] at h
        rw [if_neg hl] at h
        have hrd := C70_cpp_read (.int 64 false) b 0 64 (by omega) (by omega) (by simp [CppHolds]) (by omega)
        rw [if_neg (by simp [CppType.isSigned])] at hrd
        have hfv : fieldValue b 0 64 (CppType.int 64 false).isSigned = (unsignedAt b 0 64 : Int) := by simp [fieldValue, CppType.isSigned]
        rw [hfv] at hrd
        rw [hrd] at h
        simp only [Option.bind_some, Int.toNat_natCast] at h
        have hult := unsignedAt_lt b 0 64
        by_cases hsz : (unsignedAt b 0 64 + 8 + paddingSize) % 2 ^ 64 ≠ b.length
        · rw [if_pos hsz] at h; cases h
        rw [if_neg hsz] at h
        rw [not_not] at hsz
        by_cases hsch : sch ≠ encodeUtf8 schema
        · rw [if_pos hsch] at h; cases h
        rw [if_neg hsch] at h
        rw [not_not] at hsch
        have hlen : unsignedAt b 0 64 + 16 = b.length := by omega
        have htake : b.take 8 = toLE 8 (unsignedAt b 0 64) := by
          apply bytes_ext
          · rw [Py.toLE_length, List.length_take]; omega
          · intro j hj
            rw [List.length_take, Nat.min_eq_left (by omega)] at hj
            rw [bitAt_toLE, unsignedAt_testBit]
            have : bitAt (b.take 8) j = bitAt b j := by
              conv => rhs; rw [← List.take_append_drop 8 b]
              rw [bitAt_append_left (by rw [List.length_take]; omega)]
            rw [this]
            simp [show j < 64 by omega, show j < 8 * 8 by omega]
        refine ⟨(b.drop 8).take (unsignedAt b 0 64), (b.drop 8).drop (unsignedAt b 0 64), ?_, ?_, ?_, ?_, ?_⟩
        · have hpl : ((b.drop 8).take (unsignedAt b 0 64)).length = unsignedAt b 0 64 := by
            rw [List.length_take, List.length_drop]; omega
          rw [hpl, ← htake, List.append_assoc, List.take_append_drop, List.take_append_drop]
        · rw [List.length_drop, List.length_drop]; omega
        · rw [hsch]
        · rw [← hsch]; exact hs0
        · have hpl : ((b.drop 8).take (unsignedAt b 0 64)).length = unsignedAt b 0 64 := by
            rw [List.length_take, List.length_drop]; omega
          rw [hpl, List.take_append_drop]
          exact (Option.some.inj h).symm
  · rintro ⟨p, tail, h1, h2, h3, h4, rfl⟩
    have hb := hmax _ h1
    have hl : (toLE 8 p.length ++ p ++ tail).length = p.length + 16 := by simp [Py.toLE_length, h2]; omega
    have hne : toLE 8 p.length ++ p ++ tail ≠ [] := by intro h; rw [h] at hl; simp at hl
    have hsz := readSize p tail (by omega) (by rw [List.length_append, h2]; omega)
    rw [← List.append_assoc] at hsz
    have hdrop : (toLE 8 p.length ++ p ++ tail).drop 8 = p ++ tail := by
      rw [List.append_assoc, List.drop_left' (Py.toLE_length _ _)]
    unfold readAndCheckSchema readResource
    simp only [h1, h3, hne, h4, if_false, Option.bind_eq_bind, Option.bind_some, hl, paddingSize, hsz, Int.toNat_natCast,
      ne_eq, not_true_eq_false, hdrop]
    rw [if_neg (by omega), if_neg (by simp; omega)]

/-- The documented files of a resource are in the directory. -/
def HasFiles (f : Files) (files : List (String × Bytes)) : Prop := ∀ p ∈ files, f p.1 = some p.2

/-- **C79 (single structures).** -/
theorem C79_cpp_instance (ty : String → CppType) (fs : List FieldDecl) (hg : GoodStruct fs) (ht : CppTypes ty fs) (f : Files)
    (name schema : String) (hs : encodeUtf8 schema ≠ []) (d : Dict) (hlen : ((fs.map (·.width)).sum + 7) / 8 + 16 < 2 ^ 64)
    (hf : HasFiles f [(name, frame (structBytes fs d)), (name ++ ".schema", encodeUtf8 schema)]) :
    ∃ mem, cppOpenStruct f name schema = some mem ∧ CppShows ty fs mem d := by
  have := readAndCheck_ok (hf (name, _) List.mem_cons_self) (hf (name ++ ".schema", _) (List.mem_cons_of_mem _ List.mem_cons_self)) hs (by rw [structBytes_length]; exact hlen)
  exact ⟨_, by rw [cppOpenStruct, this]; rfl, cpp_shows hg ht d _ (by simp)⟩

/-- **C79 (raw data).** -/
theorem C79_cpp_raw_data (f : Files) (name schema : String) (hs : encodeUtf8 schema ≠ []) (b : Bytes) (hlen : b.length + 16 < 2 ^ 64)
    (hf : HasFiles f [(name, frame b), (name ++ ".schema", encodeUtf8 schema)]) : cppOpenRaw f name schema = some b := by
  have := readAndCheck_ok (hf (name, _) List.mem_cons_self) (hf (name ++ ".schema", _) (List.mem_cons_of_mem _ List.mem_cons_self)) hs hlen
  rw [cppOpenRaw, this]; simp

theorem vectorBytes_split (fs : List FieldDecl) (ds : List Dict) (i : Nat) (hi : i < ds.length) (rest : Bytes) :
    ∃ tail, (vectorBytes fs ds ++ rest).drop (((fs.map (·.width)).sum + 7) / 8 * i) = structBytes fs ds[i] ++ (tail ++ rest) := by
  have hsplit : ds = ds.take i ++ ds[i] :: ds.drop (i + 1) := by simp
  have hl : ((fs.map (·.width)).sum + 7) / 8 * i = (vectorBytes fs (ds.take i)).length := by
    rw [vectorBytes_length, List.length_take, Nat.min_eq_left (by omega)]
  refine ⟨vectorBytes fs (ds.drop (i + 1)), ?_⟩
  have e : vectorBytes fs ds ++ rest =
      vectorBytes fs (ds.take i) ++ (structBytes fs ds[i] ++ (vectorBytes fs (ds.drop (i + 1)) ++ rest)) := by
    conv => lhs; rw [hsplit]
    simp only [vectorBytes, List.map_append, List.map_cons, List.flatten_append, List.flatten_cons, List.append_assoc]
  rw [hl, e, List.drop_left]

/-- **C79 (vectors).** The C++ reader opens a vector with the documented files, it has as many elements as the vector (one less for
structures with a range, whose last element only ends the range of the one before), and all elements, this last one included, show
their values. -/
theorem C79_cpp_vector (ty : String → CppType) (fs : List FieldDecl) (hg : GoodStruct fs) (hfs : fs ≠ []) (ht : CppTypes ty fs)
    (overlapping : Bool) (f : Files) (name schema : String) (hs : encodeUtf8 schema ≠ []) (ds : List Dict)
    (hlen : ((fs.map (·.width)).sum + 7) / 8 * ds.length + 16 < 2 ^ 64)
    (hf : HasFiles f [(name, frame (vectorBytes fs ds)), (name ++ ".schema", encodeUtf8 schema)]) :
    ∃ v, cppOpenVector overlapping f name schema (((fs.map (·.width)).sum + 7) / 8) = some v ∧
      v.size = (if overlapping then ds.length - 1 else ds.length) ∧
      ∀ i (hi : i < ds.length), CppShows ty fs (v.at (((fs.map (·.width)).sum + 7) / 8) i) ds[i] := by
  have hn : 0 < ((fs.map (·.width)).sum + 7) / 8 := by
    obtain ⟨f, fs', rfl⟩ := List.exists_cons_of_ne_nil hfs
    have := (hg.widths f (by simp)).1
    simp only [List.map_cons, List.sum_cons]; omega
  have := readAndCheck_ok (hf (name, _) List.mem_cons_self) (hf (name ++ ".schema", _) (List.mem_cons_of_mem _ List.mem_cons_self)) hs (by rw [vectorBytes_length]; exact hlen)
  refine ⟨_, by rw [cppOpenVector, this]; rfl, ?_, ?_⟩
  · simp only [CppView.create, vectorBytes_length, viewSize, Nat.mul_div_cancel_left _ hn]
    cases overlapping
    · simp
    · by_cases h : ds.length = 0 <;> simp [h]
  · intro i hi
    simp only [CppView.at, CppView.create]
    obtain ⟨tail, e⟩ := vectorBytes_split fs ds i hi (List.replicate 8 0)
    rw [e]
    exact cpp_shows hg ht _ _ (by rw [List.length_append, List.length_replicate]; omega)

/-! ## Multivectors -/

theorem getImpl_eq (sizes : List Nat) (index type : Nat) (h : index ≤ type) : getImpl sizes index type = sizes[type - index]? := by
  induction sizes generalizing index with
  | nil => simp [getImpl]
  | cons s sizes ih =>
    unfold getImpl
    by_cases e : type = index
    · subst e; simp
    · rw [if_neg e, ih (index + 1) (by omega), show type - index = (type - (index + 1)) + 1 by omega, List.getElem?_cons_succ]

/-- Elements in the data of a multivector: type number and bytes of the structure. -/
def rawElements (l : List (Nat × Bytes)) : Bytes := (l.map fun e => UInt8.ofNat e.1 :: e.2).flatten

/-- The types of the elements exist and have these sizes. -/
def KnownTypes (sizes : List Nat) (l : List (Nat × Bytes)) : Prop := ∀ e ∈ l, e.1 < 256 ∧ sizes[e.1]? = some e.2.length

/-- The element is at this position of the data. -/
def AtPos (data : Bytes) (rest : Bytes) (p : Nat) (b : Bytes) : Prop := ∃ r, data.drop p = b ++ (r ++ rest)

theorem first_element {data rest : Bytes} {pos j : Nat} {b : Bytes} {l : List (Nat × Bytes)} (hj : j < 256)
    (hd : data.drop pos = rawElements ((j, b) :: l) ++ rest) :
    (∃ t : UInt8, data[pos]? = some t ∧ t.toNat = j) ∧ data.drop (pos + 1) = b ++ (rawElements l ++ rest) ∧
      data.drop (pos + 1 + b.length) = rawElements l ++ rest := by
  have e : data.drop pos = UInt8.ofNat j :: (b ++ (rawElements l ++ rest)) := by rw [hd]; simp [rawElements]
  have e2 : data.drop (pos + 1) = b ++ (rawElements l ++ rest) := by rw [← List.drop_drop, e]; rfl
  refine ⟨⟨UInt8.ofNat j, ?_, ?_⟩, e2, ?_⟩
  · have := congrArg (fun l => l[0]?) e
    simpa using this
  · simp; omega
  · rw [← List.drop_drop, e2, List.drop_left]

theorem forEach_ok (sizes : List Nat) (data rest : Bytes) (l : List (Nat × Bytes)) (hk : KnownTypes sizes l) (fuel pos : Nat)
    (hd : data.drop pos = rawElements l ++ rest) (hfuel : (rawElements l).length ≤ fuel) :
    ∃ r, forEachImpl sizes data fuel pos (pos + (rawElements l).length) = some r ∧
      List.Forall₂ (fun e x => e.1 = x.1 ∧ AtPos data rest e.2 x.2) r l := by
  induction l generalizing fuel pos with
  | nil =>
    refine ⟨[], ?_, .nil⟩
    cases fuel <;> simp [forEachImpl, rawElements]
  | cons x l ih =>
    obtain ⟨j, b⟩ := x
    obtain ⟨hj, hsz⟩ := hk (j, b) (by simp)
    obtain ⟨⟨t, ht, htj⟩, hd1, hd2⟩ := first_element hj hd
    have hlen : (rawElements ((j, b) :: l)).length = 1 + b.length + (rawElements l).length := by simp [rawElements]; omega
    rw [hlen] at hfuel ⊢
    obtain ⟨fuel, rfl⟩ : ∃ k, fuel = k + 1 := ⟨fuel - 1, by omega⟩
    obtain ⟨r, e, hr⟩ := ih (fun e he => hk e (by simp [he])) fuel (pos + 1 + b.length) hd2 (by omega)
    refine ⟨(j, pos + 1) :: r, ?_, .cons ⟨rfl, _, hd1⟩ hr⟩
    unfold forEachImpl
    rw [if_pos (by omega)]
    simp only [ht, htj, getImpl_eq sizes 0 j (by omega), Nat.sub_zero, hsz, Option.bind_eq_bind, Option.bind_some]
    rw [show pos + (1 + b.length + (rawElements l).length) = pos + 1 + b.length + (rawElements l).length by omega, e]
    rfl

theorem iterLoop_ok (sizes : List Nat) (data rest : Bytes) (wanted : Nat) (l : List (Nat × Bytes)) (hk : KnownTypes sizes l)
    (fuel : Nat) (it : CppIter) (hd : data.drop it.current = rawElements l ++ rest) (hstop : it.stop = it.current + (rawElements l).length)
    (hfuel : (rawElements l).length ≤ fuel) :
    ∃ it', iterLoop sizes data wanted fuel it = some it' ∧ it'.stop = it.stop ∧
      ((it'.valid = false ∧ l.filter (·.1 == wanted) = []) ∨
       (∃ b post, it'.valid = true ∧ l.filter (·.1 == wanted) = (wanted, b) :: post.filter (·.1 == wanted) ∧
        KnownTypes sizes post ∧ sizes[wanted]? = some b.length ∧
        data.drop it'.current = rawElements post ++ rest ∧ it'.stop = it'.current + (rawElements post).length ∧
        (rawElements post).length < (rawElements l).length ∧ AtPos data rest (it'.current - b.length) b)) := by
  induction l generalizing fuel it with
  | nil =>
    refine ⟨{ it with valid := false }, ?_, rfl, .inl ⟨rfl, rfl⟩⟩
    have : it.current = it.stop := by simp [hstop, rawElements]
    cases fuel <;> simp [iterLoop, this]
  | cons x l ih =>
    obtain ⟨j, b⟩ := x
    obtain ⟨hj, hsz⟩ := hk (j, b) (by simp)
    obtain ⟨⟨t, ht, htj⟩, hd1, hd2⟩ := first_element hj hd
    have hlen : (rawElements ((j, b) :: l)).length = 1 + b.length + (rawElements l).length := by simp [rawElements]; omega
    rw [hlen] at hfuel hstop ⊢
    have hk' : KnownTypes sizes l := fun e he => hk e (by simp [he])
    obtain ⟨fuel, rfl⟩ : ∃ k, fuel = k + 1 := ⟨fuel - 1, by omega⟩
    unfold iterLoop
    rw [if_pos (by omega)]
    simp only [ht, htj, getImpl_eq sizes 0 j (by omega), Nat.sub_zero, hsz, Option.bind_eq_bind, Option.bind_some]
    by_cases hw : j = wanted
    · subst hw
      rw [if_pos rfl]
      refine ⟨_, rfl, rfl, .inr ⟨b, l, rfl, by simp, hk', hsz, hd2, ?_, by omega, ?_⟩⟩
      · show it.stop = _
        rw [hstop]; show _ = it.current + 1 + b.length + _; omega
      · refine ⟨rawElements l, ?_⟩
        show data.drop (it.current + 1 + b.length - b.length) = _
        rw [Nat.add_sub_cancel, hd1]
    · rw [if_neg hw]
      obtain ⟨it', e, h1, h2⟩ := ih hk' fuel { it with current := it.current + 1 + b.length } hd2
        (by show it.stop = _; rw [hstop]; show _ = it.current + 1 + b.length + _; omega) (by omega)
      refine ⟨it', e, h1, ?_⟩
      have hfil : ((j, b) :: l).filter (·.1 == wanted) = l.filter (·.1 == wanted) := by simp [hw]
      rw [hfil]
      rcases h2 with h2 | ⟨c, post, h2⟩
      · exact .inl h2
      · refine .inr ⟨c, post, h2.1, h2.2.1, h2.2.2.1, h2.2.2.2.1, h2.2.2.2.2.1, h2.2.2.2.2.2.1, ?_, h2.2.2.2.2.2.2.2⟩
        have := h2.2.2.2.2.2.2.1; omega

theorem iterAll_ok (sizes : List Nat) (data rest : Bytes) (wanted : Nat) (fuel : Nat) : ∀ (l : List (Nat × Bytes)) (it : CppIter) (b : Bytes),
    KnownTypes sizes l → it.valid = true → sizes[wanted]? = some b.length → AtPos data rest (it.current - b.length) b →
    data.drop it.current = rawElements l ++ rest → it.stop = it.current + (rawElements l).length → (rawElements l).length < fuel →
    ∃ r, iterAll sizes data wanted (sizes.getD wanted 0) fuel it = some r ∧
      List.Forall₂ (fun p x => AtPos data rest p x.2) r ((wanted, b) :: l.filter (·.1 == wanted)) := by
  induction fuel with
  | zero => intro l it b _ _ _ _ _ _ h; omega
  | succ fuel ih =>
    intro l it b hk hv hsz hat hd hstop hfuel
    obtain ⟨it', e, -, h⟩ := iterLoop_ok sizes data rest wanted l hk (it.stop - it.current) it hd hstop (by omega)
    have hget : sizes.getD wanted 0 = b.length := by rw [List.getD_eq_getElem?_getD, hsz]; rfl
    unfold iterAll
    rw [if_pos hv, e]
    simp only [Option.bind_eq_bind, Option.bind_some]
    rcases h with ⟨hv', hf⟩ | ⟨c, post, h1, h2, h3, h4, h5, h6, h7, h8⟩
    · have : iterAll sizes data wanted (sizes.getD wanted 0) fuel it' = some [] := by cases fuel <;> simp [iterAll, hv']
      rw [this, hf, hget]
      exact ⟨_, rfl, .cons hat .nil⟩
    · obtain ⟨r, e2, hr⟩ := ih post it' c h3 h1 h4 h8 h5 h6 (by omega)
      rw [e2, hget, h2]
      exact ⟨_, rfl, .cons hat hr⟩

/-- Iterating over the elements of one type visits exactly them, in order. -/
theorem iterator_ok (sizes : List Nat) (data rest : Bytes) (wanted : Nat) (l : List (Nat × Bytes)) (hk : KnownTypes sizes l) (pos : Nat)
    (hd : data.drop pos = rawElements l ++ rest) :
    ∃ it r, iterNew sizes data wanted pos (pos + (rawElements l).length) = some it ∧
      iterAll sizes data wanted (sizes.getD wanted 0) (pos + (rawElements l).length - pos) it = some r ∧
      List.Forall₂ (fun p x => AtPos data rest p x.2) r (l.filter (·.1 == wanted)) := by
  unfold iterNew
  by_cases h0 : (rawElements l).length = 0
  · rw [if_neg (by omega)]
    have hl : l = [] := by
      cases l with
      | nil => rfl
      | cons x l => simp [rawElements] at h0
    subst hl
    refine ⟨_, [], rfl, ?_, .nil⟩
    rw [h0]; simp [iterAll]
  · rw [if_pos (by omega), Nat.add_sub_cancel_left]
    obtain ⟨it', e, -, h⟩ := iterLoop_ok sizes data rest wanted l hk (rawElements l).length ⟨pos, pos + (rawElements l).length, false⟩ hd rfl
      (le_refl _)
    refine ⟨it', ?_⟩
    rcases h with ⟨hv', hf⟩ | ⟨c, post, h1, h2, h3, h4, h5, h6, h7, h8⟩
    · have : iterAll sizes data wanted (sizes.getD wanted 0) (rawElements l).length it' = some [] := by
        cases (rawElements l).length <;> simp [iterAll, hv']
      rw [hf]
      exact ⟨[], e, this, .nil⟩
    · obtain ⟨r, e2, hr⟩ := iterAll_ok sizes data rest wanted (rawElements l).length post it' c h3 h1 h4 h8 h5 h6 h7
      rw [h2]
      exact ⟨r, e, e2, hr⟩

/-- What the elements of a bucket are in the data. -/
def bucketElements (decls : List (String × List FieldDecl)) (b : List Obj) : List (Nat × Bytes) :=
  b.map fun o => ((decls.map (·.1)).idxOf o.name, structBytes ((decls.lookup o.name).getD []) o.attributes)

theorem bucketBytes_raw (decls : List (String × List FieldDecl)) (b : List Obj) : bucketBytes decls b = rawElements (bucketElements decls b) := by
  unfold bucketBytes rawElements bucketElements
  rw [List.map_map]; rfl

/-- The sizes of the types of a multivector. -/
def declSizes (decls : List (String × List FieldDecl)) : List Nat := decls.map fun p => ((p.2.map (·.width)).sum + 7) / 8

theorem bucket_known {decls : List (String × List FieldDecl)} (hd : GoodDecls decls) {b : List Obj}
    (hb : ∀ o ∈ b, ∃ fs, (o.name, fs) ∈ decls) : KnownTypes (declSizes decls) (bucketElements decls b) := by
  intro e he
  obtain ⟨o, ho, rfl⟩ := List.mem_map.mp he
  obtain ⟨fs, hm⟩ := hb o ho
  obtain ⟨j, hj⟩ := List.getElem?_of_mem hm
  have hjl := (List.getElem?_eq_some_iff.mp hj).1
  have hc := hd.count
  simp only [idxOf_decl hd.names hj, lookup_of_mem hd.names hm, Option.getD_some, structBytes_length]
  exact ⟨by omega, by simp [declSizes, hj]⟩

/-- The element a callback of `for_each` is called with is this object: the type number is that of its type, and the fields show its
values. -/
def CppShowsObj (ty : String → String → CppType) (decls : List (String × List FieldDecl)) (e : Nat × Bytes) (o : Obj) : Prop :=
  ∃ fs, decls[e.1]? = some (o.name, fs) ∧ CppShows (ty o.name) fs e.2 o.attributes

theorem index_shows (w x : Nat) (hw : 1 ≤ w) (hw' : w ≤ 64) (hx : x < 2 ^ w) (rest : Bytes) (hr : 8 ≤ rest.length) :
    cppRead (.int 64 false) (toLE ((w + 7) / 8) x ++ rest) 0 w = some (x : Int) := by
  have hg : GoodStruct [⟨"value", w, false⟩] := ⟨fun f hf => by simp at hf; subst hf; exact ⟨hw, hw'⟩, by simp⟩
  have := (cpp_shows (ty := fun _ => .int 64 false) hg (by
    intro f hf; simp at hf; subst hf; exact ⟨by simp [CppHolds]; omega, rfl⟩) [("value", (x : Int))] rest hr
      ⟨"value", w, false⟩ (by simp) x (by simp [List.lookup])).1
  rw [indexStruct_bytes w x hx] at this
  simp only at this
  rw [show storedValue w false (x : Int) = x from
    (storedValue_range (by simp [InRange]; exact_mod_cast hx)).mpr (by simp)] at this
  simpa [cppGet, layoutFrom] using this

theorem index_drop {n : Nat} (l : List Nat) (i : Nat) (hi : i < l.length) (rest : Bytes) :
    ∃ tail, ((l.map (toLE n)).flatten ++ rest).drop (n * i) = toLE n l[i] ++ (tail ++ rest) := by
  have hsplit : l = l.take i ++ l[i] :: l.drop (i + 1) := by simp
  have hl : n * i = ((l.take i).map (toLE n)).flatten.length := by
    rw [flatten_length_const _ (toLE_all _), List.length_map, List.length_take, Nat.min_eq_left (by omega)]
  refine ⟨((l.drop (i + 1)).map (toLE n)).flatten, ?_⟩
  have e : (l.map (toLE n)).flatten ++ rest =
      ((l.take i).map (toLE n)).flatten ++ (toLE n l[i] ++ (((l.drop (i + 1)).map (toLE n)).flatten ++ rest)) := by
    conv => lhs; rw [hsplit]
    simp only [List.map_append, List.map_cons, List.flatten_append, List.flatten_cons, List.append_assoc]
  rw [hl, e, List.drop_left]

theorem buckets_drop (decls : List (String × List FieldDecl)) (value : List (List Obj)) (i : Nat) (hi : i < value.length) (rest : Bytes) :
    ∃ tail, (bucketsBytes decls value ++ rest).drop (bucketsBytes decls (value.take i)).length = bucketBytes decls value[i] ++ (tail ++ rest) := by
  have hsplit : value = value.take i ++ value[i] :: value.drop (i + 1) := by simp
  refine ⟨bucketsBytes decls (value.drop (i + 1)), ?_⟩
  have e : bucketsBytes decls value ++ rest = bucketsBytes decls (value.take i) ++ (bucketBytes decls value[i] ++
      (bucketsBytes decls (value.drop (i + 1)) ++ rest)) := by
    conv => lhs; rw [hsplit]
    simp only [bucketsBytes, List.map_append, List.map_cons, List.flatten_append, List.flatten_cons, List.append_assoc]
  rw [e, List.drop_left]

theorem forall₂_imp_mem {α β : Type} {R S : α → β → Prop} {l : List α} {m : List β} (h : ∀ a, ∀ b ∈ m, R a b → S a b)
    (hr : List.Forall₂ R l m) : List.Forall₂ S l m := by
  induction hr with
  | nil => exact .nil
  | cons h1 _ ih => exact .cons (h _ _ (by simp) h1) (ih fun a b hb => h a b (by simp [hb]))

/-- **C79 (multivectors).** The C++ reader opens a multivector with the documented files; it has as many buckets as the multivector;
`for_each` calls the callback for the elements of the bucket, in order, with their types and values; an iterator for one of the types
visits exactly the elements of this type, in order. -/
theorem C79_cpp_multivector (w : Nat) (hw : 1 ≤ w) (hw' : w ≤ 64) (decls : List (String × List FieldDecl)) (hd : GoodDecls decls)
    (ty : String → String → CppType) (ht : ∀ p ∈ decls, CppTypes (ty p.1) p.2) (f : Files) (name schema : String)
    (hs : encodeUtf8 schema ≠ []) (value : List (List Obj)) (hv : ∀ b ∈ value, ∀ o ∈ b, ∃ fs, (o.name, fs) ∈ decls)
    (hsize : (bucketsBytes decls value).length < 2 ^ w) (hsize' : (bucketsBytes decls value).length + 16 < 2 ^ 64)
    (hlen : (w + 7) / 8 * (value.length + 1) + 16 < 2 ^ 64)
    (hf : HasFiles f [(name, frame (bucketsBytes decls value)), (name ++ ".schema", encodeUtf8 schema),
      (name ++ "_index", frame (indexBytes w decls value)), (name ++ "_index.schema", encodeUtf8 ("index(" ++ schema ++ ")"))]) :
    ∃ m, cppOpenMulti f name schema w = some m ∧ m.index.size = value.length ∧
      ∀ i (hi : i < value.length),
        (∃ l, m.forEach w (declSizes decls) i = some l ∧ List.Forall₂ (CppShowsObj ty decls) l value[i]) ∧
        ∀ (j : Nat) n fs, decls[j]? = some (n, fs) → ∃ l, m.iterator w (declSizes decls) j i = some l ∧
          List.Forall₂ (fun mem o => CppShows (ty n) fs mem o.attributes) l (value[i].filter (·.name == n)) := by
  have hil : (indexBytes w decls value).length = (w + 7) / 8 * (value.length + 1) := by
    rw [indexBytes, flatten_length_const _ (toLE_all _)]; simp [indexEntries]
  have hsi : encodeUtf8 ("index(" ++ schema ++ ")") ≠ [] := by
    intro h
    have := congrArg List.length h
    simp [encodeUtf8] at this
  have hdata := readAndCheck_ok (hf (name, _) List.mem_cons_self) (hf (name ++ ".schema", _) (List.mem_cons_of_mem _ List.mem_cons_self)) hs hsize'
  have hidx := readAndCheck_ok (hf (name ++ "_index", _) (List.mem_cons_of_mem _ (List.mem_cons_of_mem _ List.mem_cons_self)))
    (by rw [String.append_assoc]
        exact hf (name ++ "_index.schema", _) (List.mem_cons_of_mem _ (List.mem_cons_of_mem _ (List.mem_cons_of_mem _ List.mem_cons_self)))) hsi (by rw [hil]; exact hlen)
  have hn : 0 < (w + 7) / 8 := by omega
  refine ⟨⟨⟨indexBytes w decls value ++ List.replicate 8 0, value.length⟩, bucketsBytes decls value ++ List.replicate 8 0⟩, ?_, rfl, ?_⟩
  · simp only [cppOpenMulti, cppOpenVector, hidx, hdata, Option.map_some, Option.bind_eq_bind, Option.bind_some, CppView.create, hil,
      viewSize, Nat.mul_div_cancel_left _ hn]
    simp
  intro i hi
  have hent : ∀ k, k ≤ value.length → ∃ tail, (indexBytes w decls value ++ List.replicate 8 0).drop ((w + 7) / 8 * k) =
      toLE ((w + 7) / 8) (bucketsBytes decls (value.take k)).length ++ (tail ++ List.replicate 8 0) := by
    intro k hk
    have hk' : k < (indexEntries decls value).length := by simp [indexEntries]; omega
    obtain ⟨tail, e⟩ := index_drop (n := (w + 7) / 8) (indexEntries decls value) k hk' (List.replicate 8 0)
    refine ⟨tail, ?_⟩
    rw [indexBytes, e]
    congr 2
    simp [indexEntries]
  have hlt : ∀ k, (bucketsBytes decls (value.take k)).length < 2 ^ w := by
    intro k
    refine lt_of_le_of_lt ?_ hsize
    conv => rhs; rw [← List.take_append_drop k value]
    simp only [bucketsBytes, List.map_append, List.flatten_append, List.length_append]
    exact Nat.le_add_right _ _
  have hrange : cppRange ((indexBytes w decls value ++ List.replicate 8 0).drop ((w + 7) / 8 * i)) 0 w ((w + 7) / 8) =
      some (((bucketsBytes decls (value.take i)).length : Int), ((bucketsBytes decls (value.take (i + 1))).length : Int)) := by
    obtain ⟨t1, e1⟩ := hent i (by omega)
    obtain ⟨t2, e2⟩ := hent (i + 1) (by omega)
    unfold cppRange
    rw [List.drop_drop, show (w + 7) / 8 * i + (w + 7) / 8 = (w + 7) / 8 * (i + 1) by rw [Nat.mul_succ], e1, e2,
      index_shows w _ hw hw' (hlt i) _ (by simp), index_shows w _ hw hw' (hlt (i + 1)) _ (by simp)]
    rfl
  obtain ⟨tail, hdrop⟩ := buckets_drop decls value i hi (List.replicate 8 0)
  rw [bucketBytes_raw] at hdrop
  have hnext : (bucketsBytes decls (value.take (i + 1))).length =
      (bucketsBytes decls (value.take i)).length + (rawElements (bucketElements decls value[i])).length := by
    rw [← bucketBytes_raw, List.take_succ_eq_append_getElem hi]
    simp only [bucketsBytes, List.map_append, List.flatten_append, List.length_append, List.map_cons, List.map_nil, List.flatten_cons,
      List.flatten_nil, List.length_nil, Nat.add_zero]
  have hknown := bucket_known hd (hv value[i] (List.getElem_mem hi))
  have hobj : ∀ o ∈ value[i], ∀ (j : Nat) n fs, decls[j]? = some (n, fs) → o.name = n → ∀ p,
      AtPos (bucketsBytes decls value ++ List.replicate 8 0) (tail ++ List.replicate 8 0) p
        (structBytes ((decls.lookup o.name).getD []) o.attributes) →
      CppShows (ty n) fs ((bucketsBytes decls value ++ List.replicate 8 0).drop p) o.attributes := by
    rintro o ho j n fs hj rfl p ⟨r, hr⟩
    have hm := List.mem_of_getElem? hj
    rw [lookup_of_mem hd.names hm, Option.getD_some] at hr
    rw [hr]
    exact cpp_shows (hd.good _ hm) (ht _ hm) _ _ (by simp; omega)
  constructor
  · obtain ⟨r, e, hr⟩ := forEach_ok (declSizes decls) _ (tail ++ List.replicate 8 0) _ hknown
      (rawElements (bucketElements decls value[i])).length _ hdrop (le_refl _)
    refine ⟨r.map fun e => (e.1, (bucketsBytes decls value ++ List.replicate 8 0).drop e.2), ?_, ?_⟩
    · simp only [CppMulti.forEach, CppView.at, hrange, Option.bind_eq_bind, Option.bind_some, Int.toNat_natCast, hnext,
        Nat.add_sub_cancel_left, e]
    · rw [List.forall₂_map_left_iff]
      unfold bucketElements at hr
      rw [List.forall₂_map_right_iff] at hr
      refine forall₂_imp_mem ?_ hr
      rintro ⟨j, p⟩ o ho ⟨h1, h2⟩
      simp only at h1 h2
      obtain ⟨fs, hm⟩ := hv value[i] (List.getElem_mem hi) o ho
      obtain ⟨k, hk⟩ := List.getElem?_of_mem hm
      rw [idxOf_decl hd.names hk] at h1
      subst h1
      exact ⟨fs, hk, hobj o ho j o.name fs hk rfl p h2⟩
  · intro j n fs hj
    obtain ⟨it, r, e1, e2, hr⟩ := iterator_ok (declSizes decls) _ (tail ++ List.replicate 8 0) j _ hknown _ hdrop
    refine ⟨r.map ((bucketsBytes decls value ++ List.replicate 8 0).drop ·), ?_, ?_⟩
    · simp only [CppMulti.iterator, CppView.at, hrange, Option.bind_eq_bind, Option.bind_some, Int.toNat_natCast, hnext, e1, e2]
    · rw [List.forall₂_map_left_iff]
      have hfil : (bucketElements decls value[i]).filter (·.1 == j) = bucketElements decls (value[i].filter (·.name == n)) := by
        unfold bucketElements
        rw [List.filter_map]
        congr 1
        apply List.filter_congr
        intro o ho
        obtain ⟨fs', hm⟩ := hv value[i] (List.getElem_mem hi) o ho
        obtain ⟨k, hk⟩ := List.getElem?_of_mem hm
        simp only [Function.comp_apply, idxOf_decl hd.names hk]
        by_cases hkj : k = j
        · subst hkj
          rw [hj] at hk
          have : n = o.name := by cases hk; rfl
          simp [this]
        · have : o.name ≠ n := by
            intro h
            subst h
            apply hkj
            rw [← idxOf_decl hd.names hk, idxOf_decl hd.names hj]
          simp [hkj, this]
      rw [hfil] at hr
      unfold bucketElements at hr
      rw [List.forall₂_map_right_iff] at hr
      refine forall₂_imp_mem ?_ hr
      intro p o ho h
      simp only [List.mem_filter, beq_iff_eq] at ho
      exact hobj o ho.1 j n fs hj ho.2 p h

end Props
