import Verif.Props.Native.CppVector
import Verif.Model.Native.RustStorage

/-!
# C81: the Rust writers produce the documented files
-/

namespace Props
open Py Spec Model Model.Native _root_.Native

/-! ## Streams -/

/-- A fresh integer of `w` bits at the beginning of a zeroed buffer of the right size. -/
theorem rustWrite_fresh (w x : Nat) (hw : 1 ≤ w) (hw' : w ≤ 64) (hx : x < 2 ^ w) :
    rustWrite (.int 64 false) (List.replicate ((w + 7) / 8) 0) 0 w (x : Int) = some (toLE ((w + 7) / 8) x) := by
  have hx' : (x : Int) < 2 ^ w := by exact_mod_cast hx
  obtain ⟨d', e, hl, hb⟩ := C73_rust_write (.int 64 false) (List.replicate ((w + 7) / 8) 0) 0 w (x : Int) hw hw' (Or.inl (by omega))
    (by simp only [RustType.isSigned, InRange]; exact ⟨by omega, hx'⟩) (by simp; omega)
  rw [e, Option.some.injEq]
  apply bytes_ext
  · rw [hl, Py.toLE_length]; simp
  intro j hj
  rw [hb, bitAt_toLE]
  simp only [List.length_replicate] at hl
  rw [hl] at hj
  by_cases h : j < w
  · simp [h, digit_natCast, hj]
  · have : x.testBit j = false := Nat.testBit_lt_two_pow (lt_of_lt_of_le hx (Nat.pow_le_pow_right (by omega) (by omega)))
    simp [h, this, bitAt]

theorem rustStreamSize_ok (s : OStream) (v : Nat) (hv : v < 2 ^ 64) : rustStreamSize s v = some (s.write (toLE 8 v)) := by
  unfold rustStreamSize
  have := rustWrite_fresh 64 v (by omega) (by omega) hv
  rw [show List.replicate 8 (0 : UInt8) = List.replicate ((64 + 7) / 8) 0 from rfl, this]; rfl

/-- A resource handle to which the bytes `p` have been written. -/
def RHandleOk (h : RHandle) (p : Bytes) : Prop := HandleOk ⟨h.stream, h.size⟩ p

theorem rhandle_create : ∃ h, RHandle.create .opened = some h ∧ RHandleOk h [] := by
  refine ⟨_, by simp only [RHandle.create, rustStreamSize_ok _ 0 (by decide), Option.bind_eq_bind, Option.bind_some]; rfl, ?_⟩
  simp [RHandleOk, HandleOk, OStream.write, OStream.opened, toLE_zero]

theorem rhandle_write {h : RHandle} {p : Bytes} (hh : RHandleOk h p) (b : Bytes) : RHandleOk (h.write b) (p ++ b) := handle_write hh b

theorem rhandle_close {h : RHandle} {p : Bytes} (hh : RHandleOk h p) (hp : p.length < 2 ^ 64) : h.close = some (frame p) := by
  have := handle_close hh hp
  obtain ⟨-, -, h3⟩ := hh
  simp only at h3
  unfold RHandle.close
  unfold Handle.close at this
  simp only [h3, streamSize_ok _ p.length hp, rustStreamSize_ok _ p.length hp, Option.bind_eq_bind, Option.bind_some] at this ⊢
  exact this

/-! ## External vectors -/

theorem rust_viewBytes (ov : Bool) (pend : List Bytes) (z : Bytes) :
    rustViewBytes ov (pend ++ [z]) = some (if ov = true ∧ pend = [] then z else pend.flatten) := by
  unfold rustViewBytes rustAsBytes rustViewLen
  cases ov with
  | false => simp
  | true =>
    cases pend with
    | nil => simp
    | cons a l => simp

/-- An external vector with `k` elements, with the bytes `p` (some of them written, some of them in memory). -/
def RExtOk (n : Nat) (v : RExt) (p : Bytes) (k : Nat) : Prop :=
  ∃ written pend, v.data = pend ++ [List.replicate n 0] ∧ RHandleOk v.handle written ∧ p = written ++ pend.flatten ∧ v.len = k ∧
    (k = 0 → written = [] ∧ pend = []) ∧ ∀ e ∈ pend, e.length = n

theorem rext_create {h : RHandle} (n : Nat) (hh : RHandleOk h []) : RExtOk n (RExt.create n h) [] 0 :=
  ⟨[], [], rfl, hh, rfl, rfl, fun _ => ⟨rfl, rfl⟩, by simp⟩

theorem rext_add {v : RExt} {p b : Bytes} {k : Nat} (limit : Nat) (ov : Bool) (n : Nat) (hn : n ≤ limit) {f : Bytes → Option Bytes}
    (hv : RExtOk n v p k) (hf : f (List.replicate n 0) = some b) (hb : b.length = n) :
    ∃ v', v.add limit ov n f = some v' ∧ RExtOk n v' (p ++ b) (k + 1) := by
  have key : ∀ v : RExt, RExtOk n v p k → ∃ d, rustVecGrow n f v.data = some d ∧ RExtOk n ⟨d, v.len + 1, v.handle⟩ (p ++ b) (k + 1) := by
    rintro v ⟨w, q, h1, h2, h3, h4, h5, h6⟩
    refine ⟨q ++ [b] ++ [List.replicate n 0], ?_, w, q ++ [b], rfl, h2, by simp [h3], by simp [h4], by simp, ?_⟩
    · unfold rustVecGrow rustMutate
      have e : (q ++ [List.replicate n (0 : UInt8)]).length - 1 = q.length := by simp
      have e2 : ((q ++ [List.replicate n (0 : UInt8)]) ++ [List.replicate n 0])[q.length]? = some (List.replicate n 0) := by simp
      rw [h1, e, e2]
      simp only [Option.bind_eq_bind, Option.bind_some, hf, Option.some.injEq]
      simp
    · intro e he
      rcases List.mem_append.mp he with he | he
      · exact h6 e he
      · simp at he; rw [he, hb]
  obtain ⟨w, q, h1, h2, h3, h4, h5, h6⟩ := hv
  unfold RExt.add
  rw [h1, rust_viewBytes]
  simp only [Option.bind_eq_bind, Option.bind_some]
  by_cases hl : (if ov = true ∧ q = [] then List.replicate n (0 : UInt8) else q.flatten).length > limit
  · rw [if_pos hl]
    have hne : ¬ (ov = true ∧ q = []) := by
      intro hc
      rw [if_pos hc] at hl
      simp at hl; omega
    have hk : k ≠ 0 := by
      rintro rfl
      rw [if_neg hne, (h5 rfl).2] at hl
      simp at hl
    obtain ⟨d, e, h⟩ := key ⟨[List.replicate n 0], v.len, v.handle.write q.flatten⟩
      ⟨p, [], rfl, by rw [h3]; exact rhandle_write h2 _, by simp, h4, fun h => absurd h hk, by simp⟩
    unfold RExt.flush
    rw [h1, rust_viewBytes, if_neg hne]
    simp only [Option.bind_eq_bind, Option.bind_some]
    simp only at e
    rw [e]
    exact ⟨_, rfl, h⟩
  · rw [if_neg hl]
    obtain ⟨d, e, h⟩ := key v ⟨w, q, h1, h2, h3, h4, h5, h6⟩
    simp only [Option.bind_some, e]
    exact ⟨_, rfl, h⟩

theorem rext_addAll (limit : Nat) (ov : Bool) (n : Nat) (hn : n ≤ limit) {α} (l : List α) (f : α → Bytes → Option Bytes) (b : α → Bytes)
    (hf : ∀ a ∈ l, f a (List.replicate n 0) = some (b a)) (hb : ∀ a ∈ l, (b a).length = n) (v : RExt) (p : Bytes) (k : Nat)
    (hv : RExtOk n v p k) :
    ∃ v', v.addAll limit ov n (l.map f) = some v' ∧ RExtOk n v' (p ++ (l.map b).flatten) (k + l.length) := by
  induction l generalizing v p k with
  | nil => exact ⟨v, rfl, by simpa using hv⟩
  | cons a l ih =>
    obtain ⟨v1, e1, h1⟩ := rext_add limit ov n hn hv (hf a (by simp)) (hb a (by simp))
    obtain ⟨v2, e2, h2⟩ := ih (fun x hx => hf x (by simp [hx])) (fun x hx => hb x (by simp [hx])) v1 _ _ h1
    refine ⟨v2, ?_, ?_⟩
    · simp only [List.map_cons, RExt.addAll, e1, Option.bind_eq_bind, Option.bind_some, e2]
    · simpa [Nat.add_assoc, Nat.add_comm 1] using h2

theorem rext_close {v : RExt} {p : Bytes} {k : Nat} {ov : Bool} {n : Nat} (hv : RExtOk n v p k) (hp : p.length < 2 ^ 64)
    (hn : n < 2 ^ 64) :
    v.close ov n = some (frame (if ov = true ∧ k = 0 then List.replicate n 0 else p)) := by
  obtain ⟨w, q, h1, h2, h3, h4, h5, -⟩ := hv
  unfold RExt.close RExt.flush
  rw [h1, rust_viewBytes, h4]
  simp only [Option.bind_eq_bind, Option.bind_some]
  by_cases hk : k = 0
  · obtain ⟨rfl, rfl⟩ := h5 hk
    simp only [hk, or_true, if_true, and_true, Option.bind_some]
    simp only [List.flatten_nil, List.append_nil] at h3
    subst h3
    cases ov with
    | false =>
      simp only [Bool.false_eq_true, if_false]
      exact rhandle_close (rhandle_write h2 _) (by simp)
    | true =>
      simp only [if_true]
      exact rhandle_close (rhandle_write h2 _) (by simpa using hn)
  · simp only [hk, or_false, and_false, if_false]
    by_cases hq : q = []
    · subst hq
      simp only [List.flatten_nil, List.append_nil] at h3
      subst h3
      simp
      exact rhandle_close h2 hp
    · have : (q ++ [List.replicate n (0 : UInt8)]).length - 1 > 0 := by
        cases q with
        | nil => exact absurd rfl hq
        | cons a l => simp
      rw [if_pos this, if_neg (by simp [hq])]
      rw [h3] at hp ⊢
      exact rhandle_close (rhandle_write h2 _) hp

/-! ## Structures -/

/-- A call of a setter of a Rust structure with a value in the range of the field (not -1 to a signed one-bit field). -/
def RustCall (ty : String → RustType) (fs : List FieldDecl) (c : String × Int) : Prop :=
  ∃ f ∈ fs, f.name = c.1 ∧ InRange f.width (ty f.name).isSigned c.2 ∧ (f.width = 1 → c.2 ≠ -1)

/-- The structures the Rust runtime handles (finding N2): no field spans nine bytes, except in the first byte. -/
def RustStruct (fs : List FieldDecl) : Prop := ∀ (i : Nat) f, fs[i]? = some f → RustPortable (bitOffset fs i) f.width

theorem rustAssign_ok {ty : String → RustType} {fs : List FieldDecl} (hg : GoodStruct fs) (hr : RustStruct fs) (calls : List (String × Int))
    (hc : ∀ c ∈ calls, RustCall ty fs c) (d : Dict) :
    rustAssign ty fs calls (structBytes fs d) = some (structBytes fs (calls.reverse ++ d)) := by
  have := assignAll_struct (fun n => rustWrite (ty n)) hg.widths hg.names (fun f v => InRange f.width (ty f.name).isSigned v) 0 (by
      intro i f v buf hi hs hl
      have hf := hg.widths f (List.mem_of_getElem? hi)
      have := bitOffset_fits hi
      exact C73_rust_write (ty f.name) buf (bitOffset fs i) f.width v hf.1 hf.2 (hr i f hi) hs (by omega)) calls (by
      intro c h
      obtain ⟨f, hf, hn, hs, h1⟩ := hc c h
      refine ⟨f, hf, hn, hs, fun hw => ?_⟩
      have h3 := h1 hw
      rw [hw] at hs
      cases hsg : (ty f.name).isSigned <;> simp [InRange, hsg] at hs <;> omega) d [] (by simp)
  simpa [rustAssign] using this

/-- A new structure after some calls of setters. -/
theorem rustAssign_new {ty : String → RustType} {fs : List FieldDecl} (hg : GoodStruct fs) (hr : RustStruct fs) (calls : List (String × Int))
    (hc : ∀ c ∈ calls, RustCall ty fs c) :
    rustAssign ty fs calls (List.replicate (((fs.map (·.width)).sum + 7) / 8) 0) = some (structBytes fs (finalValues fs calls)) := by
  have := rustAssign_ok hg hr calls hc []
  rw [structBytes_nil] at this
  rw [this, finalValues_bytes hg.names, List.append_nil]

theorem structBytes_none {fs : List FieldDecl} (hn : (fs.map (·.name)).Nodup) :
    structBytes fs (finalValues fs []) = List.replicate (((fs.map (·.width)).sum + 7) / 8) 0 := by
  rw [finalValues_bytes hn]; exact structBytes_nil fs

/-! ## C81 -/

/-- A vector as it is stored: a vector of structures with a range has at least one element. -/
def stored (overlapping : Bool) {α} (vals : List (List α)) : List (List α) := if overlapping = true ∧ vals = [] then [[]] else vals

/-- **C81 (incremental vectors).** Start a vector with the Rust builder, grow it by any number of elements, call setters of each new
element in any order and any number of times, close it: whatever the size of the write buffer (`limit`, at least one element), the data
file is the documented file for the values set last, the schema file is the schema, and no other file is touched. An empty vector of
structures with a range is stored as a single zeroed element. -/
theorem C81_rust_vector_files (limit : Nat) (overlapping : Bool) (f : Files) (name schema : String) (ty : String → RustType)
    (fs : List FieldDecl) (hg : GoodStruct fs) (hr : RustStruct fs) (elems : List (List (String × Int)))
    (hc : ∀ calls ∈ elems, ∀ c ∈ calls, RustCall ty fs c) (hlimit : ((fs.map (·.width)).sum + 7) / 8 ≤ limit)
    (hlen : ((fs.map (·.width)).sum + 7) / 8 * (elems.length + 1) < 2 ^ 64) :
    ∃ f', rustExternalVector limit overlapping f name schema (((fs.map (·.width)).sum + 7) / 8) (elems.map (rustAssign ty fs)) = some f' ∧
      NewFiles f f' [(name, frame (vectorBytes fs ((stored overlapping elems).map (finalValues fs)))),
        (name ++ ".schema", encodeUtf8 schema)] := by
  obtain ⟨h, e1, hh⟩ := rhandle_create
  obtain ⟨v, e2, hv⟩ := rext_addAll limit overlapping (((fs.map (·.width)).sum + 7) / 8) hlimit elems (rustAssign ty fs)
    (fun calls => structBytes fs (finalValues fs calls)) (fun calls hcalls => rustAssign_new hg hr calls (hc calls hcalls))
    (fun calls _ => structBytes_length _ _) _ _ _ (rext_create _ hh)
  have hp : [] ++ (elems.map fun calls => structBytes fs (finalValues fs calls)).flatten =
      vectorBytes fs (elems.map (finalValues fs)) := by simp [vectorBytes, Function.comp_def]
  rw [hp, Nat.zero_add] at hv
  rw [Nat.mul_succ] at hlen
  have e3 := rext_close (ov := overlapping) hv (by rw [vectorBytes_length]; simp; omega) (by omega)
  have e4 : (if overlapping = true ∧ elems.length = 0 then List.replicate (((fs.map (·.width)).sum + 7) / 8) 0
      else vectorBytes fs (elems.map (finalValues fs))) = vectorBytes fs ((stored overlapping elems).map (finalValues fs)) := by
    unfold stored
    by_cases hc : overlapping = true ∧ elems = []
    · obtain ⟨h1, rfl⟩ := hc
      simp [h1, vectorBytes, structBytes_none hg.names]
    · rw [if_neg hc, if_neg (by simpa using hc)]
  rw [e4] at e3
  refine ⟨_, by simp only [rustExternalVector, e1, e2, Option.bind_eq_bind, Option.bind_some, e3], new_two⟩

/-- **C81 (`set_...`).** -/
theorem C81_rust_set_files (f : Files) (name schema : String) (data : Bytes) (hlen : data.length < 2 ^ 64) :
    ∃ f', rustSet f name schema data = some f' ∧ NewFiles f f' [(name, frame data), (name ++ ".schema", encodeUtf8 schema)] := by
  obtain ⟨f', e, hn⟩ := C78_cpp_set_files f name schema data hlen
  refine ⟨f', ?_, hn⟩
  rw [← e]
  simp only [cppSet, rustSet, streamSize_ok _ _ hlen, rustStreamSize_ok _ _ hlen]
  rfl

/-- **C81 (signature).** A new archive in a directory without a signature file: the signature is an empty resource with the schema of
the archive. In a directory with a signature file nothing is created. -/
theorem C81_rust_create_archive (f : Files) (name schema : String) :
    (f (name ++ ".archive") ≠ none → rustCreateArchive f name schema = none) ∧
    (f (name ++ ".archive") = none → ∃ f', rustCreateArchive f name schema = some f' ∧
      NewFiles f f' [(name ++ ".archive", frame []), (name ++ ".archive" ++ ".schema", encodeUtf8 schema)]) := by
  constructor
  · intro h
    unfold rustCreateArchive
    rw [if_pos (by cases e : f (name ++ ".archive") with
      | none => exact absurd e h
      | some b => rfl)]
  · intro h
    unfold rustCreateArchive
    rw [if_neg (by simp [h])]
    exact C81_rust_set_files f _ schema [] (by decide)

/-! ## Vectors in memory -/

/-- What an operation should do to the elements of a vector; an element is the list of calls of its setters. -/
def rustVectorStep (vals : List (List (String × Int))) : RVectorOp → List (List (String × Int))
  | .grow calls => vals ++ [calls]
  | .mutate i calls => vals.modify i (· ++ calls)
  | .clear => []

/-- The operations are legal on a vector with `k` elements: only existing elements are changed, and only good calls are done. -/
def RustLegal (ok : List (String × Int) → Prop) : Nat → List RVectorOp → Prop
  | _, [] => True
  | k, .grow calls :: ops => ok calls ∧ RustLegal ok (k + 1) ops
  | k, .mutate i calls :: ops => i < k ∧ ok calls ∧ RustLegal ok k ops
  | _, .clear :: ops => RustLegal ok 0 ops

/-- The elements in memory of a vector with these values; the last one is the spare one. -/
def RVectorOk (fs : List FieldDecl) (data : List Bytes) (vals : List (List (String × Int))) : Prop :=
  data = vals.map (fun c => structBytes fs c.reverse) ++ [List.replicate (((fs.map (·.width)).sum + 7) / 8) 0]

theorem rust_vector_op {ty : String → RustType} {fs : List FieldDecl} (hg : GoodStruct fs) (hr : RustStruct fs) (ov : Bool)
    (ops : List RVectorOp) (data : List Bytes) (vals : List (List (String × Int))) (hv : RVectorOk fs data vals)
    (hl : RustLegal (fun calls => ∀ c ∈ calls, RustCall ty fs c) vals.length ops) :
    ∃ d, rustVectorOps ov (((fs.map (·.width)).sum + 7) / 8) (rustAssign ty fs) data ops = some d ∧
      RVectorOk fs d (ops.foldl rustVectorStep vals) := by
  induction ops generalizing data vals with
  | nil => exact ⟨data, rfl, hv⟩
  | cons op ops ih =>
    have step : ∃ d, rustVectorOp ov (((fs.map (·.width)).sum + 7) / 8) (rustAssign ty fs) data op = some d ∧
        RVectorOk fs d (rustVectorStep vals op) ∧ RustLegal (fun calls => ∀ c ∈ calls, RustCall ty fs c) (rustVectorStep vals op).length ops := by
      cases op with
      | grow calls =>
        obtain ⟨h1, h2⟩ := hl
        refine ⟨vals.map (fun c => structBytes fs c.reverse) ++ [structBytes fs calls.reverse] ++ [List.replicate (((fs.map (·.width)).sum + 7) / 8) 0], ?_, ?_, ?_⟩
        · have e1 : data.length - 1 = vals.length := by rw [hv]; simp
          have e2 : (data ++ [List.replicate (((fs.map (·.width)).sum + 7) / 8) (0 : UInt8)])[vals.length]? =
              some (List.replicate (((fs.map (·.width)).sum + 7) / 8) 0) := by rw [hv]; simp
          have := rustAssign_ok (ty := ty) hg hr calls h1 []
          rw [structBytes_nil, List.append_nil] at this
          simp only [rustVectorOp, rustVecGrow, rustMutate, e1, e2, Option.bind_eq_bind, Option.bind_some, this, Option.some.injEq]
          rw [hv, List.append_assoc, List.set_append_right _ _ (by simp)]
          simp
        · simp [RVectorOk, rustVectorStep]
        · simpa [rustVectorStep] using h2
      | mutate i calls =>
        obtain ⟨h1, h2, h3⟩ := hl
        refine ⟨(vals.modify i (· ++ calls)).map (fun c => structBytes fs c.reverse) ++ [List.replicate (((fs.map (·.width)).sum + 7) / 8) 0], ?_, rfl, ?_⟩
        · have e2 : data[i]? = some (structBytes fs vals[i].reverse) := by
            rw [hv, List.getElem?_append_left (by simpa using h1)]; simp [h1]
          have := rustAssign_ok (ty := ty) hg hr calls h2 vals[i].reverse
          have hlt : i < data.length - 1 := by rw [hv]; simpa using h1
          simp only [rustVectorOp, hlt, decide_true, Bool.or_true, if_true, rustMutate, e2, Option.bind_eq_bind, Option.bind_some, this,
            Option.some.injEq]
          rw [hv, List.set_append_left _ _ (by simpa using h1)]
          congr 1
          apply List.ext_getElem?
          intro j
          simp only [List.getElem?_set, List.getElem?_map, List.getElem?_modify, List.length_map]
          by_cases hj : i = j
          · subst hj; simp [h1]
          · simp [hj]
        · simpa [rustVectorStep] using h3
      | clear => exact ⟨_, rfl, rfl, hl⟩
    obtain ⟨d, e, h1, h2⟩ := step
    obtain ⟨d', e', h'⟩ := ih d _ h1 h2
    exact ⟨d', by simp only [rustVectorOps, e, Option.bind_eq_bind, Option.bind_some, e'], h'⟩

/-- **C81 (vectors in memory).** A `Vector` of some length, any number of legal operations, then `as_view().as_bytes()` (which is what
`set_...` stores): the bytes are those of the documented vector with the values the operations leave. -/
theorem C81_rust_vector (ty : String → RustType) (fs : List FieldDecl) (hg : GoodStruct fs) (hr : RustStruct fs) (overlapping : Bool)
    (len : Nat) (ops : List RVectorOp) (hl : RustLegal (fun calls => ∀ c ∈ calls, RustCall ty fs c) len ops) :
    ∃ d, rustVectorOps overlapping (((fs.map (·.width)).sum + 7) / 8) (rustAssign ty fs)
        (rustVecNew (((fs.map (·.width)).sum + 7) / 8) len) ops = some d ∧
      rustViewBytes overlapping d =
        some (vectorBytes fs ((stored overlapping (ops.foldl rustVectorStep (List.replicate len []))).map (finalValues fs))) := by
  have h0 : RVectorOk fs (rustVecNew (((fs.map (·.width)).sum + 7) / 8) len) (List.replicate len []) := by
    simp [RVectorOk, rustVecNew, structBytes_nil, List.replicate_succ']
  obtain ⟨d, e, h⟩ := rust_vector_op hg hr overlapping ops _ _ h0 (by simpa using hl)
  refine ⟨d, e, ?_⟩
  generalize ops.foldl rustVectorStep (List.replicate len []) = vals at *
  rw [h, rust_viewBytes, Option.some.injEq]
  unfold stored
  by_cases hc : overlapping = true ∧ vals = []
  · obtain ⟨h1, rfl⟩ := hc
    simp [h1, vectorBytes, structBytes_none hg.names]
  · rw [if_neg hc, if_neg (by simpa using hc), vectorBytes, List.map_map]
    congr 1
    apply List.map_congr_left
    intro c _
    exact (finalValues_bytes hg.names c).symm

/-- Structures with a range: `v[v.len()]` is accepted and changes the spare element, which is then neither in the view nor zero: the
next `grow` returns an element that shows the old value. -/
theorem C81_counterexample_spare :
    (rustVectorOps true 1 (rustAssign (fun _ => .int 8 false) [⟨"x", 8, false⟩]) (rustVecNew 1 1)
      [.mutate 1 [("x", 7)], .grow []]).bind (rustViewBytes true) = some [0, 7] := by decide +kernel

/-! ## Multivectors -/

/-- A multivector with the data `p` (some of it written, some of it in memory) and `k` index entries `x`. -/
def RMultiOk (w : Nat) (m : RMulti) (p x : Bytes) (k : Nat) : Prop :=
  RExtOk ((w + 7) / 8) m.index x k ∧ ∃ written, RHandleOk m.handle written ∧ p = written ++ m.data ∧ m.flushed = written.length

theorem rmulti_create {w : Nat} {v : RExt} {h : RHandle} (hv : RExtOk ((w + 7) / 8) v [] 0) (hh : RHandleOk h []) :
    RMultiOk w (RMulti.create v h) [] [] 0 := ⟨hv, [], hh, rfl, rfl⟩

theorem rmulti_flush {w : Nat} {m : RMulti} {p x : Bytes} {k : Nat} (hm : RMultiOk w m p x k) :
    RMultiOk w m.flush p x k ∧ RHandleOk m.flush.handle p := by
  obtain ⟨hv, wr, h2, h3, h4⟩ := hm
  have hh : RHandleOk m.flush.handle p := by rw [h3]; exact rhandle_write h2 _
  exact ⟨⟨hv, p, hh, by simp [RMulti.flush], by simp [RMulti.flush, h3, h4]⟩, hh⟩

theorem rmulti_addToIndex {w : Nat} {m : RMulti} {p x : Bytes} {k : Nat} (limit : Nat) (hlim : 8 ≤ limit) (hw : 1 ≤ w) (hw' : w ≤ 64)
    (hm : RMultiOk w m p x k) (hp : p.length < 2 ^ w) :
    ∃ m', m.addToIndex limit w = some m' ∧ RMultiOk w m' p (x ++ toLE ((w + 7) / 8) p.length) (k + 1) := by
  obtain ⟨hv, wr, h2, h3, h4⟩ := hm
  have e : m.flushed + m.data.length = p.length := by rw [h3, h4]; simp
  obtain ⟨v', e1, hv'⟩ := rext_add (b := toLE ((w + 7) / 8) p.length) limit true ((w + 7) / 8) (by omega)
    (f := fun d => rustWrite (.int 64 false) d 0 w ((p.length : Nat) : Int)) hv (rustWrite_fresh w p.length hw hw' hp) (Py.toLE_length _ _)
  refine ⟨{ m with index := v' }, ?_, hv', wr, h2, h3, h4⟩
  unfold RMulti.addToIndex
  rw [e, e1]; rfl

theorem rmulti_grow {w : Nat} {m : RMulti} {p x : Bytes} {k : Nat} (limit : Nat) (hlim : 8 ≤ limit) (hw : 1 ≤ w) (hw' : w ≤ 64)
    (hm : RMultiOk w m p x k) (hp : p.length < 2 ^ w) :
    ∃ m', m.grow limit w = some m' ∧ RMultiOk w m' p (x ++ toLE ((w + 7) / 8) p.length) (k + 1) := by
  unfold RMulti.grow
  split
  · exact rmulti_addToIndex limit hlim hw hw' (rmulti_flush hm).1 hp
  · exact rmulti_addToIndex limit hlim hw hw' hm hp

theorem rmulti_add {w : Nat} {m : RMulti} {p x b : Bytes} {k : Nat} (j n : Nat) {f : Bytes → Option Bytes} (hm : RMultiOk w m p x k)
    (hf : f (List.replicate n 0) = some b) :
    ∃ m', m.add j n f = some m' ∧ RMultiOk w m' (p ++ UInt8.ofNat j :: b) x k := by
  obtain ⟨hv, wr, h2, h3, h4⟩ := hm
  refine ⟨{ m with data := m.data ++ UInt8.ofNat j :: b }, ?_, hv, wr, h2, by simp [h3], h4⟩
  unfold RMulti.add
  have e3 : (m.data ++ List.replicate (1 + n) 0).set m.data.length (UInt8.ofNat j) = (m.data ++ [UInt8.ofNat j]) ++ List.replicate n 0 := by
    rw [show 1 + n = n + 1 by omega, List.replicate_succ, List.set_append_right _ _ (le_refl _)]
    simp
  have e4 : 1 + m.data.length = (m.data ++ [UInt8.ofNat j]).length := by simp; omega
  have e5 : ((m.data ++ [UInt8.ofNat j]) ++ List.replicate n 0).drop ((m.data ++ [UInt8.ofNat j]).length + n) = [] := by simp; omega
  simp only [e3]
  rw [e4, e5, List.drop_left, List.take_left]
  simp [hf]

theorem rmulti_addBucket {α} {w : Nat} (l : List α) (act : α → Nat × Nat × (Bytes → Option Bytes)) (b : α → Bytes)
    (hf : ∀ a ∈ l, (act a).2.2 (List.replicate (act a).2.1 0) = some (b a)) (m : RMulti) (p x : Bytes) (k : Nat)
    (hm : RMultiOk w m p x k) : ∃ m', m.addBucket (l.map act) = some m' ∧
      RMultiOk w m' (p ++ (l.map fun a => UInt8.ofNat (act a).1 :: b a).flatten) x k := by
  induction l generalizing m p with
  | nil => exact ⟨m, rfl, by simpa using hm⟩
  | cons a l ih =>
    obtain ⟨m1, e1, h1⟩ := rmulti_add (act a).1 (act a).2.1 hm (hf a (by simp))
    obtain ⟨m2, e2, h2⟩ := ih (fun x hx => hf x (by simp [hx])) m1 _ h1
    refine ⟨m2, ?_, by simpa using h2⟩
    simp only [List.map_cons, RMulti.addBucket, e1, Option.bind_eq_bind, Option.bind_some, e2]

theorem rmulti_addAll {α} (limit w : Nat) (hlim : 8 ≤ limit) (hw : 1 ≤ w) (hw' : w ≤ 64) (act : α → Nat × Nat × (Bytes → Option Bytes))
    (b : α → Bytes) (ls : List (List α))
    (hf : ∀ l ∈ ls, ∀ a ∈ l, (act a).2.2 (List.replicate (act a).2.1 0) = some (b a)) (m : RMulti) (p x : Bytes) (k : Nat)
    (hm : RMultiOk w m p x k)
    (hlt : (p ++ (ls.map fun l => (l.map fun a => UInt8.ofNat (act a).1 :: b a).flatten).flatten).length < 2 ^ w) :
    ∃ m' m'', m.addAll limit w (ls.map fun l => l.map act) = some m' ∧ m'.addToIndex limit w = some m'' ∧
      RMultiOk w m'' (p ++ (ls.map fun l => (l.map fun a => UInt8.ofNat (act a).1 :: b a).flatten).flatten)
        (x ++ ((offsets ((ls.map fun l => (l.map fun a => UInt8.ofNat (act a).1 :: b a).flatten).map List.length) p.length).map
          (toLE ((w + 7) / 8))).flatten) (k + ls.length + 1) := by
  induction ls generalizing m p x k with
  | nil =>
    obtain ⟨m'', e, h⟩ := rmulti_addToIndex limit hlim hw hw' hm (by simpa using hlt)
    exact ⟨m, m'', rfl, e, by simpa [offsets] using h⟩
  | cons l ls ih =>
    have hlt1 : p.length < 2 ^ w := by
      refine lt_of_le_of_lt ?_ hlt
      rw [List.length_append]; omega
    obtain ⟨m1, e1, h1⟩ := rmulti_grow limit hlim hw hw' hm hlt1
    obtain ⟨m2, e2, h2⟩ := rmulti_addBucket l act b (hf l (by simp)) m1 _ _ _ h1
    obtain ⟨m3, m4, e3, e4, h4⟩ := ih (fun x hx => hf x (by simp [hx])) m2 _ _ _ h2 (by
      rw [List.map_cons, List.flatten_cons, ← List.append_assoc] at hlt; exact hlt)
    refine ⟨m3, m4, ?_, e4, ?_⟩
    · simp only [List.map_cons, RMulti.addAll, e1, e2, Option.bind_eq_bind, Option.bind_some, e3]
    · simp only [List.map_cons, List.flatten_cons, offsets, List.length_cons]
      simp only [List.append_assoc, List.length_append] at h4 ⊢
      rw [show k + (ls.length + 1) + 1 = k + 1 + ls.length + 1 by omega]
      exact h4

/-- **C81 (multivectors).** Build a multivector with the Rust builder, bucket by bucket, with elements of any of the declared types,
calling their setters in any order and any number of times: whatever the size of the write buffers (at least 8 bytes), the data file,
the index file and both schema files are the documented ones, and no other file is touched. -/
theorem C81_rust_multivector_files (limit : Nat) (hlim : 8 ≤ limit) (f : Files) (name schema : String) (w : Nat) (hw : 1 ≤ w) (hw' : w ≤ 64)
    (decls : List (String × List FieldDecl)) (hd : GoodDecls decls) (hr : ∀ p ∈ decls, RustStruct p.2) (ty : String → String → RustType)
    (buckets : List (List (String × List (String × Int))))
    (hc : ∀ b ∈ buckets, ∀ e ∈ b, ∃ fs, (e.1, fs) ∈ decls ∧ ∀ c ∈ e.2, RustCall (ty e.1) fs c)
    (hsize : (bucketsBytes decls (buckets.map fun b => b.map (finalObj decls))).length < 2 ^ w)
    (hlen : (w + 7) / 8 * (buckets.length + 1) < 2 ^ 64) :
    ∃ f', rustMultiVector limit f name schema w (buckets.map fun b => b.map (rustElement decls ty)) = some f' ∧
      NewFiles f f' [(name, frame (bucketsBytes decls (buckets.map fun b => b.map (finalObj decls)))),
        (name ++ ".schema", encodeUtf8 schema),
        (name ++ "_index", frame (indexBytes w decls (buckets.map fun b => b.map (finalObj decls)))),
        (name ++ "_index.schema", encodeUtf8 ("index(" ++ schema ++ ")"))] := by
  obtain ⟨h, e1, hh⟩ := rhandle_create
  have hb' : (buckets.map fun b => (b.map fun e => UInt8.ofNat (rustElement decls ty e).1 ::
      structBytes ((decls.lookup e.1).getD []) (finalValues ((decls.lookup e.1).getD []) e.2)).flatten) =
      (buckets.map fun b => b.map (finalObj decls)).map (bucketBytes decls) := by
    rw [List.map_map]
    apply List.map_congr_left
    intro b hb
    simp only [bucketBytes, List.map_map, Function.comp_def, elementBytes, finalObj, rustElement]
  obtain ⟨m, m', e2, e3, hm⟩ := rmulti_addAll limit w hlim hw hw' (rustElement decls ty)
    (fun e => structBytes ((decls.lookup e.1).getD []) (finalValues ((decls.lookup e.1).getD []) e.2)) buckets
    (fun b hb e he => by
      obtain ⟨fs, hm, hcalls⟩ := hc b hb e he
      have hl := lookup_of_mem_nodup hd.names hm
      simp only [rustElement, hl, Option.getD_some]
      exact rustAssign_new (hd.good _ hm) (hr _ hm) e.2 hcalls)
    _ _ _ _ (rmulti_create (rext_create _ hh) hh) (by rw [hb']; simpa [bucketsBytes] using hsize)
  rw [hb', List.nil_append, List.nil_append, List.length_nil, indexEntries_eq] at hm
  obtain ⟨⟨hmv, -⟩, hmh⟩ := rmulti_flush hm
  have e4 := rhandle_close hmh (by
    exact lt_of_lt_of_le hsize (Nat.pow_le_pow_right (by omega) hw'))
  have e5 := rext_close (ov := true) hmv (by
    rw [flatten_length_const _ (toLE_all _)]; simpa [indexEntries] using hlen) (by omega)
  rw [if_neg (by simp)] at e5
  refine ⟨putFile (putFile (writeSchema (writeSchema f (name ++ "_index") ("index(" ++ schema ++ ")")) name schema) name
    (frame (bucketsBytes decls (buckets.map fun b => b.map (finalObj decls))))) (name ++ "_index")
    (frame (indexBytes w decls (buckets.map fun b => b.map (finalObj decls)))), ?_, ?_⟩
  · simp only [rustMultiVector, e1, e2, RMulti.close, e3, Option.bind_eq_bind, Option.bind_some, e4, e5]
    rfl
  exact new_four

end Props
