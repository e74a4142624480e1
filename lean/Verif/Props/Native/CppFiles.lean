import Verif.Lemmas.NativeFiles
import Verif.Model.Native.CppStorage

/-!
# C78: the C++ writers produce the documented files
-/

namespace Props
open Py Spec Model Model.Native _root_.Native

/-! ## Streams -/

theorem cppWrite_size (v : Nat) (hv : v < 2 ^ 64) : cppWrite (.int 64 false) (List.replicate 8 0) 0 64 v = some (toLE 8 v) := by
  have e : (BitVec.ofInt (8 * 8) (v : Int)).toNat = v := by
    rw [BitVec.toNat_ofInt]; simp; omega
  unfold cppWrite
  have hs : storageBytes 0 64 = 8 := by decide
  generalize storageBytes 0 64 = n at hs
  subst hs
  simp only [List.replicate, CppType.stdIsSigned, Bool.false_eq_true, if_false, masked]
  have hl : load [0, 0, 0, 0, 0, 0, 0, 0] (0 / 8) 8 = some (0#(8 * 8)) := by decide
  have hst : ∀ x : BitVec (8 * 8), store [0, 0, 0, 0, 0, 0, 0, 0] (0 / 8) 8 x = some (toLE 8 x.toNat) := by
    intro x; simp [store]
  rw [hl]
  simp only [Option.bind_eq_bind, Option.bind_some, hst]
  simp
  rw [Nat.mod_eq_of_lt (by omega)]

theorem streamSize_ok (s : OStream) (v : Nat) (hv : v < 2 ^ 64) : streamSize s v = some (s.write (toLE 8 v)) := by
  unfold streamSize
  rw [cppWrite_size v hv]; rfl

/-- A resource handle to which the bytes `p` have been written. -/
def HandleOk (h : Handle) (p : Bytes) : Prop :=
  h.stream.bytes = List.replicate 8 0 ++ p ∧ h.stream.pos = 8 + p.length ∧ h.size = p.length

theorem handle_create : ∃ h, Handle.create .opened = some h ∧ HandleOk h [] := by
  refine ⟨_, by simp only [Handle.create, streamSize_ok _ 0 (by decide), Option.bind_eq_bind, Option.bind_some]; rfl, ?_⟩
  simp [HandleOk, OStream.write, OStream.opened, toLE_zero]

theorem handle_write {h : Handle} {p : Bytes} (hh : HandleOk h p) (b : Bytes) : HandleOk (h.write b) (p ++ b) := by
  obtain ⟨h1, h2, h3⟩ := hh
  refine ⟨?_, ?_, ?_⟩
  · simp only [Handle.write, OStream.write, h1, h2]
    rw [List.take_of_length_le (by simp only [List.length_append, List.length_replicate]; omega),
      List.drop_eq_nil_of_le (by simp only [List.length_append, List.length_replicate]; omega)]
    simp only [List.append_assoc, List.append_nil]
  · simp [Handle.write, OStream.write, h2]; omega
  · simp [Handle.write, h3]

theorem handle_close {h : Handle} {p : Bytes} (hh : HandleOk h p) (hp : p.length < 2 ^ 64) : h.close = some (frame p) := by
  obtain ⟨h1, h2, h3⟩ := hh
  unfold Handle.close
  rw [h3]
  simp only [streamSize_ok _ p.length hp, Option.bind_eq_bind, Option.bind_some, Option.some.injEq]
  simp only [OStream.write, OStream.seekp, streamPadding, paddingSize, h1, h2, Py.toLE_length, List.take_zero, List.nil_append,
    Nat.zero_add]
  have t : ∀ n, (List.replicate 8 (0 : UInt8) ++ p).drop (8 + p.length + n) = [] := fun n =>
    List.drop_eq_nil_of_le (by simp only [List.length_append, List.length_replicate]; omega)
  rw [List.take_of_length_le (by simp only [List.length_append, List.length_replicate]; omega), t, List.append_nil, List.append_assoc,
    List.drop_left' (by simp)]
  simp only [frame, List.append_assoc]

/-! ## External vectors -/

/-- An external vector with the elements `p` (some of them written, some of them in memory). -/
def VecOk (v : ExtVec) (p : Bytes) : Prop :=
  ∃ written pend, v.data = pend ++ List.replicate 8 0 ∧ HandleOk v.array written ∧ p = written ++ pend

theorem vec_create {h : Handle} (hh : HandleOk h []) : VecOk (ExtVec.create h) [] := ⟨[], [], by simp [ExtVec.create, paddingSize], hh, rfl⟩

theorem vec_flush {v : ExtVec} {p : Bytes} (hv : VecOk v p) : VecOk v.flush p ∧ v.flush.data = List.replicate 8 0 ∧ v.flush.size = v.size := by
  obtain ⟨w, q, h1, h2, h3⟩ := hv
  refine ⟨⟨p, [], by simp [ExtVec.flush, paddingSize], ?_, by simp⟩, rfl, rfl⟩
  have : v.data.take (v.data.length - paddingSize) = q := by rw [h1]; simp [paddingSize]
  simp only [ExtVec.flush, this]
  rw [h3]; exact handle_write h2 q

theorem vec_add {v : ExtVec} {p b : Bytes} (limit n : Nat) {f : Bytes → Option Bytes} (hv : VecOk v p)
    (hf : f (List.replicate (n + 8) 0) = some (b ++ List.replicate 8 0)) :
    ∃ v', v.add limit n f = some v' ∧ VecOk v' (p ++ b) ∧ v'.size = v.size + 1 := by
  have key : ∀ v : ExtVec, VecOk v p → ∃ d, mutateAt (v.data.length - paddingSize) f (v.data ++ List.replicate n 0) = some d ∧
      VecOk ⟨d, v.array, v.size + 1⟩ (p ++ b) := by
    intro v hv
    obtain ⟨w, q, h1, h2, h3⟩ := hv
    refine ⟨q ++ b ++ List.replicate 8 0, ?_, ⟨w, q ++ b, rfl, h2, by simp [h3]⟩⟩
    have e : v.data.length - paddingSize = q.length := by rw [h1]; simp [paddingSize]
    rw [e, h1]
    unfold mutateAt
    rw [List.append_assoc, List.drop_left, List.take_left, ← List.replicate_add, Nat.add_comm 8 n, hf]
    simp
  unfold ExtVec.add ExtVec.grow
  by_cases hl : v.data.length > limit
  · simp only [hl, if_true]
    obtain ⟨d, e, h⟩ := key v.flush (vec_flush hv).1
    simp only [e, Option.bind_eq_bind, Option.bind_some]
    exact ⟨_, rfl, h, rfl⟩
  · simp only [hl, if_false]
    obtain ⟨d, e, h⟩ := key v hv
    simp only [e, Option.bind_eq_bind, Option.bind_some]
    exact ⟨_, rfl, h, rfl⟩

theorem vec_addAll (limit n : Nat) {α} (l : List α) (f : α → Bytes → Option Bytes) (b : α → Bytes)
    (hf : ∀ a ∈ l, f a (List.replicate (n + 8) 0) = some (b a ++ List.replicate 8 0)) (v : ExtVec) (p : Bytes) (hv : VecOk v p) :
    ∃ v', v.addAll limit n (l.map f) = some v' ∧ VecOk v' (p ++ (l.map b).flatten) ∧ v'.size = v.size + l.length := by
  induction l generalizing v p with
  | nil => exact ⟨v, rfl, by simpa using hv, by simp⟩
  | cons a l ih =>
    obtain ⟨v1, e1, h1, s1⟩ := vec_add limit n hv (hf a (by simp))
    obtain ⟨v2, e2, h2, s2⟩ := ih (fun x hx => hf x (by simp [hx])) v1 _ h1
    refine ⟨v2, ?_, ?_, by simp; omega⟩
    · simp only [List.map_cons, ExtVec.addAll, e1, Option.bind_eq_bind, Option.bind_some, e2]
    · simpa using h2

theorem vec_close {v : ExtVec} {p : Bytes} (hv : VecOk v p) (hp : p.length < 2 ^ 64) : v.close = some (frame p) := by
  obtain ⟨⟨w, q, h1, h2, h3⟩, h4, -⟩ := vec_flush hv
  have hq : q = [] := by
    rw [h4] at h1
    have := congrArg List.length h1
    simp at this
    exact this
  subst hq
  rw [ExtVec.close]
  exact handle_close (by rw [h3, List.append_nil]; exact h2) hp

/-! ## Structures -/

/-- The values of the fields after some assignments: the last one, or 0 if there was none. -/
def finalValues (fs : List FieldDecl) (calls : List (String × Int)) : Dict := fs.map fun f => (f.name, lastValue calls f.name)

theorem image_congr {d e : Dict} {fs : List FieldDecl} (h : ∀ f ∈ fs, (d.lookup f.name).getD 0 = (e.lookup f.name).getD 0) :
    image d fs = image e fs := by
  induction fs with
  | nil => rfl
  | cons f fs ih => simp only [image, h f (by simp), ih fun g hg => h g (by simp [hg])]

theorem finalValues_lookup {fs : List FieldDecl} (hn : (fs.map (·.name)).Nodup) (calls : List (String × Int)) {f : FieldDecl}
    (hf : f ∈ fs) : (finalValues fs calls).lookup f.name = some (lastValue calls f.name) := by
  apply lookup_of_mem_nodup
  · rw [finalValues, List.map_map]; exact hn
  · exact List.mem_map.mpr ⟨f, hf, rfl⟩

theorem finalValues_bytes {fs : List FieldDecl} (hn : (fs.map (·.name)).Nodup) (calls : List (String × Int)) :
    structBytes fs (finalValues fs calls) = structBytes fs calls.reverse := by
  unfold structBytes
  congr 1
  apply image_congr
  intro f hf
  rw [finalValues_lookup hn calls hf]; rfl

theorem finalValues_fits {fs : List FieldDecl} (hn : (fs.map (·.name)).Nodup) (calls : List (String × Int)) :
    DictFits fs (finalValues fs calls) := by
  refine ⟨fun f hf => ⟨_, finalValues_lookup hn calls hf⟩, ?_⟩
  intro p hp
  obtain ⟨f, hf, rfl⟩ := List.mem_map.mp hp
  exact List.mem_map_of_mem hf

/-- An assignment to a member of a C++ structure object with a value in the range of the field (not -1 to a signed one-bit field). -/
def CppCall (ty : String → CppType) (fs : List FieldDecl) (c : String × Int) : Prop :=
  ∃ f ∈ fs, f.name = c.1 ∧ CppStorable (ty f.name) f.width c.2 ∧ (f.width = 1 → c.2 ≠ -1)

theorem cppCall_good {ty : String → CppType} {fs : List FieldDecl} {c : String × Int} (h : CppCall ty fs c) :
    GoodCall fs (fun f v => CppStorable (ty f.name) f.width v) c := by
  obtain ⟨f, hf, hn, hs, h1⟩ := h
  refine ⟨f, hf, hn, hs, fun hw => ?_⟩
  have h2 := hs.1
  have h3 := h1 hw
  rw [hw] at h2
  cases hsg : (ty f.name).isSigned <;> simp [InRange, hsg] at h2 <;> omega

theorem cppAssign_ok {ty : String → CppType} {fs : List FieldDecl} (hg : GoodStruct fs) (calls : List (String × Int))
    (hc : ∀ c ∈ calls, CppCall ty fs c) (d : Dict) (rest : Bytes) (hr : 8 ≤ rest.length) :
    cppAssign ty fs calls (structBytes fs d ++ rest) = some (structBytes fs (calls.reverse ++ d) ++ rest) := by
  refine assignAll_struct _ hg.widths hg.names (fun f v => CppStorable (ty f.name) f.width v) 8 ?_ calls
    (fun c h => cppCall_good (hc c h)) d rest hr
  intro i f v buf hi hs hl
  have hf := hg.widths f (List.mem_of_getElem? hi)
  have := bitOffset_fits hi
  exact C71_cpp_write (ty f.name) buf (bitOffset fs i) f.width v hf.1 hf.2 hs (by omega)

/-- A new object after some assignments. -/
theorem cppAssign_new {ty : String → CppType} {fs : List FieldDecl} (hg : GoodStruct fs) (calls : List (String × Int))
    (hc : ∀ c ∈ calls, CppCall ty fs c) :
    cppAssign ty fs calls (List.replicate (((fs.map (·.width)).sum + 7) / 8 + 8) 0) =
      some (structBytes fs (finalValues fs calls) ++ List.replicate 8 0) := by
  have := cppAssign_ok hg calls hc [] (List.replicate 8 0) (by simp)
  rw [structBytes_nil, ← List.replicate_add] at this
  rw [this, finalValues_bytes hg.names, List.append_nil]

theorem new_two {f : Files} {name schema : String} {b : Bytes} :
    NewFiles f (putFile (writeSchema f name schema) name b) [(name, b), (name ++ ".schema", encodeUtf8 schema)] := by
  intro n
  simp only [putFile, writeSchema, List.lookup]
  by_cases e1 : n = name
  · simp [e1]
  · have b1 : (n == name) = false := by simpa using e1
    by_cases e2 : n = name ++ ".schema"
    · simp [e1, e2]
      have : (name ++ ".schema" == name) = false := by rw [← e2]; exact b1
      simp [this]
    · have b2 : (n == name ++ ".schema") = false := by simpa using e2
      simp [e1, e2, b1, b2]

/-! ## C78 -/

/-- **C78 (incremental vectors).** Start a vector with the C++ builder, grow it by any number of elements, assign to the members of
each new element in any order and any number of times (values in the range of their fields), close it: whatever the size of the
write buffer (`limit`), the data file is the documented file for the values assigned last, the schema file is the schema, and no
other file is touched. -/
theorem C78_cpp_vector_files (limit : Nat) (f : Files) (name schema : String) (ty : String → CppType) (fs : List FieldDecl)
    (hg : GoodStruct fs) (elems : List (List (String × Int))) (hc : ∀ calls ∈ elems, ∀ c ∈ calls, CppCall ty fs c)
    (hlen : ((fs.map (·.width)).sum + 7) / 8 * elems.length < 2 ^ 64) :
    ∃ f', cppExternalVector limit f name schema (((fs.map (·.width)).sum + 7) / 8) (elems.map (cppAssign ty fs)) = some f' ∧
      NewFiles f f' [(name, frame (vectorBytes fs (elems.map (finalValues fs)))), (name ++ ".schema", encodeUtf8 schema)] := by
  obtain ⟨h, e1, hh⟩ := handle_create
  obtain ⟨v, e2, hv, -⟩ := vec_addAll limit (((fs.map (·.width)).sum + 7) / 8) elems (cppAssign ty fs)
    (fun calls => structBytes fs (finalValues fs calls)) (fun calls hcalls => cppAssign_new hg calls (hc calls hcalls))
    _ _ (vec_create hh)
  have hp : [] ++ (elems.map fun calls => structBytes fs (finalValues fs calls)).flatten =
      vectorBytes fs (elems.map (finalValues fs)) := by simp [vectorBytes, Function.comp_def]
  rw [hp] at hv
  have e3 := vec_close hv (by rw [vectorBytes_length]; simpa using hlen)
  refine ⟨_, ?_, new_two⟩
  simp only [cppExternalVector, e1, e2, e3, Option.bind_eq_bind, Option.bind_some]

/-! ## Multivectors -/

/-- A multivector with the data `p` (some of it written, some of it in memory) and the index entries `x`. -/
def MultiOk (m : MultiVec) (p x : Bytes) : Prop :=
  VecOk m.index x ∧ ∃ written pend, m.data = pend ++ List.replicate 8 0 ∧ HandleOk m.handle written ∧ p = written ++ pend ∧
    m.flushed = written.length

theorem multi_create {v : ExtVec} {h : Handle} (hv : VecOk v []) (hh : HandleOk h []) : MultiOk (MultiVec.create v h) [] [] :=
  ⟨hv, [], [], by simp [MultiVec.create, paddingSize], hh, rfl, rfl⟩

theorem multi_flush {m : MultiVec} {p x : Bytes} (hm : MultiOk m p x) : MultiOk m.flush p x ∧ HandleOk m.flush.handle p := by
  obtain ⟨hv, w, q, h1, h2, h3, h4⟩ := hm
  have e : m.data.take (m.data.length - paddingSize) = q := by rw [h1]; simp [paddingSize]
  have e' : m.data.length - paddingSize = q.length := by rw [h1]; simp [paddingSize]
  have hh : HandleOk m.flush.handle p := by
    simp only [MultiVec.flush, e]
    rw [h3]; exact handle_write h2 q
  refine ⟨⟨hv, p, [], by simp [MultiVec.flush, paddingSize], hh, by simp, ?_⟩, hh⟩
  simp only [MultiVec.flush, e', h3, h4, List.length_append]

theorem indexStruct_bytes (w x : Nat) (hx : x < 2 ^ w) :
    structBytes [⟨"value", w, false⟩] [("value", (x : Int))] = toLE ((w + 7) / 8) x := by
  have hx' : (x : Int) < 2 ^ w := by exact_mod_cast hx
  simp only [structBytes, List.map_cons, List.map_nil, List.sum_cons, List.sum_nil, Nat.add_zero, image, List.lookup,
    beq_self_eq_true, Option.getD_some, storedNat, Nat.mul_zero]
  congr 1
  split
  · rename_i h; subst h
    have : x = 0 ∨ x = 1 := by omega
    rcases this with rfl | rfl <;> simp
  · rw [show ((x : Int) % 2 ^ w) = x from Int.emod_eq_of_lt (by omega) hx']; simp

/-- A new index element with a value. -/
theorem indexElement (w x : Nat) (hw : 1 ≤ w) (hw' : w ≤ 64) (hx : x < 2 ^ w) :
    cppWrite (.int 64 false) (List.replicate ((w + 7) / 8 + 8) 0) 0 w (x : Int) = some (toLE ((w + 7) / 8) x ++ List.replicate 8 0) := by
  have hg : GoodStruct [⟨"value", w, false⟩] := ⟨fun f hf => by simp at hf; subst hf; exact ⟨hw, hw'⟩, by simp⟩
  have hx' : (x : Int) < 2 ^ w := by exact_mod_cast hx
  have := cppAssign_new (ty := fun _ => .int 64 false) hg [("value", (x : Int))] (fun c hc => by
    simp at hc; subst hc
    refine ⟨⟨"value", w, false⟩, by simp, rfl, ⟨by simp [CppType.isSigned, InRange, hx'], by simp⟩, ?_⟩
    intro _; show (x : Int) ≠ -1; omega)
  have e : structBytes [⟨"value", w, false⟩] (finalValues [⟨"value", w, false⟩] [("value", (x : Int))]) = toLE ((w + 7) / 8) x := by
    rw [← indexStruct_bytes w x hx]
    simp [finalValues, lastValue, List.lookup]
  rw [e] at this
  simp only [List.map_cons, List.map_nil, List.sum_cons, List.sum_nil, Nat.add_zero] at this
  rw [← this]
  simp [cppAssign, layoutFrom, assignAll]

theorem multi_addToIndex {m : MultiVec} {p x : Bytes} (limit w : Nat) (hw : 1 ≤ w) (hw' : w ≤ 64) (hm : MultiOk m p x)
    (hp : p.length < 2 ^ w) : ∃ m', m.addToIndex limit w = some m' ∧ MultiOk m' p (x ++ toLE ((w + 7) / 8) p.length) := by
  obtain ⟨hv, wr, q, h1, h2, h3, h4⟩ := hm
  have e : m.flushed + m.data.length - paddingSize = p.length := by rw [h1, h3, h4]; simp [paddingSize]; omega
  obtain ⟨v', e1, hv', -⟩ := vec_add (b := toLE ((w + 7) / 8) p.length) limit ((w + 7) / 8) (f := fun d => cppWrite (.int 64 false) d 0 w (p.length : Int))
    hv (indexElement w p.length hw hw' hp)
  refine ⟨{ m with index := v' }, ?_, hv', wr, q, h1, h2, h3, h4⟩
  unfold MultiVec.addToIndex
  rw [e, e1]; rfl

theorem multi_grow {m : MultiVec} {p x : Bytes} (limit w : Nat) (hw : 1 ≤ w) (hw' : w ≤ 64) (hm : MultiOk m p x)
    (hp : p.length < 2 ^ w) : ∃ m', m.grow limit w = some m' ∧ MultiOk m' p (x ++ toLE ((w + 7) / 8) p.length) := by
  unfold MultiVec.grow
  split
  · exact multi_addToIndex limit w hw hw' (multi_flush hm).1 hp
  · exact multi_addToIndex limit w hw hw' hm hp

theorem multi_add {m : MultiVec} {p x b : Bytes} (j n : Nat) {f : Bytes → Option Bytes} (hm : MultiOk m p x)
    (hf : f (List.replicate (n + 8) 0) = some (b ++ List.replicate 8 0)) :
    ∃ m', m.add j n f = some m' ∧ MultiOk m' (p ++ UInt8.ofNat j :: b) x := by
  obtain ⟨hv, w, q, h1, h2, h3, h4⟩ := hm
  refine ⟨{ m with data := q ++ UInt8.ofNat j :: b ++ List.replicate 8 0 }, ?_, hv, w, q ++ UInt8.ofNat j :: b, rfl, h2, by simp [h3], h4⟩
  unfold MultiVec.add mutateAt
  have e1 : m.data.length - paddingSize = q.length := by rw [h1]; simp [paddingSize]
  have e2 : 1 + m.data.length - paddingSize = q.length + 1 := by rw [h1]; simp [paddingSize]; omega
  have e3 : (m.data ++ List.replicate (1 + n) 0).set q.length (UInt8.ofNat j) = (q ++ [UInt8.ofNat j]) ++ List.replicate (n + 8) 0 := by
    rw [h1, List.append_assoc, ← List.replicate_add, show 8 + (1 + n) = (n + 8) + 1 by omega, List.replicate_succ,
      List.set_append_right _ _ (le_refl _)]
    simp
  have e4 : q.length + 1 = (q ++ [UInt8.ofNat j]).length := by simp
  simp only [e1, e2, e3]
  rw [e4, List.drop_left, List.take_left, hf]
  simp

theorem multi_addBucket {α} (l : List α) (act : α → Nat × Nat × (Bytes → Option Bytes)) (b : α → Bytes)
    (hf : ∀ a ∈ l, (act a).2.2 (List.replicate ((act a).2.1 + 8) 0) = some (b a ++ List.replicate 8 0)) (m : MultiVec) (p x : Bytes)
    (hm : MultiOk m p x) : ∃ m', m.addBucket (l.map act) = some m' ∧
      MultiOk m' (p ++ (l.map fun a => UInt8.ofNat (act a).1 :: b a).flatten) x := by
  induction l generalizing m p with
  | nil => exact ⟨m, rfl, by simpa using hm⟩
  | cons a l ih =>
    obtain ⟨m1, e1, h1⟩ := multi_add (act a).1 (act a).2.1 hm (hf a (by simp))
    obtain ⟨m2, e2, h2⟩ := ih (fun x hx => hf x (by simp [hx])) m1 _ h1
    refine ⟨m2, ?_, by simpa using h2⟩
    simp only [List.map_cons, MultiVec.addBucket, e1, Option.bind_eq_bind, Option.bind_some, e2]

theorem multi_addAll {α} (limit w : Nat) (hw : 1 ≤ w) (hw' : w ≤ 64) (act : α → Nat × Nat × (Bytes → Option Bytes)) (b : α → Bytes)
    (ls : List (List α))
    (hf : ∀ l ∈ ls, ∀ a ∈ l, (act a).2.2 (List.replicate ((act a).2.1 + 8) 0) = some (b a ++ List.replicate 8 0)) (m : MultiVec) (p x : Bytes)
    (hm : MultiOk m p x)
    (hlt : (p ++ (ls.map fun l => (l.map fun a => UInt8.ofNat (act a).1 :: b a).flatten).flatten).length < 2 ^ w) :
    ∃ m' m'', m.addAll limit w (ls.map fun l => l.map act) = some m' ∧ m'.addToIndex limit w = some m'' ∧
      MultiOk m'' (p ++ (ls.map fun l => (l.map fun a => UInt8.ofNat (act a).1 :: b a).flatten).flatten)
        (x ++ ((offsets ((ls.map fun l => (l.map fun a => UInt8.ofNat (act a).1 :: b a).flatten).map List.length) p.length).map
          (toLE ((w + 7) / 8))).flatten) := by
  induction ls generalizing m p x with
  | nil =>
    obtain ⟨m'', e, h⟩ := multi_addToIndex limit w hw hw' hm (by simpa using hlt)
    exact ⟨m, m'', rfl, e, by simpa [offsets] using h⟩
  | cons l ls ih =>
    have hlt1 : p.length < 2 ^ w := by
      refine lt_of_le_of_lt ?_ hlt
      rw [List.length_append]; omega
    obtain ⟨m1, e1, h1⟩ := multi_grow limit w hw hw' hm hlt1
    obtain ⟨m2, e2, h2⟩ := multi_addBucket l act b (hf l (by simp)) m1 _ _ h1
    obtain ⟨m3, m4, e3, e4, h4⟩ := ih (fun x hx => hf x (by simp [hx])) m2 _ _ h2 (by
      rw [List.map_cons, List.flatten_cons, ← List.append_assoc] at hlt; exact hlt)
    refine ⟨m3, m4, ?_, e4, ?_⟩
    · simp only [List.map_cons, MultiVec.addAll, e1, e2, Option.bind_eq_bind, Option.bind_some, e3]
    · simp only [List.map_cons, List.flatten_cons, offsets]
      simp only [List.append_assoc, List.length_append] at h4 ⊢
      exact h4

/-- The four files of a multivector. -/
theorem new_four {f : Files} {name schema : String} {b ib : Bytes} :
    NewFiles f (putFile (putFile (writeSchema (writeSchema f (name ++ "_index") ("index(" ++ schema ++ ")")) name schema) name b)
      (name ++ "_index") ib)
      [(name, b), (name ++ ".schema", encodeUtf8 schema), (name ++ "_index", ib),
        (name ++ "_index.schema", encodeUtf8 ("index(" ++ schema ++ ")"))] := by
  intro n
  have hs : (name ++ "_index") ++ ".schema" = name ++ "_index.schema" := by rw [String.append_assoc]; rfl
  have nn : ∀ x : String, x ≠ "" → name ++ x ≠ name := by intro x hx h; apply hx; simpa using h
  have n1 := nn "_index" (by decide)
  have n2 := nn ".schema" (by decide)
  have n3 := nn "_index.schema" (by decide)
  have n4 : name ++ "_index" ≠ name ++ ".schema" := by intro h; simp at h
  have n5 : name ++ "_index" ≠ name ++ "_index.schema" := by intro h; simp at h
  have n6 : name ++ ".schema" ≠ name ++ "_index.schema" := by intro h; simp at h
  simp only [putFile, writeSchema, List.lookup, hs]
  generalize name ++ "_index" = a1 at *
  generalize name ++ ".schema" = a2 at *
  generalize name ++ "_index.schema" = a3 at *
  by_cases e1 : n = name
  · subst e1; simp [n1.symm]
  by_cases e2 : n = a2
  · subst e2
    have b1 : (n == name) = false := by simpa using e1
    simp [b1, n2, n4.symm]
  by_cases e3 : n = a1
  · subst e3
    have b1 : (n == name) = false := by simpa using e1
    have b2 : (n == a2) = false := by simpa using e2
    simp [b1, b2]
  by_cases e4 : n = a3
  · subst e4
    have b1 : (n == name) = false := by simpa using e1
    have b2 : (n == a2) = false := by simpa using e2
    have b3 : (n == a1) = false := by simpa using e3
    simp [b1, b2, b3, e1, e2, e3]
  · have b1 : (n == name) = false := by simpa using e1
    have b2 : (n == a2) = false := by simpa using e2
    have b3 : (n == a1) = false := by simpa using e3
    have b4 : (n == a3) = false := by simpa using e4
    simp [b1, b2, b3, b4, e1, e2, e3, e4]

/-- The object that is added to a bucket of a multivector: its type, and the values of its fields after the assignments. -/
def finalObj (decls : List (String × List FieldDecl)) (e : String × List (String × Int)) : Obj :=
  ⟨e.1, finalValues ((decls.lookup e.1).getD []) e.2⟩

/-- **C78 (multivectors).** Build a multivector with the C++ builder, bucket by bucket, with elements of any of the declared types,
assigning to their members in any order and any number of times: whatever the size of the write buffers, the data file, the index
file and both schema files are the documented ones, and no other file is touched. -/
theorem C78_cpp_multivector_files (limit : Nat) (f : Files) (name schema : String) (w : Nat) (hw : 1 ≤ w) (hw' : w ≤ 64)
    (decls : List (String × List FieldDecl)) (hd : GoodDecls decls) (ty : String → String → CppType)
    (buckets : List (List (String × List (String × Int))))
    (hc : ∀ b ∈ buckets, ∀ e ∈ b, ∃ fs, (e.1, fs) ∈ decls ∧ ∀ c ∈ e.2, CppCall (ty e.1) fs c)
    (hsize : (bucketsBytes decls (buckets.map fun b => b.map (finalObj decls))).length < 2 ^ w)
    (hlen : (w + 7) / 8 * (buckets.length + 1) < 2 ^ 64) :
    ∃ f', cppMultiVector limit f name schema w (buckets.map fun b => b.map (cppElement decls ty)) = some f' ∧
      NewFiles f f' [(name, frame (bucketsBytes decls (buckets.map fun b => b.map (finalObj decls)))),
        (name ++ ".schema", encodeUtf8 schema),
        (name ++ "_index", frame (indexBytes w decls (buckets.map fun b => b.map (finalObj decls)))),
        (name ++ "_index.schema", encodeUtf8 ("index(" ++ schema ++ ")"))] := by
  obtain ⟨h, e1, hh⟩ := handle_create
  have hb : ∀ b ∈ buckets, (b.map fun e => UInt8.ofNat (cppElement decls ty e).1 ::
      structBytes ((decls.lookup e.1).getD []) (finalValues ((decls.lookup e.1).getD []) e.2)).flatten =
      bucketBytes decls (b.map (finalObj decls)) := by
    intro b hb
    simp only [bucketBytes, List.map_map, Function.comp_def, elementBytes, finalObj, cppElement]
  have hb' : (buckets.map fun b => (b.map fun e => UInt8.ofNat (cppElement decls ty e).1 ::
      structBytes ((decls.lookup e.1).getD []) (finalValues ((decls.lookup e.1).getD []) e.2)).flatten) =
      (buckets.map fun b => b.map (finalObj decls)).map (bucketBytes decls) := by
    rw [List.map_map]
    exact List.map_congr_left hb
  obtain ⟨m, m', e2, e3, hm⟩ := multi_addAll limit w hw hw' (cppElement decls ty)
    (fun e => structBytes ((decls.lookup e.1).getD []) (finalValues ((decls.lookup e.1).getD []) e.2)) buckets
    (fun b hb e he => by
      obtain ⟨fs, hm, hcalls⟩ := hc b hb e he
      have hl := lookup_of_mem_nodup hd.names hm
      simp only [cppElement, hl, Option.getD_some]
      exact cppAssign_new (hd.good _ hm) e.2 hcalls)
    _ _ _ (multi_create (vec_create hh) hh) (by rw [hb']; simpa [bucketsBytes] using hsize)
  rw [hb', List.nil_append, List.nil_append, List.length_nil, indexEntries_eq] at hm
  obtain ⟨⟨hmv, -⟩, hmh⟩ := multi_flush hm
  have e4 := handle_close hmh (by
    exact lt_of_lt_of_le hsize (Nat.pow_le_pow_right (by omega) hw'))
  have e5 := vec_close hmv (by
    rw [flatten_length_const _ (toLE_all _)]; simpa [indexEntries] using hlen)
  refine ⟨putFile (putFile (writeSchema (writeSchema f (name ++ "_index") ("index(" ++ schema ++ ")")) name schema) name
    (frame (bucketsBytes decls (buckets.map fun b => b.map (finalObj decls))))) (name ++ "_index")
    (frame (indexBytes w decls (buckets.map fun b => b.map (finalObj decls)))), ?_, ?_⟩
  · simp only [cppMultiVector, e1, e2, MultiVec.close, e3, Option.bind_eq_bind, Option.bind_some, e4, e5]
    rfl
  exact new_four

end Props
