import Verif.Props.Native.CppFiles

/-!
# C78, continued: the C++ objects that are passed to `set_...`
-/

namespace Props
open Py Spec Model Model.Native _root_.Native

theorem putFile_writeSchema {f : Files} {name schema : String} {b : Bytes} :
    NewFiles f (writeSchema (putFile f name b) name schema) [(name, b), (name ++ ".schema", encodeUtf8 schema)] := by
  intro n
  have nn : name ++ ".schema" ≠ name := by intro h; simp at h
  simp only [putFile, writeSchema, List.lookup]
  by_cases e1 : n = name
  · simp [e1, nn.symm]
  · have b1 : (n == name) = false := by simpa using e1
    by_cases e2 : n = name ++ ".schema"
    · subst e2; simp [b1]
    · have b2 : (n == name ++ ".schema") = false := by simpa using e2
      simp [e1, e2, b1, b2]

/-- **C78 (`set_...`).** Passing data to a `set_...` function of the C++ builder leaves the documented frame around that data and the
schema. (For raw data this is all; for structures and vectors see below.) -/
theorem C78_cpp_set_files (f : Files) (name schema : String) (data : Bytes) (hlen : data.length < 2 ^ 64) :
    ∃ f', cppSet f name schema data = some f' ∧ NewFiles f f' [(name, frame data), (name ++ ".schema", encodeUtf8 schema)] := by
  refine ⟨writeSchema (putFile f name (frame data)) name schema, ?_, putFile_writeSchema⟩
  simp only [cppSet, streamSize_ok _ data.length hlen, Option.bind_eq_bind, Option.bind_some, Option.some.injEq]
  congr 2
  have hl : (toLE 8 data.length).length = 8 := Py.toLE_length _ _
  have hle : (toLE 8 data.length).length + data.length = (toLE 8 data.length ++ data).length := by rw [List.length_append]
  simp only [OStream.write, OStream.opened, streamPadding, List.take_nil, List.drop_nil, List.nil_append, List.append_nil, Nat.zero_add,
    hle, List.take_length, List.drop_length_add_append, paddingSize, frame, List.length_replicate]
  rw [List.drop_eq_nil_of_le (by rw [List.length_append]; omega), List.append_nil, List.take_length, List.drop_nil, List.append_nil]

/-- **C78 (single structures).** The bytes taken from a `Struct` object after any number of assignments to its members are those of
the documented structure with the values assigned last. -/
theorem C78_cpp_struct (ty : String → CppType) (fs : List FieldDecl) (hg : GoodStruct fs) (calls : List (String × Int))
    (hc : ∀ c ∈ calls, CppCall ty fs c) :
    cppStruct (((fs.map (·.width)).sum + 7) / 8) (cppAssign ty fs calls) = some (structBytes fs (finalValues fs calls)) := by
  simp only [cppStruct, paddingSize, cppAssign_new hg calls hc, Option.bind_eq_bind, Option.bind_some]
  rw [List.take_left' (structBytes_length fs _)]

/-! ## `Vector` -/

/-- What an operation should do to the elements of a vector; an element is the list of assignments to it. -/
def vectorStep (vals : List (List (String × Int))) : VectorOp → List (List (String × Int))
  | .grow calls => vals ++ [calls]
  | .mutate i calls => vals.modify i (· ++ calls)
  | .popBack => vals.dropLast
  | .resize k => vals.take k ++ List.replicate (k - vals.length) []

/-- The operations are legal on a vector with `n` elements: only existing elements are changed or removed, only good assignments are
done; and no element is added after one was removed (`s`: an element was removed). -/
def VectorLegal (good : List (String × Int) → Prop) : Bool → Nat → List VectorOp → Prop
  | _, _, [] => True
  | s, n, .grow calls :: ops => good calls ∧ s = false ∧ VectorLegal good s (n + 1) ops
  | s, n, .mutate i calls :: ops => i < n ∧ good calls ∧ VectorLegal good s n ops
  | _, n, .popBack :: ops => 0 < n ∧ VectorLegal good true (n - 1) ops
  | s, n, .resize k :: ops => (n < k → s = false) ∧ VectorLegal good (s || decide (k < n)) k ops

/-- The elements of a vector, with some bytes behind. -/
def VectorOk (fs : List FieldDecl) (d : Bytes) (vals : List (List (String × Int))) (s : Bool) : Prop :=
  ∃ tail : Bytes, d = vectorBytes fs (vals.map (finalValues fs)) ++ tail ∧ tail.length = 8 ∧ (s = false → tail = List.replicate 8 0)

theorem vectorBytes_append (fs : List FieldDecl) (a b : List Dict) : vectorBytes fs (a ++ b) = vectorBytes fs a ++ vectorBytes fs b := by
  simp [vectorBytes]

theorem vectorBytes_zero {fs : List FieldDecl} (hg : GoodStruct fs) (k : Nat) :
    vectorBytes fs ((List.replicate k []).map (finalValues fs)) = List.replicate (((fs.map (·.width)).sum + 7) / 8 * k) 0 := by
  induction k with
  | zero => simp [vectorBytes]
  | succ k ih =>
    have e : structBytes fs (finalValues fs []) = List.replicate (((fs.map (·.width)).sum + 7) / 8) 0 := by
      rw [finalValues_bytes hg.names, List.reverse_nil, structBytes_nil]
    rw [List.replicate_succ, List.map_cons, ← List.singleton_append, vectorBytes_append, ih, Nat.mul_succ,
      Nat.add_comm (_ * k) _, List.replicate_add]
    simp [vectorBytes, e]

/-- Removing elements leaves the others alone; in the padding there may be rubbish afterwards. -/
theorem vector_shrink {fs : List FieldDecl} {d : Bytes} {vals : List (List (String × Int))} {s : Bool}
    (h : VectorOk fs d vals s) {k : Nat} (hk : k ≤ vals.length) (t : Bool) (ht : t = false → s = false ∧ k = vals.length) :
    VectorOk fs (bytesResize d (k * (((fs.map (·.width)).sum + 7) / 8) + 8)) (vals.take k) t := by
  obtain ⟨tail, h1, h2, h3⟩ := h
  have hl1 : (vectorBytes fs ((vals.take k).map (finalValues fs))).length = k * (((fs.map (·.width)).sum + 7) / 8) := by
    rw [vectorBytes_length, List.length_map, List.length_take, Nat.min_eq_left hk, Nat.mul_comm]
  have hd : d = vectorBytes fs ((vals.take k).map (finalValues fs)) ++ (vectorBytes fs ((vals.drop k).map (finalValues fs)) ++ tail) := by
    rw [h1, ← List.append_assoc, ← vectorBytes_append, ← List.map_append, List.take_append_drop]
  have hr : bytesResize d (k * (((fs.map (·.width)).sum + 7) / 8) + 8) = vectorBytes fs ((vals.take k).map (finalValues fs)) ++
      (vectorBytes fs ((vals.drop k).map (finalValues fs)) ++ tail).take 8 := by
    unfold bytesResize
    have hz : k * (((fs.map (·.width)).sum + 7) / 8) + 8 - d.length = 0 := by
      rw [hd, List.length_append, hl1, List.length_append, h2]; omega
    rw [hz, List.replicate_zero, List.append_nil, hd, ← hl1, List.take_length_add_append]
  refine ⟨_, hr, ?_, ?_⟩
  · rw [List.length_take, List.length_append, h2]; omega
  · intro e
    obtain ⟨e1, e2⟩ := ht e
    subst e2
    rw [List.drop_length]
    simp [vectorBytes, h3 e1]

/-- Adding zeroed elements. -/
theorem vector_enlarge {fs : List FieldDecl} (hg : GoodStruct fs) {d : Bytes} {vals : List (List (String × Int))}
    (h : VectorOk fs d vals false) {k : Nat} (hk : vals.length ≤ k) :
    VectorOk fs (bytesResize d (k * (((fs.map (·.width)).sum + 7) / 8) + 8)) (vals ++ List.replicate (k - vals.length) []) false := by
  obtain ⟨tail, h1, h2, h3⟩ := h
  refine ⟨List.replicate 8 0, ?_, by simp, fun _ => rfl⟩
  have hl : d.length = vals.length * (((fs.map (·.width)).sum + 7) / 8) + 8 := by
    rw [h1, List.length_append, vectorBytes_length, h2, List.length_map, Nat.mul_comm]
  have hle := Nat.mul_le_mul_right (((fs.map (·.width)).sum + 7) / 8) hk
  unfold bytesResize
  rw [List.take_of_length_le (by omega), hl, List.map_append, vectorBytes_append, vectorBytes_zero hg, h1, h3 rfl, List.append_assoc,
    List.append_assoc, ← List.replicate_add, ← List.replicate_add]
  congr 2
  rw [Nat.mul_comm _ (k - vals.length), Nat.sub_mul]
  omega

/-- Assignments to an existing element. -/
theorem vector_mutate {ty : String → CppType} {fs : List FieldDecl} (hg : GoodStruct fs) {d : Bytes}
    {vals : List (List (String × Int))} {s : Bool} (h : VectorOk fs d vals s) {i : Nat} (hi : i < vals.length)
    (calls : List (String × Int)) (hc : ∀ c ∈ calls, CppCall ty fs c) :
    ∃ d', mutateAt (((fs.map (·.width)).sum + 7) / 8 * i) (cppAssign ty fs calls) d = some d' ∧
      VectorOk fs d' (vals.modify i (· ++ calls)) s := by
  obtain ⟨tail, h1, h2, h3⟩ := h
  have hsplit : vals = vals.take i ++ vals[i] :: vals.drop (i + 1) := by simp
  have hmod : vals.modify i (· ++ calls) = vals.take i ++ (vals[i] ++ calls) :: vals.drop (i + 1) := by
    rw [List.modify_eq_take_cons_drop hi]
  have hl : ((((fs.map (·.width)).sum + 7) / 8) * i) = (vectorBytes fs ((vals.take i).map (finalValues fs))).length := by
    rw [vectorBytes_length, List.length_map, List.length_take, Nat.min_eq_left (by omega)]
  have hd : d = vectorBytes fs ((vals.take i).map (finalValues fs)) ++ (structBytes fs vals[i].reverse ++
      (vectorBytes fs ((vals.drop (i + 1)).map (finalValues fs)) ++ tail)) := by
    rw [h1]
    conv => lhs; rw [hsplit]
    rw [List.map_append, vectorBytes_append, List.map_cons, ← List.singleton_append, vectorBytes_append, List.append_assoc,
      List.append_assoc, ← finalValues_bytes hg.names]
    simp [vectorBytes]
  refine ⟨_, ?_, tail, rfl, h2, h3⟩
  unfold mutateAt
  rw [hl, hd, List.drop_left, List.take_left, cppAssign_ok hg calls hc _ _ (by rw [List.length_append, h2]; omega), hmod, List.map_append,
    vectorBytes_append, List.map_cons, ← List.singleton_append, vectorBytes_append]
  have e : vectorBytes fs [finalValues fs (vals[i] ++ calls)] = structBytes fs (calls.reverse ++ vals[i].reverse) := by
    rw [← List.reverse_append, ← finalValues_bytes hg.names]; simp [vectorBytes]
  rw [e]
  simp

theorem vector_op {ty : String → CppType} {fs : List FieldDecl} (hg : GoodStruct fs) (hfs : fs ≠ [])
    (good : List (String × Int) → Prop) (hgood : ∀ calls, good calls → ∀ c ∈ calls, CppCall ty fs c) (ops : List VectorOp) (d : Bytes)
    (vals : List (List (String × Int))) (s : Bool) (h : VectorOk fs d vals s) (hl : VectorLegal good s vals.length ops) :
    ∃ d', vectorOps (((fs.map (·.width)).sum + 7) / 8) (cppAssign ty fs) d ops = some d' ∧
      VectorOk fs d' (ops.foldl vectorStep vals) true := by
  have hn : 0 < ((fs.map (·.width)).sum + 7) / 8 := by
    obtain ⟨f, fs', rfl⟩ := List.exists_cons_of_ne_nil hfs
    have := (hg.widths f (by simp)).1
    simp only [List.map_cons, List.sum_cons]; omega
  induction ops generalizing d vals s with
  | nil =>
    obtain ⟨t, h1, h2, -⟩ := h
    exact ⟨d, rfl, t, h1, h2, by simp⟩
  | cons op ops ih =>
    have hdl : d.length = ((fs.map (·.width)).sum + 7) / 8 * vals.length + 8 := by
      obtain ⟨t, h1, h2, -⟩ := h
      rw [h1, List.length_append, vectorBytes_length, List.length_map, h2]
    cases op with
    | grow calls =>
      obtain ⟨hc, rfl, hl⟩ := hl
      have h1 := vector_enlarge hg h (Nat.le_succ vals.length)
      rw [Nat.succ_sub (le_refl _), Nat.sub_self] at h1
      have e1 : Nat.succ vals.length * (((fs.map (·.width)).sum + 7) / 8) + 8 = d.length + ((fs.map (·.width)).sum + 7) / 8 := by
        rw [hdl, Nat.succ_mul, Nat.mul_comm]; omega
      rw [e1] at h1
      have hlen : (bytesResize d (d.length + ((fs.map (·.width)).sum + 7) / 8)).length = d.length + ((fs.map (·.width)).sum + 7) / 8 := by
        simp [bytesResize]
      obtain ⟨d', e2, h2⟩ := vector_mutate (ty := ty) hg h1 (i := vals.length) (by simp) calls (hgood _ hc)
      have hm : (vals ++ List.replicate (Nat.succ 0) []).modify vals.length (· ++ calls) = vals ++ [calls] := by
        rw [List.modify_eq_take_cons_drop (by simp)]
        simp
      rw [hm] at h2
      obtain ⟨d'', e3, h3⟩ := ih d' (vals ++ [calls]) false h2 (by simpa using hl)
      refine ⟨d'', ?_, h3⟩
      have e4 : (d.length + ((fs.map (·.width)).sum + 7) / 8 - paddingSize) / (((fs.map (·.width)).sum + 7) / 8) - 1 = vals.length := by
        have : d.length + ((fs.map (·.width)).sum + 7) / 8 - paddingSize = ((fs.map (·.width)).sum + 7) / 8 * (vals.length + 1) := by
          rw [hdl, paddingSize, Nat.mul_succ]; omega
        rw [this, Nat.mul_div_cancel_left _ hn]; omega
      simp only [vectorOps, vectorOp, hlen, e4, e2, Option.bind_eq_bind, Option.bind_some, e3]
    | mutate i calls =>
      obtain ⟨hi, hc, hl⟩ := hl
      obtain ⟨d', e2, h2⟩ := vector_mutate (ty := ty) hg h hi calls (hgood _ hc)
      obtain ⟨d'', e3, h3⟩ := ih d' _ s h2 (by simpa using hl)
      refine ⟨d'', ?_, h3⟩
      simp only [vectorOps, vectorOp, e2, Option.bind_eq_bind, Option.bind_some, e3]
    | popBack =>
      obtain ⟨hp, hl⟩ := hl
      have h1 := vector_shrink h (k := vals.length - 1) (by omega) true (by simp)
      rw [← List.dropLast_eq_take] at h1
      have e : (vals.length - 1) * (((fs.map (·.width)).sum + 7) / 8) + 8 = d.length - ((fs.map (·.width)).sum + 7) / 8 := by
        have := Nat.mul_le_mul_left (((fs.map (·.width)).sum + 7) / 8) hp
        rw [hdl, Nat.mul_comm, Nat.mul_sub]; omega
      rw [e] at h1
      obtain ⟨d'', e3, h3⟩ := ih _ vals.dropLast true h1 (by simpa using hl)
      refine ⟨d'', ?_, h3⟩
      simp only [vectorOps, vectorOp, Option.bind_eq_bind, Option.bind_some, e3]
    | resize k =>
      obtain ⟨hs, hl⟩ := hl
      have key : VectorOk fs (bytesResize d (k * (((fs.map (·.width)).sum + 7) / 8) + 8))
          (vals.take k ++ List.replicate (k - vals.length) []) (s || decide (k < vals.length)) := by
        by_cases hk : k ≤ vals.length
        · rw [Nat.sub_eq_zero_of_le hk, List.replicate_zero, List.append_nil]
          refine vector_shrink h hk _ ?_
          intro e
          simp only [Bool.or_eq_false_iff, decide_eq_false_iff_not] at e
          exact ⟨e.1, by omega⟩
        · have e := hs (by omega)
          subst e
          rw [List.take_of_length_le (by omega)]
          have hkk : decide (k < vals.length) = false := by simp; omega
          rw [hkk]
          exact vector_enlarge hg h (by omega)
      have hlen : (vals.take k ++ List.replicate (k - vals.length) []).length = k := by simp; omega
      obtain ⟨d'', e3, h3⟩ := ih _ _ _ key (by rw [hlen]; exact hl)
      refine ⟨d'', ?_, h3⟩
      simp only [vectorOps, vectorOp, paddingSize, Option.bind_eq_bind, Option.bind_some, e3]

/-- **C78 (vectors in memory).** A `Vector` of some size, any number of legal operations (no element is added after one was removed),
then `set_...`: the bytes taken from it are those of the documented vector with the values the operations leave. For structures with a
range (`overlapping`) the vector must not be empty. -/
theorem C78_cpp_vector (ty : String → CppType) (fs : List FieldDecl) (hg : GoodStruct fs) (hfs : fs ≠ []) (size : Nat)
    (ops : List VectorOp) (hl : VectorLegal (fun calls => ∀ c ∈ calls, CppCall ty fs c) false size ops) (overlapping : Bool)
    (hne : overlapping = true → ops.foldl vectorStep (List.replicate size []) ≠ []) :
    ∃ d, vectorOps (((fs.map (·.width)).sum + 7) / 8) (cppAssign ty fs) (vectorNew (((fs.map (·.width)).sum + 7) / 8) size) ops = some d ∧
      vectorData overlapping (((fs.map (·.width)).sum + 7) / 8) d =
        some (vectorBytes fs ((ops.foldl vectorStep (List.replicate size [])).map (finalValues fs))) := by
  have hn : 0 < ((fs.map (·.width)).sum + 7) / 8 := by
    obtain ⟨f, fs', rfl⟩ := List.exists_cons_of_ne_nil hfs
    have := (hg.widths f (by simp)).1
    simp only [List.map_cons, List.sum_cons]; omega
  have h0 : VectorOk fs (vectorNew (((fs.map (·.width)).sum + 7) / 8) size) (List.replicate size []) false := by
    refine ⟨List.replicate 8 0, ?_, by simp, fun _ => rfl⟩
    rw [vectorBytes_zero hg, ← List.replicate_add, vectorNew, bytesResize, Nat.mul_comm size]
    simp only [List.take_nil, List.nil_append, List.length_nil, Nat.sub_zero, paddingSize]
  obtain ⟨d, e, tail, h1, h2, -⟩ := vector_op hg hfs _ (fun calls h => h) ops _ _ _ h0 (by simpa using hl)
  refine ⟨d, e, ?_⟩
  generalize ops.foldl vectorStep (List.replicate size []) = vals at *
  have hvl : (vectorBytes fs (vals.map (finalValues fs))).length = ((fs.map (·.width)).sum + 7) / 8 * vals.length := by
    rw [vectorBytes_length, List.length_map]
  have hs : viewBytes overlapping (((fs.map (·.width)).sum + 7) / 8) (viewSize overlapping (((fs.map (·.width)).sum + 7) / 8)
      (d.length - paddingSize)) = ((fs.map (·.width)).sum + 7) / 8 * vals.length := by
    have e1 : d.length - paddingSize = ((fs.map (·.width)).sum + 7) / 8 * vals.length := by
      rw [h1, List.length_append, h2, hvl, paddingSize]; omega
    rw [e1, viewBytes, viewSize, Nat.mul_div_cancel_left _ hn]
    cases overlapping with
    | false => simp [Nat.mul_comm]
    | true =>
      have : vals.length ≠ 0 := by simpa using hne rfl
      rw [if_pos ⟨rfl, this⟩, if_pos rfl, Nat.sub_add_cancel (by omega), Nat.mul_comm]
  unfold vectorData
  rw [hs, if_pos (by rw [h1, List.length_append, hvl]; omega), ← hvl, h1, List.take_left]

/-- Adding an element after one was removed: the new element, to which nothing was assigned, shows what was in the old one. -/
theorem C78_counterexample_grow :
    (vectorOps 1 (cppAssign (fun _ => .int 8 false) [⟨"x", 8, false⟩]) (vectorNew 1 0)
      [.grow [("x", 7)], .popBack, .grow []]).bind (vectorData false 1) = some [7] := by decide +kernel

/-- An empty vector of structures with a range: one element that does not exist is written; it is taken from the padding, or, if the
structure has more than eight bytes, from the memory behind the vector. -/
theorem C78_counterexample_empty_range :
    vectorData true 4 (vectorNew 4 0) = some [0, 0, 0, 0] ∧ vectorData true 9 (vectorNew 9 0) = none := by decide +kernel

/-- The example: grow, change the first element, enlarge, shrink, change again. -/
def cppHistory : List VectorOp :=
  [.grow [("x", 7), ("y", -2)], .mutate 0 [("x", 300)], .resize 4, .mutate 3 [("y", 3)], .popBack, .mutate 2 [("x", 1)]]

example : VectorLegal (fun calls => ∀ c ∈ calls, CppCall (fun n => if n = "x" then .int 16 false else .int 8 true)
    [⟨"x", 12, false⟩, ⟨"y", 4, true⟩] c) false 1 cppHistory := by
  have hx : ∀ v : Int, 0 ≤ v → v < 4096 → CppCall (fun n => if n = "x" then .int 16 false else .int 8 true)
      [⟨"x", 12, false⟩, ⟨"y", 4, true⟩] ("x", v) := fun v h0 h1 =>
    ⟨⟨"x", 12, false⟩, by simp, rfl, ⟨by simp [CppType.isSigned, InRange]; omega, by intro _; exact h0⟩, by simp⟩
  have hy : ∀ v : Int, -8 ≤ v → v < 8 → CppCall (fun n => if n = "x" then .int 16 false else .int 8 true)
      [⟨"x", 12, false⟩, ⟨"y", 4, true⟩] ("y", v) := fun v h0 h1 =>
    ⟨⟨"y", 4, true⟩, by simp, rfl, ⟨by simp [CppType.isSigned, InRange]; omega, by simp [CppType.stdIsSigned]⟩, by simp⟩
  simp only [cppHistory, VectorLegal, List.forall_mem_cons]
  refine ⟨⟨hx _ (by decide) (by decide), hy _ (by decide) (by decide), by simp⟩, trivial, by decide, ⟨hx _ (by decide) (by decide), by simp⟩,
    by decide, by decide, ⟨hy _ (by decide) (by decide), by simp⟩, by decide, by decide, ⟨hx _ (by decide) (by decide), by simp⟩, trivial⟩

example : (vectorOps 2 (cppAssign (fun n => if n = "x" then .int 16 false else .int 8 true) [⟨"x", 12, false⟩, ⟨"y", 4, true⟩])
    (vectorNew 2 1) cppHistory).bind (vectorData false 2) = some [44, 1, 7, 224, 1, 0] := by decide +kernel

end Props
