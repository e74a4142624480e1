import Verif.Spec.Files
import Verif.Props.EndToEnd

/-!
# C77: the exact contents of the files the Python builder writes
-/

namespace Props
open Py Spec Model

theorem toLE_fromLE (d : Bytes) : toLE d.length (fromLE d) = d := by
  induction d with
  | nil => rfl
  | cons b d ih =>
    simp only [List.length_cons, toLE, fromLE]
    have hb : b.toNat < 256 := b.toNat_lt
    have h1 : (b.toNat + 256 * fromLE d) % 256 = b.toNat := by omega
    have h2 : (b.toNat + 256 * fromLE d) / 256 = fromLE d := by omega
    rw [h1, h2, ih]
    simp

theorem mkStruct_size (name : String) (fs : List FieldDecl) :
    (mkStruct name fs).sizeInBytes = ((fs.map (·.width)).sum + 7) / 8 := by
  show (sizeInBitsFrom 0 fs + 7) / 8 = _
  rw [sizeInBitsFrom_eq]; simp

/-- Serialising gives the documented bytes. -/
theorem serialize_structBytes (name : String) {fs : List FieldDecl} {d : Dict} (hg : GoodStruct fs) (hd : DictFits fs d) :
    serialize (mkStruct name fs) d = .ok (structBytes fs d) := by
  obtain ⟨buf, e, hl, hi, -⟩ := C06_struct_roundtrip name fs d hg.widths hg.names hd.1
  rw [e, structBytes, ← hi, ← mkStruct_size name, ← hl, toLE_fromLE]

/-- In the directory `f'` there are exactly these files, and otherwise the files of the directory `f`. -/
def NewFiles (f f' : Files) (files : List (String × Bytes)) : Prop :=
  ∀ n, f' n = match files.lookup n with
    | some b => some b
    | none => f n

/-- The operations between `s` and `s'` left exactly these files, and touched no other file of the directory. -/
def LeavesFiles (f : Files) (s s' : BState) (files : List (String × Bytes)) : Prop :=
  NewFiles (filesOfState f s) (filesOfState f s') files

theorem leaves_simple {f : Files} {s s' : BState} {name : String} {sch p : Bytes}
    (ho : s'.ops = s.ops ++ ((.openWb (name ++ ".schema") :: writeOps (name ++ ".schema") sch) ++
        [.openWb name] ++ [] ++ [.write name (frame p)])) :
    LeavesFiles f s s' [(name, frame p), (name ++ ".schema", sch)] := by
  obtain ⟨h1, h2, h3⟩ := simple_files f s.ops name sch p
  intro n
  unfold filesOfState
  rw [ho]
  by_cases e1 : n = name
  · subst e1; rw [h1]; simp [List.lookup]
  · have b1 : (n == name) = false := by simpa using e1
    by_cases e2 : n = name ++ ".schema"
    · subst e2; rw [h2]; simp [List.lookup, b1]
    · have b2 : (n == name ++ ".schema") = false := by simpa using e2
      rw [h3 n e1 e2]; simp [List.lookup, b1, b2]

/-! ## C77 -/

/-- **C77, a single structure.** After a successful `set` of fitting values the data file is the documented frame around the bytes of
the structure (`Spec.structBytes`), the schema file is the schema, and no other file has changed. -/
theorem C77_instance_files (A : ArchiveType) (path name sname schema : String) (opt : Bool) (fs : List FieldDecl) (d : Dict)
    (s : BState) (f : Files) (hA : A.resources.lookup name = some (.instance (mkStruct sname fs) schema opt))
    (hpath : path ≠ "") (hname : name ≠ "") (hnew : name ∉ s.written) (hg : GoodStruct fs) (hd : DictFits fs d)
    (hlen : (mkStruct sname fs).sizeInBytes < 2 ^ 64) :
    ∃ s', setResource A path name (.dict d) s = (.ok (), s') ∧
      LeavesFiles f s s' [(name, frame (structBytes fs d)), (name ++ ".schema", encodeUtf8 schema)] := by
  have hpay : ∀ s : BState, s.store.lookup name = some ⟨[], true⟩ →
      ∃ s', setPayload path name (.instance (mkStruct sname fs) schema opt) (.dict d) s = (.ok (), s') ∧
        s'.ops = s.ops ++ [] ∧ s'.written = s.written ++ [] ∧ s'.store.lookup name = some ⟨structBytes fs d, true⟩ := by
    intro s hs
    obtain ⟨s', e', hw⟩ := resWrite_ok (b := structBytes fs d) hs
    refine ⟨s', ?_, by simp [hw.ops], by simp [hw.written], by simpa using hw.own _ hs⟩
    show (BM.lift (validateStructureFields name d (mkStruct sname fs)) >>= fun _ =>
      BM.lift (serialize (mkStruct sname fs) d) >>= fun bout => resWrite name bout) s = _
    rw [BM.bind_ok (lift_ok (validate_of_fits hd) s), BM.bind_ok (lift_ok (serialize_structBytes sname hg hd) s), e']
  obtain ⟨s', e1, ho, -, -⟩ := setBody_ok hpath hname
    (by rw [structBytes, toLE_length, ← mkStruct_size sname]; exact hlen) hpay s
  exact ⟨s', by rw [set_run hA hnew, e1], leaves_simple ho⟩

theorem mapM_serialize (sname : String) {fs : List FieldDecl} (hg : GoodStruct fs) (ds : List Dict) (hd : ∀ d ∈ ds, DictFits fs d) :
    ds.mapM (serialize (mkStruct sname fs)) = .ok (ds.map (structBytes fs)) := by
  induction ds with
  | nil => rfl
  | cons d ds ih =>
    rw [List.mapM_cons, serialize_structBytes sname hg (hd d (by simp)), ih fun e he => hd e (by simp [he])]
    rfl

theorem structBytes_length (fs : List FieldDecl) (d : Dict) : (structBytes fs d).length = ((fs.map (·.width)).sum + 7) / 8 :=
  toLE_length _ _

theorem vectorBytes_length (fs : List FieldDecl) (ds : List Dict) :
    (vectorBytes fs ds).length = ((fs.map (·.width)).sum + 7) / 8 * ds.length := by
  rw [vectorBytes, flatten_length_const (n := ((fs.map (·.width)).sum + 7) / 8), List.length_map]
  intro b hb
  obtain ⟨d, -, rfl⟩ := List.mem_map.mp hb
  exact structBytes_length fs d

/-- **C77, a vector.** -/
theorem C77_vector_files (A : ArchiveType) (path name sname schema : String) (opt : Bool) (fs : List FieldDecl) (ds : List Dict)
    (s : BState) (f : Files) (hA : A.resources.lookup name = some (.vector (mkStruct sname fs) schema opt))
    (hpath : path ≠ "") (hname : name ≠ "") (hnew : name ∉ s.written) (hg : GoodStruct fs) (hd : ∀ d ∈ ds, DictFits fs d)
    (hlen : (mkStruct sname fs).sizeInBytes * ds.length < 2 ^ 64) :
    ∃ s', setResource A path name (.list ds) s = (.ok (), s') ∧
      LeavesFiles f s s' [(name, frame (vectorBytes fs ds)), (name ++ ".schema", encodeUtf8 schema)] := by
  have hpay : ∀ s : BState, s.store.lookup name = some ⟨[], true⟩ →
      ∃ s', setPayload path name (.vector (mkStruct sname fs) schema opt) (.list ds) s = (.ok (), s') ∧
        s'.ops = s.ops ++ [] ∧ s'.written = s.written ++ [] ∧ s'.store.lookup name = some ⟨vectorBytes fs ds, true⟩ := by
    intro s hs
    obtain ⟨s', e, hw⟩ := writeElements_ok ds _ (mapM_serialize sname hg ds hd) s hs
    refine ⟨s', ?_, by simp [hw.ops], by simp [hw.written], by simpa [vectorBytes] using hw.own _ hs⟩
    show (forEach ds (fun v => BM.lift (validateStructureFields name v (mkStruct sname fs))) >>= fun _ =>
      forEach ds fun v => writeElement name (mkStruct sname fs) v) s = _
    rw [BM.bind_ok (forEach_lift_ok (fun d hd' => validate_of_fits (hd d hd')) s), e]
  obtain ⟨s', e1, ho, -, -⟩ := setBody_ok hpath hname
    (by rw [vectorBytes_length, ← mkStruct_size sname]; exact hlen) hpay s
  exact ⟨s', by rw [set_run hA hnew, e1], leaves_simple ho⟩

/-- **C77, raw data.** -/
theorem C77_raw_data_files (A : ArchiveType) (path name schema : String) (opt : Bool) (b : Bytes)
    (s : BState) (f : Files) (hA : A.resources.lookup name = some (.rawData schema opt))
    (hpath : path ≠ "") (hname : name ≠ "") (hnew : name ∉ s.written) (hlen : b.length < 2 ^ 64) :
    ∃ s', setResource A path name (.bytes b) s = (.ok (), s') ∧
      LeavesFiles f s s' [(name, frame b), (name ++ ".schema", encodeUtf8 schema)] := by
  have hpay : ∀ s : BState, s.store.lookup name = some ⟨[], true⟩ →
      ∃ s', setPayload path name (.rawData schema opt) (.bytes b) s = (.ok (), s') ∧
        s'.ops = s.ops ++ [] ∧ s'.written = s.written ++ [] ∧ s'.store.lookup name = some ⟨b, true⟩ := by
    intro s hs
    obtain ⟨s', e', hw⟩ := resWrite_ok (b := b) hs
    exact ⟨s', e', by simp [hw.ops], by simp [hw.written], by simpa using hw.own _ hs⟩
  obtain ⟨s', e1, ho, -, -⟩ := setBody_ok hpath hname hlen hpay s
  exact ⟨s', by rw [set_run hA hnew, e1], leaves_simple ho⟩

theorem idxOf_decl {decls : List (String × List FieldDecl)} (hn : (decls.map (·.1)).Nodup) {j : Nat} {n : String}
    {fs : List FieldDecl} (h : decls[j]? = some (n, fs)) : (decls.map (·.1)).idxOf n = j := by
  have hj : j < decls.length := (List.getElem?_eq_some_iff.mp h).1
  have e : (decls.map (·.1))[j]'(by simpa using hj) = n := by
    have := (List.getElem?_eq_some_iff.mp h).2; simp [this]
  rw [← e, List.Nodup.idxOf_getElem hn]

/-- A multivector element is serialised to the documented bytes. -/
theorem serializeObj_bytes {decls : List (String × List FieldDecl)} (hd : GoodDecls decls) {obj : Obj}
    {fs : List FieldDecl} (hm : (obj.name, fs) ∈ decls) (hf : DictFits fs obj.attributes) :
    serializeObj (classes decls) obj = .ok ((elementBytes decls obj).length, elementBytes decls obj) := by
  have hg := hd.good _ hm
  obtain ⟨j, hj⟩ := List.getElem?_of_mem hm
  have hj' : j < 256 := lt_of_lt_of_le (List.getElem?_eq_some_iff.mp hj).1 hd.count
  have hk : ∀ f ∈ fs, (obj.attributes.lookup f.name).isSome := by
    intro f hf'; obtain ⟨v, hv⟩ := hf.1 f hf'; simp [hv]
  rw [serializeObj_ok hd.names hj' hj hg.widths hk (serialize_structBytes obj.name hg hf)]
  simp [elementBytes, idxOf_decl hd.names hj, lookup_of_mem hd.names hm, structBytes_length, mkStruct_size]

theorem offsets_eq (l : List Nat) : offsets l 0 = (List.range (l.length + 1)).map fun i => (l.take i).sum := by
  apply List.ext_getElem?
  intro i
  by_cases h : i ≤ l.length
  · rw [offsets_getElem? l 0 i h]
    simp [List.getElem?_range (show i < l.length + 1 by omega)]
  · rw [List.getElem?_eq_none (by rw [offsets_length]; omega), List.getElem?_eq_none (by simp; omega)]

theorem indexEntries_eq (decls : List (String × List FieldDecl)) (value : List (List Obj)) :
    offsets ((value.map (bucketBytes decls)).map List.length) 0 = indexEntries decls value := by
  rw [offsets_eq]
  simp [indexEntries, bucketsBytes, List.length_flatten, List.map_take]

/-- **C77, a multivector.** Besides the data file (the buckets one after the other, every element with a leading type byte) there is an
index file with the byte offsets of the buckets and a final entry for the end of the data, and both have a schema file. -/
theorem C77_multivector_files (A : ArchiveType) (path name schema : String) (opt : Bool) (W : Nat)
    (decls : List (String × List FieldDecl)) (value : List (List Obj)) (s : BState) (f : Files)
    (hA : A.resources.lookup name = some (.multivector (indexType ns W) (classes decls) schema opt))
    (hpath : path ≠ "") (hname : name ≠ "") (hnew : name ∉ s.written) (hW : 1 ≤ W)
    (hd : GoodDecls decls) (hv : BucketsFit decls value)
    (hsize : (bucketsBytes decls value).length < 2 ^ (8 * ((W + 7) / 8))) (hsize' : (bucketsBytes decls value).length < 2 ^ 64)
    (hlen : (W + 7) / 8 * (value.length + 1) < 2 ^ 64) :
    ∃ s', setResource A path name (.buckets value) s = (.ok (), s') ∧
      LeavesFiles f s s' [(name, frame (bucketsBytes decls value)), (name ++ ".schema", encodeUtf8 schema),
        (name ++ "_index", frame (indexBytes W decls value)),
        (name ++ "_index.schema", encodeUtf8 ("index(" ++ schema ++ ")"))] := by
  have hsz := indexType_size ns W
  have hb : List.Forall₂ (fun os b => ∃ l,
      List.Forall₂ (fun o b => serializeObj (classes decls) o = .ok (b.length, b)) os l ∧ b = l.flatten) value
      (value.map (bucketBytes decls)) := by
    rw [List.forall₂_map_right_iff]
    apply List.forall₂_same.mpr
    intro os hos
    refine ⟨os.map (elementBytes decls), ?_, rfl⟩
    rw [List.forall₂_map_right_iff]
    apply List.forall₂_same.mpr
    intro o ho
    obtain ⟨fs, hm, hf⟩ := hv os hos o ho
    exact serializeObj_bytes hd hm hf
  have hib : ((offsets ((value.map (bucketBytes decls)).map List.length) 0).map (toLE ((W + 7) / 8))).flatten =
      indexBytes W decls value := by rw [indexEntries_eq]; rfl
  have hil : (indexBytes W decls value).length = (W + 7) / 8 * (value.length + 1) := by
    rw [indexBytes, flatten_length_const _ (toLE_all _)]; simp [indexEntries]
  have hpay := fun s hs => setMultivector_ok (path := path) (name := name) (it := indexType ns W) (types := classes decls)
    (schema := schema) (opt := opt) value _ hpath hname (by rw [hsz]; omega)
    (fun os hos o ho => by
      obtain ⟨fs, hm, hf⟩ := hv os hos o ho
      exact validateObj_of_fits hd hm hf) hb
    (fun x hx => by
      have := offsets_le _ _ x hx
      rw [hsz]
      have e : ((value.map (bucketBytes decls)).map List.length).sum = (bucketsBytes decls value).length := by
        simp [bucketsBytes, List.length_flatten]
      omega)
    (by rw [hsz, hib, hil]; exact hlen) s hs
  obtain ⟨s', e, ho, -, -⟩ := setBody_ok hpath hname hsize' hpay s
  rw [hsz, hib] at ho
  obtain ⟨f1, f2, f3, f4, f5⟩ := multi_files f s.ops name (encodeUtf8 schema) (encodeUtf8 ("index(" ++ schema ++ ")"))
    (bucketsBytes decls value) (indexBytes W decls value)
  refine ⟨s', by rw [set_run hA hnew, e], ?_⟩
  intro n
  unfold filesOfState
  rw [ho]
  simp only [List.lookup]
  by_cases e1 : n = name
  · subst e1; simp only [beq_self_eq_true]; exact f1
  by_cases e2 : n = name ++ ".schema"
  · subst e2; have b1 : (name ++ ".schema" == name) = false := by simpa using e1
    simp only [b1]; simp only [beq_self_eq_true]; exact f2
  by_cases e3 : n = name ++ "_index"
  · subst e3; have b1 : (name ++ "_index" == name) = false := by simpa using e1
    have b2 : (name ++ "_index" == name ++ ".schema") = false := by simpa using e2
    simp only [b1, b2]; simp only [beq_self_eq_true]; exact f3
  by_cases e4 : n = name ++ "_index.schema"
  · subst e4; have b1 : (name ++ "_index.schema" == name) = false := by simpa using e1
    have b2 : (name ++ "_index.schema" == name ++ ".schema") = false := by simpa using e2
    have b3 : (name ++ "_index.schema" == name ++ "_index") = false := by simpa using e3
    simp only [b1, b2, b3]; simp only [beq_self_eq_true]; exact f4
  · have b1 : (n == name) = false := by simpa using e1
    have b2 : (n == name ++ ".schema") = false := by simpa using e2
    have b3 : (n == name ++ "_index") = false := by simpa using e3
    have b4 : (n == name ++ "_index.schema") = false := by simpa using e4
    simp only [b1, b2, b3, b4]
    exact f5 n (by simp [e1, e2, e3, e4])

/-! ## Examples -/

/-- two structures of 12 and 4 bits -/
example : structBytes [⟨"x", 12, false⟩, ⟨"y", 4, true⟩] [("x", 0xABC), ("y", -1)] = [0xBC, 0xFA] := by decide +kernel
example : frame (vectorBytes [⟨"x", 8, false⟩] [[("x", 7)], [("x", 9)]]) =
    [2, 0, 0, 0, 0, 0, 0, 0, 7, 9, 0, 0, 0, 0, 0, 0, 0, 0] := by decide +kernel
/-- one bucket with a `B` element between two empty ones -/
example : bucketsBytes [("A", [⟨"x", 8, false⟩]), ("B", [⟨"y", 16, false⟩])] [[], [⟨"B", [("y", 0x102)]⟩], []] = [1, 2, 1] ∧
    indexEntries [("A", [⟨"x", 8, false⟩]), ("B", [⟨"y", 16, false⟩])] [[], [⟨"B", [("y", 0x102)]⟩], []] = [0, 0, 3, 3] ∧
    indexBytes 32 [("A", [⟨"x", 8, false⟩]), ("B", [⟨"y", 16, false⟩])] [[], [⟨"B", [("y", 0x102)]⟩], []] =
      [0,0,0,0, 0,0,0,0, 3,0,0,0, 3,0,0,0] := by decide +kernel
/-- the hypotheses of the multivector theorem are met by the sample used for C14 -/
example : (bucketsBytes twoDecls twoBuckets).length < 2 ^ (8 * ((8 + 7) / 8)) ∧ GoodDecls twoDecls ∧ BucketsFit twoDecls twoBuckets :=
  ⟨by decide +kernel, twoDecls_good, twoBuckets_fit⟩

end Props
