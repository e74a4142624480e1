import Verif.Lemmas.Multi

/-!
# C14, C15, C16: multivectors
-/

namespace Props
open Py Spec Model

/-- The element `x` of an opened multivector is the structure written as `obj`: same declared type, same
values. -/
def ElemReads (decls : List (String × List FieldDecl)) (x : StructView) (obj : Obj) : Prop :=
  ∃ fs, (obj.name, fs) ∈ decls ∧ x.type = mkStruct obj.name fs ∧ ReadsAs x fs obj.attributes

/-- A value a user may pass for a multivector of the declared structures. -/
def BucketsFit (decls : List (String × List FieldDecl)) (value : List (List Obj)) : Prop :=
  ∀ b ∈ value, ∀ obj ∈ b, ∃ fs, (obj.name, fs) ∈ decls ∧ DictFits fs obj.attributes

/-- Number of bytes an element takes in the data file: one type byte and the structure. -/
def objSize (decls : List (String × List FieldDecl)) (obj : Obj) : Nat :=
  match decls.lookup obj.name with
  | some fs => 1 + ((fs.map (·.width)).sum + 7) / 8
  | none => 0

/-- Number of bytes of a whole multivector payload. -/
def bucketsSize (decls : List (String × List FieldDecl)) (value : List (List Obj)) : Nat :=
  (value.map fun b => (b.map (objSize decls)).sum).sum

/-- Declarations covered by the round trip: distinct names, at most 256 of them, good structures. -/
structure GoodDecls (decls : List (String × List FieldDecl)) : Prop where
  names : (decls.map (·.1)).Nodup
  count : decls.length ≤ 256
  good : ∀ p ∈ decls, GoodStruct p.2

/-- What the bytes of one written element look like. -/
def ObjBytes (decls : List (String × List FieldDecl)) (obj : Obj) (b : Bytes) : Prop :=
  ∃ (j : Nat) (fs : List FieldDecl) (body : Bytes), j < 256 ∧ decls[j]? = some (obj.name, fs) ∧ b = UInt8.ofNat j :: body ∧
    body.length = (mkStruct obj.name fs).sizeInBytes ∧
    ∀ (mem : Bytes) (pos : Nat), (mem.drop pos).take body.length = body → pos + body.length ≤ mem.length →
      ReadsAs ⟨mkStruct obj.name fs, mem, pos⟩ fs obj.attributes

theorem objBytes_of_fits {decls : List (String × List FieldDecl)} (hd : GoodDecls decls) {obj : Obj}
    {fs : List FieldDecl} (hm : (obj.name, fs) ∈ decls) (hf : DictFits fs obj.attributes) :
    ∃ b, serializeObj (classes decls) obj = .ok (b.length, b) ∧ ObjBytes decls obj b ∧
      b.length = objSize decls obj := by
  have hg := hd.good _ hm
  obtain ⟨body, e, hl, -, hr⟩ := C06_struct_roundtrip obj.name fs obj.attributes hg.widths hg.names hf.1
  obtain ⟨j, hj⟩ := List.getElem?_of_mem hm
  have hj' : j < 256 := lt_of_lt_of_le (List.getElem?_eq_some_iff.mp hj).1 hd.count
  have hk : ∀ f ∈ fs, (obj.attributes.lookup f.name).isSome := by
    intro f hf'; obtain ⟨v, hv⟩ := hf.1 f hf'; simp [hv]
  have hs := serializeObj_ok hd.names hj' hj hg.widths hk e
  refine ⟨UInt8.ofNat j :: body, ?_, ⟨j, fs, body, hj', hj, rfl, hl, hr⟩, ?_⟩
  · rw [hs]; simp [hl]
  · have : decls.lookup obj.name = some fs := lookup_of_mem hd.names hm
    simp only [objSize, this, List.length_cons, hl]
    show (sizeInBitsFrom 0 fs + 7) / 8 + 1 = _
    rw [sizeInBitsFrom_eq]; simp [Nat.add_comm]

theorem validateObj_of_fits {rname : String} {decls : List (String × List FieldDecl)} (hd : GoodDecls decls) {obj : Obj}
    {fs : List FieldDecl} (hm : (obj.name, fs) ∈ decls) (hf : DictFits fs obj.attributes) :
    validateObj rname (classes decls) obj = .ok () := by
  have h1 : obj.name ∈ (classes decls).map (·.name) := by
    simp only [classes, List.map_map, List.mem_map]
    exact ⟨_, hm, rfl⟩
  have h2 : (classes decls).filter (fun t => t.name = obj.name) = [mkStruct obj.name fs] := by
    have hnd := hd.names
    clear hd h1 hf
    simp only [classes]
    induction decls with
    | nil => simp at hm
    | cons p ps ih =>
      simp only [List.map_cons, List.nodup_cons] at hnd
      rcases List.mem_cons.mp hm with rfl | hm'
      · rw [List.map_cons, List.filter_cons_of_pos (by simp [mkStruct])]
        congr 1
        rw [List.filter_eq_nil_iff]
        intro t ht
        obtain ⟨q, hq, rfl⟩ := List.mem_map.mp ht
        simp only [mkStruct]
        intro e; exact hnd.1 (List.mem_map.mpr ⟨q, hq, of_decide_eq_true e⟩)
      · rw [List.map_cons, List.filter_cons_of_neg]
        · exact ih hm' hnd.2
        · simp only [mkStruct]
          intro e; exact hnd.1 (List.mem_map.mpr ⟨_, hm', (of_decide_eq_true e).symm⟩)
  unfold validateObj
  rw [if_pos h1, h2]
  exact validate_of_fits hf

theorem bufs_of_fits {decls : List (String × List FieldDecl)} (hd : GoodDecls decls) (value : List (List Obj))
    (hv : BucketsFit decls value) :
    ∃ bufs : List Bytes, List.Forall₂ (fun os b => ∃ l,
        List.Forall₂ (fun o b => serializeObj (classes decls) o = .ok (b.length, b)) os l ∧ b = l.flatten) value bufs ∧
      List.Forall₂ (fun os b => ∃ l, List.Forall₂ (ObjBytes decls) os l ∧ b = l.flatten) value bufs ∧
      (bufs.map List.length).sum = bucketsSize decls value := by
  induction value with
  | nil => exact ⟨[], .nil, .nil, rfl⟩
  | cons os value ih =>
    obtain ⟨bufs, h1, h2, h3⟩ := ih fun b hb => hv b (by simp [hb])
    have hos : ∃ l : List Bytes, List.Forall₂ (fun o b => serializeObj (classes decls) o = .ok (b.length, b)) os l ∧
        List.Forall₂ (ObjBytes decls) os l ∧ l.flatten.length = (os.map (objSize decls)).sum := by
      have hv' := hv os (by simp)
      clear hv ih h1 h2 h3
      induction os with
      | nil => exact ⟨[], .nil, .nil, rfl⟩
      | cons o os ih2 =>
        obtain ⟨l, g1, g2, g3⟩ := ih2 fun b hb => hv' b (by simp [hb])
        obtain ⟨fs, hm, hf⟩ := hv' o (by simp)
        obtain ⟨b, k1, k2, k3⟩ := objBytes_of_fits hd hm hf
        exact ⟨b :: l, .cons k1 g1, .cons k2 g2, by simp [g3, k3]⟩
    obtain ⟨l, g1, g2, g3⟩ := hos
    refine ⟨l.flatten :: bufs, .cons ⟨l, g1, rfl⟩ h1, .cons ⟨l, g2, rfl⟩ h2, ?_⟩
    have : bucketsSize decls (os :: value) = (os.map (objSize decls)).sum + bucketsSize decls value := by
      simp [bucketsSize]
    rw [this, List.map_cons, List.sum_cons, h3, g3]

/-! ## Reading -/

theorem drop_take_prefix {α} {m : List α} {p : Nat} {a b : List α} (h : (m.drop p).take (a ++ b).length = a ++ b) :
    (m.drop p).take a.length = a ∧ (m.drop (p + a.length)).take b.length = b := by
  constructor
  · have := congrArg (List.take a.length) h
    rwa [List.take_take, List.take_left, List.length_append, Nat.min_eq_left (by omega)] at this
  · have := congrArg (List.drop a.length) h
    rwa [List.drop_take, List.drop_left, List.drop_drop, List.length_append, Nat.add_sub_cancel_left] at this

theorem bucketLoop_ok {decls : List (String × List FieldDecl)} (mem : Bytes) (objs : List Obj) (bufs : List Bytes)
    (h : List.Forall₂ (ObjBytes decls) objs bufs) (offset next fuel : Nat)
    (hnext : next = offset + bufs.flatten.length) (hfuel : bufs.flatten.length ≤ fuel)
    (hsub : (mem.drop offset).take bufs.flatten.length = bufs.flatten) (hlen : next ≤ mem.length) :
    ∃ xs, bucketLoop mem (classes decls) next fuel offset = .ok xs ∧ List.Forall₂ (ElemReads decls) xs objs := by
  induction h generalizing offset fuel with
  | nil =>
    refine ⟨[], ?_, .nil⟩
    cases fuel with
    | zero => rfl
    | succ n => simp only [bucketLoop]; rw [if_neg (by simp at hnext; omega)]; rfl
  | @cons o b os bs hob _ ih =>
    obtain ⟨j, fs, body, hj, hdj, rfl, hbl, hr⟩ := hob
    simp only [List.flatten_cons, List.cons_append, List.length_cons, List.length_append] at hnext hfuel hlen
    have hs' : (mem.drop offset).take (([UInt8.ofNat j] ++ (body ++ bs.flatten)).length) =
        [UInt8.ofNat j] ++ (body ++ bs.flatten) := by simpa using hsub
    obtain ⟨ha, hb⟩ := drop_take_prefix hs'
    obtain ⟨hb1, hb2⟩ := drop_take_prefix hb
    simp only [List.length_singleton] at ha hb hb1 hb2
    obtain ⟨n, rfl⟩ : ∃ n, fuel = n + 1 := ⟨fuel - 1, by omega⟩
    have hread : readValue mem (offset * 8) 8 false = .ok (j : Int) := by
      have e := readValue_embed (mem := mem) (buf := [UInt8.ofNat j]) (p := offset) (o := 0) (w := 8) (s := false)
        (by omega) (by omega) (by simp) (by simpa using ha) (by simp; omega)
      rw [Nat.add_zero] at e
      rw [e, readValue_field _ _ _ _ (by omega) (by omega) (by simp) (by simp) (by simp)]
      simp only [fieldValue, Bool.false_eq_true, if_false]
      congr 1
      rw [unsignedAt_eq]
      simp only [fromLE, UInt8.toNat_ofNat']
      simp
      omega
    have ht : (classes decls)[j]? = some (mkStruct o.name fs) := by simp [classes, hdj]
    obtain ⟨xs, e, hxs⟩ := ih (offset + 1 + (mkStruct o.name fs).sizeInBytes) n
      (by rw [← hbl]; omega) (by omega) (by rw [← hbl]; exact hb2)
    refine ⟨⟨mkStruct o.name fs, mem, offset + 1⟩ :: xs, ?_, .cons ?_ hxs⟩
    · simp only [bucketLoop]
      rw [if_pos (by omega)]
      simp only [hread, bind, Except.bind, Int.toNat_natCast, ht, e]
      rfl
    · exact ⟨fs, List.mem_of_getElem? hdj, rfl, hr mem (offset + 1) hb1 (by omega)⟩

theorem indexType_size (ns : String) (w : Nat) : (indexType ns w).sizeInBytes = (w + 7) / 8 := by
  show (sizeInBitsFrom 0 [_] + 7) / 8 = _
  simp [sizeInBitsFrom]

theorem toLE_all {n : Nat} (pts : List Nat) : ∀ b ∈ pts.map (toLE n), b.length = n := by
  intro b hb; obtain ⟨x, -, rfl⟩ := List.mem_map.mp hb; exact toLE_length n x

/-- An index entry reads as the stored offset reduced modulo `2^width`. -/
theorem index_value (w : Nat) (hw : 1 ≤ w) (hw' : w ≤ 64) (pts : List Nat) (i x : Nat) (hi : pts[i]? = some x) :
    (getItem (indexType ns w) (frame (pts.map (toLE ((w + 7) / 8))).flatten) i).getAttr "value" =
      .ok ((x % 2 ^ w : Nat) : Int) := by
  have hsz := indexType_size ns w
  have hall := toLE_all (n := (w + 7) / 8) pts
  have hil : i < pts.length := (List.getElem?_eq_some_iff.mp hi).1
  have hflen := flatten_length_const _ hall
  rw [List.length_map] at hflen
  have hb : (pts.map (toLE ((w + 7) / 8)))[i]? = some (toLE ((w + 7) / 8) x) := by simp [hi]
  have hin : (w + 7) / 8 * i + (w + 7) / 8 ≤ (w + 7) / 8 * pts.length := by
    rw [← Nat.mul_succ]; exact Nat.mul_le_mul_left _ hil
  have hsub := frame_drop (pts.map (toLE ((w + 7) / 8))).flatten ((w + 7) / 8 * i) ((w + 7) / 8) (by omega)
  rw [flatten_slice _ hall i _ hb] at hsub
  have hl := toLE_length ((w + 7) / 8) x
  have hget : ∀ m, (getItem (indexType ns w) m i).getAttr "value" =
      readValue m ((8 + (w + 7) / 8 * i) * 8 + 0) w false := by
    intro m
    have : (indexType ns w).fields.lookup "value" = some ⟨0, w, false⟩ := by
      simp [indexType, mkStruct, layoutFrom]
    simp only [StructView.getAttr, getItem, this, StructView.getValue, hsz, Model.sizeOffsetInBytes]
  rw [hget, readValue_embed (buf := toLE ((w + 7) / 8) x) hw hw' (by rw [hl]; omega) (by rw [hl]; exact hsub)
    (by rw [hl, frame_length]; omega)]
  rw [readValue_field _ _ _ _ hw hw' (by rw [hl]; omega) (by simp) (by simp)]
  simp only [fieldValue, Bool.false_eq_true, if_false]
  congr 2
  apply Nat.eq_of_testBit_eq; intro k
  rw [unsignedAt_testBit, Nat.testBit_mod_two_pow, bitAt_toLE]
  by_cases hk : k < w
  · simp [hk, show k < 8 * ((w + 7) / 8) by omega]
  · simp [hk]

theorem flatten_part (bufs : List Bytes) (i : Nat) (b : Bytes) (h : bufs[i]? = some b) :
    (bufs.flatten.drop ((bufs.map List.length).take i).sum).take b.length = b ∧
    ((bufs.map List.length).take i).sum + b.length ≤ bufs.flatten.length ∧
    ((bufs.map List.length).take (i + 1)).sum = ((bufs.map List.length).take i).sum + b.length := by
  induction bufs generalizing i with
  | nil => simp at h
  | cons c bufs ih =>
    cases i with
    | zero => simp at h; subst h; simp
    | succ i =>
      simp at h
      obtain ⟨h1, h2, h3⟩ := ih i h
      refine ⟨?_, ?_, ?_⟩
      · simp only [List.map_cons, List.take_succ_cons, List.sum_cons, List.flatten_cons]
        rw [← List.drop_drop, List.drop_left]; exact h1
      · simp only [List.map_cons, List.take_succ_cons, List.sum_cons, List.flatten_cons, List.length_append]; omega
      · simp only [List.map_cons, List.take_succ_cons, List.sum_cons]; omega

/-- Four files of a multivector after its operations. -/
theorem multi_files (f : Files) (pre : List FsOp) (name : String) (sch isch p ip : Bytes) :
    let f' := replay f (pre ++ ((.openWb (name ++ ".schema") :: writeOps (name ++ ".schema") sch) ++
        [.openWb name] ++ ([.openWb (name ++ "_index"), .write (name ++ "_index") (frame ip)] ++
        (.openWb (name ++ "_index.schema") :: writeOps (name ++ "_index.schema") isch)) ++
        [.write name (frame p)]))
    f' name = some (frame p) ∧ f' (name ++ ".schema") = some sch ∧ f' (name ++ "_index") = some (frame ip) ∧
    f' (name ++ "_index.schema") = some isch ∧
    ∀ n, n ∉ [name, name ++ ".schema", name ++ "_index", name ++ "_index.schema"] → f' n = replay f pre n := by
  have h1 : name ≠ name ++ ".schema" := str_ne_append name ".schema" (by decide)
  have h2 : name ≠ name ++ "_index" := str_ne_append name "_index" (by decide)
  have h3 : name ≠ name ++ "_index.schema" := str_ne_append name "_index.schema" (by decide)
  have h4 : name ++ ".schema" ≠ name ++ "_index" := by
    intro e; exact absurd ((String.append_right_inj name).mp e) (by decide)
  have h5 : name ++ ".schema" ≠ name ++ "_index.schema" := by
    intro e; exact absurd ((String.append_right_inj name).mp e) (by decide)
  have h6 : name ++ "_index" ≠ name ++ "_index.schema" := by
    intro e; exact absurd ((String.append_right_inj name).mp e) (by decide)
  intro f'
  have key : ∀ n, f' n = if n = name then some (frame p) else if n = name ++ ".schema" then some sch
      else if n = name ++ "_index" then some (frame ip) else if n = name ++ "_index.schema" then some isch
      else replay f pre n := by
    intro n
    have hf' : f' = replay (replay f pre) ((.openWb (name ++ ".schema") :: writeOps (name ++ ".schema") sch) ++
        [.openWb name] ++ ([.openWb (name ++ "_index"), .write (name ++ "_index") (frame ip)] ++
        (.openWb (name ++ "_index.schema") :: writeOps (name ++ "_index.schema") isch)) ++
        [.write name (frame p)]) := by rw [← replay_append]
    rw [hf']
    generalize replay f pre = g
    by_cases hs : sch = [] <;> by_cases hi : isch = [] <;>
      simp only [writeOps, hs, hi, if_true, if_false, replay, List.foldl_cons, List.foldl_nil,
        applyOp, List.cons_append, List.nil_append] <;>
      by_cases e1 : n = name <;> by_cases e2 : n = name ++ ".schema" <;> by_cases e3 : n = name ++ "_index" <;>
      by_cases e4 : n = name ++ "_index.schema" <;>
      simp_all [Ne.symm h1, Ne.symm h2, Ne.symm h3, Ne.symm h4, Ne.symm h5, Ne.symm h6]
  refine ⟨?_, ?_, ?_, ?_, ?_⟩
  · rw [key]; simp
  · rw [key]; simp [Ne.symm h1]
  · rw [key]; simp [Ne.symm h2, Ne.symm h4]
  · rw [key]; simp [Ne.symm h3, Ne.symm h5, Ne.symm h6]
  · intro n hn
    simp only [List.mem_cons, List.not_mem_nil, or_false, not_or] at hn
    rw [key]; simp [hn]

/-! ## C14 -/

theorem forall2_get {α β} {R : α → β → Prop} {l : List α} {m : List β} (h : List.Forall₂ R l m) (i : Nat) {a : α}
    (ha : l[i]? = some a) : ∃ b, m[i]? = some b ∧ R a b := by
  induction h generalizing i with
  | nil => simp at ha
  | cons hab _ ih =>
    cases i with
    | zero => simp at ha; subst ha; exact ⟨_, by simp, hab⟩
    | succ i => simp at ha; simpa using ih i ha

/-- Files and file history of a successful multivector `set`, whatever the index width. -/
theorem set_multivector_run (A : ArchiveType) (path name schema : String) (opt : Bool) (W : Nat)
    (decls : List (String × List FieldDecl)) (value : List (List Obj)) (s : BState) (f : Files)
    (hA : A.resources.lookup name = some (.multivector (indexType ns W) (classes decls) schema opt))
    (hpath : path ≠ "") (hname : name ≠ "") (hnew : name ∉ s.written) (hW : 1 ≤ W)
    (hd : GoodDecls decls) (hv : BucketsFit decls value)
    (hsize : bucketsSize decls value < 2 ^ (8 * ((W + 7) / 8))) (hsize' : bucketsSize decls value < 2 ^ 64)
    (hlen : (W + 7) / 8 * (value.length + 1) < 2 ^ 63) :
    ∃ (s' : BState) (bufs : List Bytes), setResource A path name (.buckets value) s = (.ok (), s') ∧
      List.Forall₂ (fun os b => ∃ l, List.Forall₂ (ObjBytes decls) os l ∧ b = l.flatten) value bufs ∧
      bufs.flatten.length = bucketsSize decls value ∧
      filesOfState f s' name = some (frame bufs.flatten) ∧
      filesOfState f s' (name ++ ".schema") = some (encodeUtf8 schema) ∧
      filesOfState f s' (name ++ "_index") =
        some (frame ((offsets (bufs.map List.length) 0).map (toLE ((W + 7) / 8))).flatten) ∧
      filesOfState f s' (name ++ "_index.schema") = some (encodeUtf8 ("index(" ++ schema ++ ")")) := by
  obtain ⟨bufs, hb1, hb2, hb3⟩ := bufs_of_fits hd value hv
  have hbl : bufs.length = value.length := hb1.length_eq.symm
  have hflat : bufs.flatten.length = bucketsSize decls value := by rw [List.length_flatten, hb3]
  have hsz := indexType_size ns W
  have hilen : ((offsets (bufs.map List.length) 0).map (toLE ((W + 7) / 8))).flatten.length =
      (W + 7) / 8 * (value.length + 1) := by
    rw [flatten_length_const _ (toLE_all _), List.length_map, offsets_length, List.length_map, hbl]
  have hpay := fun s hs => setMultivector_ok (path := path) (name := name) (it := indexType ns W) (types := classes decls)
    (schema := schema) (opt := opt) value bufs hpath hname (by rw [hsz]; omega)
    (fun os hos o ho => by
      obtain ⟨fs, hm, hf⟩ := hv os hos o ho
      exact validateObj_of_fits hd hm hf) hb1
    (fun x hx => by
      have := offsets_le _ _ x hx
      rw [hb3] at this; rw [hsz]; omega)
    (by rw [hsz, hilen]; omega) s hs
  obtain ⟨s', e, ho, -, -⟩ := setBody_ok hpath hname (by rw [hflat]; exact hsize') hpay s
  rw [hsz] at ho
  obtain ⟨f1, f2, f3, f4, -⟩ := multi_files f s.ops name (encodeUtf8 schema) (encodeUtf8 ("index(" ++ schema ++ ")"))
    bufs.flatten ((offsets (bufs.map List.length) 0).map (toLE ((W + 7) / 8))).flatten
  refine ⟨s', bufs, by rw [set_run hA hnew, e], hb2, hflat, ?_⟩
  unfold filesOfState
  rw [ho]
  exact ⟨f1, f2, f3, f4⟩

/-- The index vector opened from the written index file. -/
theorem index_open (W : Nat) (hW : 1 ≤ W) (pts : List Nat) (hlen : (W + 7) / 8 * pts.length < 2 ^ 63) :
    FdVector.create (frame (pts.map (toLE ((W + 7) / 8))).flatten) (indexType ns W) =
      .ok ⟨frame (pts.map (toLE ((W + 7) / 8))).flatten, indexType ns W, pts.length⟩ := by
  have hsz := indexType_size ns W
  have hpos : 0 < (W + 7) / 8 := by omega
  have hfl : (pts.map (toLE ((W + 7) / 8))).flatten.length = (W + 7) / 8 * pts.length := by
    rw [flatten_length_const _ (toLE_all _), List.length_map]
  rw [C08_vector_open _ _ (by rw [hsz]; exact hpos), frame_length, frame_header _ (by rw [hfl]; omega), hfl, hsz]
  rw [if_neg (by omega), if_neg (by simp), Nat.mul_div_cancel_left _ hpos]

/-- Offset of bucket `i` read from the written index. -/
theorem bucketOffset_value (W : Nat) (hW : 1 ≤ W) (hW' : W ≤ 64) (pts : List Nat) (mem : Bytes)
    (types : List StructType) (i x : Nat) (hi : pts[i]? = some x) :
    Multivector.bucketOffset ⟨⟨frame (pts.map (toLE ((W + 7) / 8))).flatten, indexType ns W, pts.length⟩, mem, types⟩
      (i : Int) = .ok (8 + x % 2 ^ W) := by
  have hil : i < pts.length := (List.getElem?_eq_some_iff.mp hi).1
  simp only [Multivector.bucketOffset, vector_get_nonneg, hil, if_true, bind, Except.bind]
  rw [index_value W hW hW' pts i x hi]
  simp only [Model.sizeOffsetInBytes]
  show Except.ok _ = _
  congr 1
  omega

/-- **C14.** If `name` is declared as a multivector with `W`-bit index over the structures `decls`, setting
it to a list of buckets of fitting elements succeeds, and opening the two written files gives a multivector
with as many buckets, whose bucket `i` lists exactly the elements of input bucket `i` in order, with their
types and values (`ElemReads`). (The index must be able to address all data: see C15.) -/
theorem C14_multivector_roundtrip (A : ArchiveType) (path name schema : String) (opt : Bool) (W : Nat)
    (decls : List (String × List FieldDecl)) (value : List (List Obj)) (s : BState) (f : Files)
    (hA : A.resources.lookup name = some (.multivector (indexType ns W) (classes decls) schema opt))
    (hpath : path ≠ "") (hname : name ≠ "") (hnew : name ∉ s.written) (hW : 1 ≤ W) (hW' : W ≤ 64)
    (hd : GoodDecls decls) (hv : BucketsFit decls value)
    (hsize : bucketsSize decls value < 2 ^ W)
    (hlen : (W + 7) / 8 * (value.length + 1) < 2 ^ 63) :
    ∃ s' indexMem mem mv, setResource A path name (.buckets value) s = (.ok (), s') ∧
      filesOfState f s' name = some mem ∧ filesOfState f s' (name ++ "_index") = some indexMem ∧
      Multivector.create indexMem mem (indexType ns W) (classes decls) = .ok mv ∧
      mv.len = .ok value.length ∧
      ∀ (i : Nat) bucket, value[i]? = some bucket →
        ∃ xs, mv.get (i : Int) = .ok xs ∧ List.Forall₂ (ElemReads decls) xs bucket := by
  have hp1 : 2 ^ W ≤ 2 ^ (8 * ((W + 7) / 8)) := Nat.pow_le_pow_right (by omega) (by omega)
  have hp2 : 2 ^ W ≤ 2 ^ 64 := Nat.pow_le_pow_right (by omega) hW'
  obtain ⟨s', bufs, e, hb, hflat, f1, -, f3, -⟩ := set_multivector_run A path name schema opt W decls value s f hA hpath
    hname hnew hW hd hv (by omega) (by omega) hlen
  have hbl : bufs.length = value.length := hb.length_eq.symm
  have hpl : (offsets (bufs.map List.length) 0).length = value.length + 1 := by
    rw [offsets_length, List.length_map, hbl]
  have hopen := index_open (ns := ns) W hW (offsets (bufs.map List.length) 0) (by rw [hpl]; exact hlen)
  have hval := bucketOffset_value (ns := ns) W hW hW' (offsets (bufs.map List.length) 0) (frame bufs.flatten) (classes decls)
  have hn63 : value.length + 1 < 2 ^ 63 := by
    have hpos : 0 < (W + 7) / 8 := by omega
    exact lt_of_le_of_lt (Nat.le_mul_of_pos_left _ hpos) hlen
  refine ⟨s', _, _, _, e, f1, f3, by simp only [Multivector.create, hopen, bind, Except.bind]; rfl, ?_, ?_⟩
  · simp only [Multivector.len, bind, Except.bind]
    rw [vector_len_ok (by rw [hpl]; exact hn63)]
    simp only [hpl, Nat.add_sub_cancel, pyLen]
    rw [if_pos (by omega)]; rfl
  · intro i bucket hi
    have hil : i < value.length := (List.getElem?_eq_some_iff.mp hi).1
    obtain ⟨b, hbi, l, hobj, rfl⟩ := forall2_get hb i hi
    obtain ⟨hp1', hp2', hp3'⟩ := flatten_part bufs i _ hbi
    have hx1 := hval i _ (offsets_getElem? _ _ i (by rw [List.length_map, hbl]; omega))
    have hx2 := hval (i + 1) _ (offsets_getElem? _ _ (i + 1) (by rw [List.length_map, hbl]; omega))
    rw [hp3'] at hx2
    rw [Nat.zero_add, Nat.mod_eq_of_lt (by omega)] at hx1 hx2
    obtain ⟨xs, hxs, hf⟩ := bucketLoop_ok (decls := decls) (frame bufs.flatten) bucket l hobj
      (8 + ((bufs.map List.length).take i).sum) (8 + (((bufs.map List.length).take i).sum + l.flatten.length))
      l.flatten.length (by omega) (le_refl _)
      (by rw [frame_drop _ _ _ hp2']; exact hp1') (by rw [frame_length]; omega)
    refine ⟨xs, ?_, hf⟩
    simp only [Multivector.get, hx1, bind, Except.bind]
    rw [show ((i : Int) + 1) = ((i + 1 : Nat) : Int) by omega, hx2]
    simp only
    rw [show 8 + (((bufs.map List.length).take i).sum + l.flatten.length) - (8 + ((bufs.map List.length).take i).sum) =
      l.flatten.length by omega]
    exact hxs

/-! ## C15 -/

theorem indexAdds_overflow {name : String} {size : Nat} (points : List Nat) (h : ∃ x ∈ points, 2 ^ (8 * size) ≤ x)
    (s : BState) {d0 : Bytes} (hs : s.store.lookup (name ++ "_index") = some ⟨d0, true⟩) :
    ∃ s', forEach points (fun i => indexWriterAdd name size i) s = (.error .overflowError, s') ∧
      s'.ops = s.ops ∧ s'.written = s.written := by
  induction points generalizing s d0 with
  | nil => simp at h
  | cons x xs ih =>
    show ∃ s', (indexWriterAdd name size x >>= fun _ => forEach xs fun i => indexWriterAdd name size i) s = _ ∧ _
    by_cases hx : x < 2 ^ (8 * size)
    · have h' : ∃ y ∈ xs, 2 ^ (8 * size) ≤ y := by
        obtain ⟨y, hy, hle⟩ := h
        rcases List.mem_cons.mp hy with rfl | hy
        · omega
        · exact ⟨y, hy, hle⟩
      obtain ⟨s1, e1, w1⟩ := resWrite_ok (b := toLE size x) hs
      have e1' : indexWriterAdd name size x s = (.ok (), s1) := by
        show (BM.lift (toBytes (x : Int) size false) >>= fun b => resWrite (name ++ "_index") b) s = _
        rw [BM.bind_ok (lift_ok (by rw [toBytes_unsigned, if_pos hx]) s), e1]
      obtain ⟨s2, e2, o2, w2⟩ := ih h' s1 (w1.own _ hs)
      refine ⟨s2, by rw [BM.bind_ok e1', e2], by rw [o2, w1.ops], by rw [w2, w1.written]⟩
    · have e1' : indexWriterAdd name size x s = (.error .overflowError, s) := by
        show (BM.lift (toBytes (x : Int) size false) >>= fun b => resWrite (name ++ "_index") b) s = _
        have : BM.lift (toBytes (x : Int) size false) s = (.error .overflowError, s) := by
          rw [BM.lift_run, toBytes_unsigned, if_neg hx]
        rw [BM.bind_err this]
      exact ⟨s, by rw [BM.bind_err e1'], rfl, rfl⟩

/-- **C15, whole bytes.** If the data does not fit what the index can address, counted in whole bytes,
`set` raises `OverflowError`; the resource is not recorded as set; its data file and its index file
are left empty, so that opening them as a multivector raises. -/
theorem C15_overflow_bytes (A : ArchiveType) (path name schema : String) (opt : Bool) (W : Nat)
    (decls : List (String × List FieldDecl)) (value : List (List Obj)) (s : BState) (f : Files)
    (hA : A.resources.lookup name = some (.multivector (indexType ns W) (classes decls) schema opt))
    (hpath : path ≠ "") (hname : name ≠ "") (hnew : name ∉ s.written) (hW : 1 ≤ W)
    (hd : GoodDecls decls) (hv : BucketsFit decls value)
    (hsize : 2 ^ (8 * ((W + 7) / 8)) ≤ bucketsSize decls value) :
    ∃ s', setResource A path name (.buckets value) s = (.error .overflowError, s') ∧
      s'.written = s.written ∧
      filesOfState f s' name = some [] ∧ filesOfState f s' (name ++ "_index") = some [] ∧
      Multivector.create [] [] (indexType ns W) (classes decls) = .error .corruptResource := by
  obtain ⟨bufs, hb1, hb2, hb3⟩ := bufs_of_fits hd value hv
  have hsz := indexType_size ns W
  have hni : name ++ "_index" ≠ "" := by intro e; exact hname (String.append_eq_empty_iff.mp e).1
  have hns : name ++ ".schema" ≠ "" := by intro e; exact hname (String.append_eq_empty_iff.mp e).1
  have hne1 : name ≠ name ++ "_index" := str_ne_append name _ (by decide)
  obtain ⟨s1, e1, o1, v1, -, -⟩ := writeRawData_ok hpath hns
    (encodeUtf8 (Sig.multivector (indexType ns W) (classes decls) schema opt).schema) s
  obtain ⟨s2, e2, o2, v2, l2, -⟩ := storageGet_ok hpath hname s1
  have e0 : forEach value (fun subList => forEach subList fun obj => BM.lift (validateObj name (classes decls) obj)) s2 =
      (.ok (), s2) := by
    clear hsize hb1 hb2 hb3
    induction value with
    | nil => rfl
    | cons os value ih =>
      show (forEach os (fun obj => BM.lift (validateObj name (classes decls) obj)) >>= fun _ => _) s2 = _
      rw [BM.bind_ok (forEach_lift_ok (fun o ho => by
        obtain ⟨fs, hm, hf⟩ := hv os (by simp) o ho
        exact validateObj_of_fits hd hm hf) s2)]
      exact ih fun os' h' o ho => hv os' (by simp [h']) o ho
  obtain ⟨s3, e3, w3⟩ := writeBuckets_ok value bufs 0 hb1 s2 l2
  obtain ⟨s4, e4, o4, v4, l4, -⟩ := storageGet_ok hpath hni s3
  have e4' : indexWriterInit path name (indexType ns W).sizeInBytes s3 = (.ok (), s4) := by
    unfold indexWriterInit; rw [if_neg (by simp [hname, hsz]; omega), e4]
  obtain ⟨s5, e5, o5, v5⟩ := indexAdds_overflow (name := name) (size := (indexType ns W).sizeInBytes)
    (offsets (bufs.map List.length) 0)
    ⟨bucketsSize decls value, by
      have := offsets_getElem? (bufs.map List.length) 0 (bufs.map List.length).length (le_refl _)
      rw [List.take_length, hb3, Nat.zero_add] at this
      exact List.mem_of_getElem? this, by rw [hsz]; exact hsize⟩ s4 l4
  have eSet : setPayload path name (.multivector (indexType ns W) (classes decls) schema opt) (.buckets value) s2 =
      (.error .overflowError, s5) := by
    show setMultivector path name (indexType ns W) (classes decls) schema value s2 = _
    unfold setMultivector
    rw [BM.bind_ok e0, BM.bind_ok e3, BM.bind_ok e4', BM.bind_err e5]
  refine ⟨s5, ?_, ?_, ?_⟩
  · rw [set_run hA hnew]
    unfold setBody
    rw [BM.bind_ok e1, BM.bind_ok e2, BM.bind_err eSet]
  · rw [v5, v4, w3.written, v2, v1]
  · have hops : s5.ops = s.ops ++ (.openWb (name ++ ".schema") :: writeOps (name ++ ".schema") (encodeUtf8 schema)) ++
        [.openWb name, .openWb (name ++ "_index")] := by
      rw [o5, o4, w3.ops, o2, o1]; simp [Sig.schema]
    refine ⟨?_, ?_, rfl⟩
    · unfold filesOfState
      rw [hops, replay_append]
      simp [replay, applyOp, hne1]
    · unfold filesOfState
      rw [hops, replay_append]
      simp [replay, applyOp]

/-- **C15, the band.** For widths that are not a multiple of 8 there is a band of sizes that is accepted although the
index cannot address all data: `set` succeeds, and the end of the last bucket reads as the size reduced
modulo `2^W`, which is not the size. -/
theorem C15_truncated_index (A : ArchiveType) (path name schema : String) (opt : Bool) (W : Nat)
    (decls : List (String × List FieldDecl)) (value : List (List Obj)) (s : BState) (f : Files)
    (hA : A.resources.lookup name = some (.multivector (indexType ns W) (classes decls) schema opt))
    (hpath : path ≠ "") (hname : name ≠ "") (hnew : name ∉ s.written) (hW : 1 ≤ W) (hW' : W ≤ 64)
    (hd : GoodDecls decls) (hv : BucketsFit decls value)
    (hlo : 2 ^ W ≤ bucketsSize decls value) (hhi : bucketsSize decls value < 2 ^ (8 * ((W + 7) / 8)))
    (hlen : (W + 7) / 8 * (value.length + 1) < 2 ^ 63) :
    ∃ s' indexMem mem mv, setResource A path name (.buckets value) s = (.ok (), s') ∧
      filesOfState f s' name = some mem ∧ filesOfState f s' (name ++ "_index") = some indexMem ∧
      Multivector.create indexMem mem (indexType ns W) (classes decls) = .ok mv ∧
      mv.bucketOffset (value.length : Int) = .ok (8 + bucketsSize decls value % 2 ^ W) ∧
      bucketsSize decls value % 2 ^ W ≠ bucketsSize decls value := by
  have hp2 : 2 ^ (8 * ((W + 7) / 8)) ≤ 2 ^ 64 := Nat.pow_le_pow_right (by omega) (by omega)
  obtain ⟨s', bufs, e, hb, hflat, f1, -, f3, -⟩ := set_multivector_run A path name schema opt W decls value s f hA hpath
    hname hnew hW hd hv hhi (by omega) hlen
  have hbl : bufs.length = value.length := hb.length_eq.symm
  have hpl : (offsets (bufs.map List.length) 0).length = value.length + 1 := by
    rw [offsets_length, List.length_map, hbl]
  have hopen := index_open (ns := ns) W hW (offsets (bufs.map List.length) 0) (by rw [hpl]; exact hlen)
  have hval := bucketOffset_value (ns := ns) W hW hW' (offsets (bufs.map List.length) 0) (frame bufs.flatten) (classes decls)
    value.length (bucketsSize decls value) (by
      have := offsets_getElem? (bufs.map List.length) 0 (bufs.map List.length).length (le_refl _)
      rw [List.take_length, ← List.length_flatten, hflat, Nat.zero_add, List.length_map, hbl] at this
      exact this)
  refine ⟨s', _, _, _, e, f1, f3, by simp only [Multivector.create, hopen, bind, Except.bind]; rfl, hval, ?_⟩
  have := Nat.mod_lt (bucketsSize decls value) (show 0 < 2 ^ W from Nat.pow_pos (by omega))
  omega

/-- **C15.** Whether the data of a multivector fits its index is decided in whole bytes. If the index (of `W` bits, `w` bytes) cannot
count the data in `w` bytes, `set` raises `OverflowError`, the resource is not recorded as set and both its files are left
empty, so that they do not open. Otherwise `set` succeeds and the files open as a multivector with the right number of buckets;
if the data is addressable with `W` bits, every bucket reads back; if not - possible only if `W` is not a multiple of 8 - the
end of the last bucket reads as the size modulo `2 ^ W`, which is not the size. -/
theorem C15_index_overflow (A : ArchiveType) (path name schema : String) (opt : Bool) (W : Nat)
    (decls : List (String × List FieldDecl)) (value : List (List Obj)) (s : BState) (f : Files)
    (hA : A.resources.lookup name = some (.multivector (indexType ns W) (classes decls) schema opt))
    (hpath : path ≠ "") (hname : name ≠ "") (hnew : name ∉ s.written) (hW : 1 ≤ W) (hW' : W ≤ 64)
    (hd : GoodDecls decls) (hv : BucketsFit decls value) (hlen : (W + 7) / 8 * (value.length + 1) < 2 ^ 63) :
    ((setResource A path name (.buckets value) s).1 = .error .overflowError ↔ 2 ^ (8 * ((W + 7) / 8)) ≤ bucketsSize decls value) ∧
    (2 ^ (8 * ((W + 7) / 8)) ≤ bucketsSize decls value →
      ∃ s', setResource A path name (.buckets value) s = (.error .overflowError, s') ∧ s'.written = s.written ∧
        filesOfState f s' name = some [] ∧ filesOfState f s' (name ++ "_index") = some [] ∧
        Multivector.create [] [] (indexType ns W) (classes decls) = .error .corruptResource) ∧
    (bucketsSize decls value < 2 ^ (8 * ((W + 7) / 8)) →
      ∃ s' indexMem mem mv, setResource A path name (.buckets value) s = (.ok (), s') ∧
        filesOfState f s' name = some mem ∧ filesOfState f s' (name ++ "_index") = some indexMem ∧
        Multivector.create indexMem mem (indexType ns W) (classes decls) = .ok mv ∧
        (bucketsSize decls value < 2 ^ W → ∀ (i : Nat) bucket, value[i]? = some bucket →
          ∃ xs, mv.get (i : Int) = .ok xs ∧ List.Forall₂ (ElemReads decls) xs bucket) ∧
        (2 ^ W ≤ bucketsSize decls value → ¬ 8 ∣ W ∧ mv.bucketOffset (value.length : Int) = .ok (8 + bucketsSize decls value % 2 ^ W) ∧
          bucketsSize decls value % 2 ^ W ≠ bucketsSize decls value)) := by
  have hover := fun h => C15_overflow_bytes A path name schema opt W decls value s f hA hpath hname hnew hW hd hv h
  have hfits : bucketsSize decls value < 2 ^ (8 * ((W + 7) / 8)) →
      ∃ s' indexMem mem mv, setResource A path name (.buckets value) s = (.ok (), s') ∧
        filesOfState f s' name = some mem ∧ filesOfState f s' (name ++ "_index") = some indexMem ∧
        Multivector.create indexMem mem (indexType ns W) (classes decls) = .ok mv ∧
        (bucketsSize decls value < 2 ^ W → ∀ (i : Nat) bucket, value[i]? = some bucket →
          ∃ xs, mv.get (i : Int) = .ok xs ∧ List.Forall₂ (ElemReads decls) xs bucket) ∧
        (2 ^ W ≤ bucketsSize decls value → ¬ 8 ∣ W ∧ mv.bucketOffset (value.length : Int) = .ok (8 + bucketsSize decls value % 2 ^ W) ∧
          bucketsSize decls value % 2 ^ W ≠ bucketsSize decls value) := by
    intro hhi
    by_cases hlo : bucketsSize decls value < 2 ^ W
    · obtain ⟨s', im, mem, mv, h1, h2, h3, h4, -, h6⟩ :=
        C14_multivector_roundtrip A path name schema opt W decls value s f hA hpath hname hnew hW hW' hd hv hlo hlen
      exact ⟨s', im, mem, mv, h1, h2, h3, h4, fun _ => h6, fun h => absurd h (by omega)⟩
    · obtain ⟨s', im, mem, mv, h1, h2, h3, h4, h5, h6⟩ :=
        C15_truncated_index A path name schema opt W decls value s f hA hpath hname hnew hW hW' hd hv (by omega) hhi hlen
      refine ⟨s', im, mem, mv, h1, h2, h3, h4, fun h => absurd h hlo, fun _ => ⟨?_, h5, h6⟩⟩
      rintro ⟨k, rfl⟩
      rw [show (8 * k + 7) / 8 = k by omega] at hhi
      omega
  refine ⟨⟨fun he => ?_, fun h => ?_⟩, hover, hfits⟩
  · by_contra hc
    obtain ⟨s', -, -, -, h1, -⟩ := hfits (by omega)
    rw [h1] at he; simp at he
  · obtain ⟨s', h1, -⟩ := hover h
    rw [h1]

/-- A 3-bit index over a one-byte structure. -/
def narrowArchive : ArchiveType :=
  mkArchive "A" "sA" [("m", .multivector (indexType "" 3) (classes [("S", [⟨"x", 8, false⟩])]) "sm" false)]

/-- Five elements in one bucket. -/
def fiveElements : List (List Obj) :=
  [[⟨"S", [("x", 1)]⟩, ⟨"S", [("x", 2)]⟩, ⟨"S", [("x", 3)]⟩, ⟨"S", [("x", 4)]⟩, ⟨"S", [("x", 5)]⟩]]

/-- **The last case of C15 happens**: with a 3-bit index, writing one bucket of five
two-byte elements succeeds and reads back as a bucket of one element. -/
theorem C15_counterexample_narrow_index :
    (setResource narrowArchive "dir" "m" (.buckets fiveElements) BState.initial).1 = .ok () ∧
    (let f := filesOfState (fun _ => none)
        (setResource narrowArchive "dir" "m" (.buckets fiveElements) BState.initial).2
     do let mv ← Multivector.create ((f "m_index").getD []) ((f "m").getD []) (indexType "" 3)
          (classes [("S", [⟨"x", 8, false⟩])])
        let bucket ← mv.get 0
        pure bucket.length) = .ok 1 := by
  decide +kernel

/-! ## C16 -/

theorem bucketOffset_total (m : Multivector) (W : Nat) (hW : 1 ≤ W) (hW' : W ≤ 64)
    (ht : m.index.type = indexType ns W)
    (hmem : 8 + (W + 7) / 8 * m.index.size ≤ m.index.mem.length) (i : Nat) (hi : i < m.index.size) :
    ∃ o, m.bucketOffset (i : Int) = .ok o := by
  have hin : (W + 7) / 8 * i + (W + 7) / 8 ≤ (W + 7) / 8 * m.index.size := by
    rw [← Nat.mul_succ]; exact Nat.mul_le_mul_left _ hi
  have hget : (getItem (indexType ns W) m.index.mem i).getAttr "value" =
      readValue m.index.mem ((8 + (W + 7) / 8 * i) * 8 + 0) W false := by
    have : (indexType ns W).fields.lookup "value" = some ⟨0, W, false⟩ := by
      simp [indexType, mkStruct, layoutFrom]
    simp only [StructView.getAttr, getItem, this, StructView.getValue, indexType_size, Model.sizeOffsetInBytes]
  obtain ⟨r, hr⟩ := (C05_in_buffer_total m.index.mem ((8 + (W + 7) / 8 * i) * 8 + 0) W false 0 hW hW' (by omega)).1
  refine ⟨(r + 8).toNat, ?_⟩
  · simp only [Multivector.bucketOffset, vector_get_nonneg, hi, if_true, bind, Except.bind, ht, hget, hr]
    rfl

/-- **C16.** Indexing a multivector whose index holds `n + 1` offsets (so that its length is `n`), outside
`[0, n)`. -/
theorem C16_multivector_index (m : Multivector) (W n : Nat) (hW : 1 ≤ W) (hW' : W ≤ 64)
    (ht : m.index.type = indexType ns W) (hn : m.index.size = n + 1) (hn' : n + 1 < 2 ^ 63)
    (hmem : 8 + (W + 7) / 8 * (n + 1) ≤ m.index.mem.length) (i : Int) :
    m.len = .ok n ∧
    -- at or beyond the end
    ((n : Int) ≤ i → m.get i = .error .indexError) ∧
    -- far below
    (i < -((n : Int) + 1) → m.get i = .error .indexError) ∧
    -- `mv[-k]` for `2 ≤ k` is the bucket one after Python's
    (-((n : Int) + 1) ≤ i → i ≤ -2 → m.get i = m.get (i + n + 1)) ∧
    -- `mv[-1]` is empty
    (∀ a b, m.bucketOffset 0 = .ok a → m.bucketOffset n = .ok b → a ≤ b → m.get (-1) = .ok []) := by
  have hget := C09_vector_index m.index (by rw [hn]; exact hn')
  have herr : ∀ j : Int, (j < -((n : Int) + 1) ∨ (n : Int) + 1 ≤ j) → m.bucketOffset j = .error .indexError := by
    intro j hj
    have := (hget j).2.2 (by rw [hn]; push_cast; exact hj)
    simp only [Multivector.bucketOffset, this, bind, Except.bind]
  have hshift : ∀ j : Int, -((n : Int) + 1) ≤ j → j < 0 → m.bucketOffset j = m.bucketOffset (j + n + 1) := by
    intro j h1 h2
    have := (hget j).2.1 (by rw [hn]; push_cast; exact h1) h2
    rw [hn] at this; push_cast at this
    rw [← Int.add_assoc] at this
    simp only [Multivector.bucketOffset, this]
  refine ⟨?_, fun h => ?_, fun h => ?_, fun h1 h2 => ?_, fun a b ha hb hab => ?_⟩
  · simp only [Multivector.len, bind, Except.bind]
    rw [vector_len_ok (by rw [hn]; exact hn')]
    simp only [hn, Nat.add_sub_cancel]
    exact pyLen_ok (by omega)
  · by_cases hi : i = n
    · subst hi
      obtain ⟨o, ho⟩ := bucketOffset_total m W hW hW' ht (by rw [hn]; exact hmem) n (by omega)
      simp only [Multivector.get, ho, bind, Except.bind, herr ((n : Int) + 1) (by omega)]
    · simp only [Multivector.get, bind, Except.bind, herr i (by omega)]
  · simp only [Multivector.get, bind, Except.bind, herr i (by omega)]
  · simp only [Multivector.get, hshift i h1 (by omega), hshift (i + 1) (by omega) (by omega)]
    rw [show i + 1 + (n : Int) + 1 = i + n + 1 + 1 by omega]
  · simp only [Multivector.get, hshift (-1) (by omega) (by omega), bind, Except.bind]
    rw [show (-1 : Int) + n + 1 = (n : Int) by omega, show (-1 : Int) + 1 = 0 by omega, ha, hb]
    simp only
    rw [show a - b = 0 by omega]; rfl

/-! ## Non-vacuity -/

/-- A multivector of two structures, with two buckets, the second one empty. -/
def twoBuckets : List (List Obj) := [[⟨"S", [("x", 7)]⟩, ⟨"T", [("y", -2)]⟩], []]

def twoDecls : List (String × List FieldDecl) := [("S", [⟨"x", 8, false⟩]), ("T", [⟨"y", 12, true⟩])]

theorem twoDecls_good : GoodDecls twoDecls := by
  refine ⟨by decide, by decide, ?_⟩
  intro p hp
  simp only [twoDecls, List.mem_cons, List.not_mem_nil, or_false] at hp
  rcases hp with rfl | rfl
  all_goals
    refine ⟨?_, by decide⟩
    intro f hf
    simp only [List.mem_cons, List.not_mem_nil, or_false] at hf
    subst hf; decide

theorem twoBuckets_fit : BucketsFit twoDecls twoBuckets := by
  intro b hb o ho
  simp only [twoBuckets, List.mem_cons, List.not_mem_nil, or_false] at hb
  rcases hb with rfl | rfl
  · simp only [List.mem_cons, List.not_mem_nil, or_false] at ho
    rcases ho with rfl | rfl
    · refine ⟨[⟨"x", 8, false⟩], by decide, ?_, by decide⟩
      intro f hf
      simp only [List.mem_cons, List.not_mem_nil, or_false] at hf; subst hf
      exact ⟨7, by decide⟩
    · refine ⟨[⟨"y", 12, true⟩], by decide, ?_, by decide⟩
      intro f hf
      simp only [List.mem_cons, List.not_mem_nil, or_false] at hf; subst hf
      exact ⟨-2, by decide⟩
  · simp at ho

/-- All hypotheses of C14 hold of a concrete archive and value. -/
example : ∃ s' indexMem mem mv,
    setResource (mkArchive "A" "sA" [("m", .multivector (indexType "" 9) (classes twoDecls) "sm" false)]) "dir" "m"
      (.buckets twoBuckets) BState.initial = (.ok (), s') ∧
    filesOfState (fun _ => none) s' "m" = some mem ∧ filesOfState (fun _ => none) s' ("m" ++ "_index") = some indexMem ∧
    Multivector.create indexMem mem (indexType "" 9) (classes twoDecls) = .ok mv ∧ mv.len = .ok 2 := by
  obtain ⟨s', im, mem, mv, h1, h2, h3, h4, h5, -⟩ := C14_multivector_roundtrip (ns := "")
    (mkArchive "A" "sA" [("m", .multivector (indexType "" 9) (classes twoDecls) "sm" false)]) "dir" "m" "sm" false 9
    twoDecls twoBuckets BState.initial (fun _ => none) (by simp [mkArchive, List.lookup]) (by decide) (by decide)
    (by simp [BState.initial]) (by decide) (by decide) twoDecls_good twoBuckets_fit (by decide) (by decide)
  exact ⟨s', im, mem, mv, h1, h2, h3, h4, h5⟩

end Props
