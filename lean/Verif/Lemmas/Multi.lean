import Verif.Props.RoundTrip

namespace Model
open Py Spec Props

theorem lookup_of_mem {α} {l : List (String × α)} {k : String} {v : α} (hnd : (l.map (·.1)).Nodup)
    (hm : (k, v) ∈ l) : l.lookup k = some v := by
  induction l with
  | nil => simp at hm
  | cons q l ih =>
    obtain ⟨a, b⟩ := q
    rcases List.mem_cons.mp hm with h | h
    · cases h; simp
    · simp only [List.map_cons, List.nodup_cons] at hnd
      have hne : ¬ k = a := by
        rintro rfl; exact hnd.1 (List.mem_map_of_mem (f := (·.1)) h)
      have : (k == a) = false := by simpa using hne
      rw [List.lookup_cons, this]
      exact ih hnd.2 h

theorem mem_of_lookup {α} {l : List (String × α)} {k : String} {v : α} (h : l.lookup k = some v) : (k, v) ∈ l := by
  induction l with
  | nil => simp at h
  | cons q l ih =>
    obtain ⟨a, b⟩ := q
    rw [List.lookup_cons] at h
    by_cases hk : k = a
    · subst hk; simp at h; subst h; simp
    · have : (k == a) = false := by simpa using hk
      rw [this] at h; exact List.mem_cons_of_mem _ (ih h)

/-- The generated classes of a list of structure declarations. -/
def classes (decls : List (String × List FieldDecl)) : List StructType := decls.map fun p => mkStruct p.1 p.2

theorem initializers_lookup {decls : List (String × List FieldDecl)} (hnd : (decls.map (·.1)).Nodup)
    {j : Nat} {n : String} {fs : List FieldDecl} (h : decls[j]? = some (n, fs)) :
    (initializers (classes decls)).lookup n = some (j, mkStruct n fs) := by
  apply lookup_of_mem
  · have : (initializers (classes decls)).map (·.1) = (decls.map (·.1)).reverse := by
      simp only [initializers, List.map_reverse, List.map_map]
      congr 1
      have e : ((fun x : String × (Nat × StructType) => x.1) ∘ fun p : StructType × Nat => (p.1.name, (p.2, p.1))) =
          (fun t : StructType => t.name) ∘ Prod.fst := rfl
      rw [e, ← List.map_map, List.zipIdx_map_fst, classes, List.map_map]; rfl
    rw [this, List.nodup_reverse]; exact hnd
  · simp only [initializers, List.mem_reverse, List.mem_map]
    refine ⟨(mkStruct n fs, j), ?_, rfl⟩
    rw [List.mem_zipIdx_iff_getElem?]
    simp [classes, h]

theorem bitAt_cons (b : UInt8) (d : Bytes) (i : Nat) : bitAt (b :: d) (8 + i) = bitAt d i := by
  have e1 : (8 + i) / 8 = i / 8 + 1 := by omega
  have e2 : (8 + i) % 8 = i % 8 := by omega
  simp [bitAt, e1, e2]

theorem bitAt_cons_low (b : UInt8) (d e : Bytes) {i : Nat} (h : i < 8) : bitAt (b :: d) i = bitAt (b :: e) i := by
  have e1 : i / 8 = 0 := by omega
  simp [bitAt, e1]

/-- Writing the fields behind a type byte is the type byte followed by the plain serialisation. -/
theorem writeFields_shifted {name : String} {fs : List FieldDecl} {d : Dict} (hg : GoodWidths fs)
    (hk : ∀ f ∈ fs, (d.lookup f.name).isSome) (b : UInt8) {body : Bytes}
    (hs : serialize (mkStruct name fs) d = .ok body) :
    writeFields 8 d (mkStruct name fs).fields (b :: List.replicate (mkStruct name fs).sizeInBytes 0) =
      .ok (b :: body) := by
  have hasc := ascending_layout 0 fs hg
  have hk' : ∀ p ∈ layoutFrom 0 fs, (d.lookup p.1).isSome := by
    intro p hp
    have : p.1 ∈ (layoutFrom 0 fs).map (·.1) := List.mem_map_of_mem hp
    rw [layoutFrom_keys] at this
    obtain ⟨f, hf, hfe⟩ := List.mem_map.mp this
    rw [← hfe]; exact hk f hf
  have hsize : (mkStruct name fs).sizeInBytes = (sizeInBitsFrom 0 fs + 7) / 8 := rfl
  obtain ⟨x, ex, lx, -, px, ix, gx⟩ := writeFields_bits 0 d (layoutFrom 0 fs) 0
    (sizeInBitsFrom 0 fs) (List.replicate ((sizeInBitsFrom 0 fs + 7) / 8) 0) hasc
    (by simp; omega) hk' (fun i _ => bitAt_replicate_zero _ i)
  have hx : body = x := by
    have : serialize (mkStruct name fs) d = .ok x := ex
    rw [this] at hs; cases hs; rfl
  subst hx
  obtain ⟨y, ey, ly, qy, py, iy, gy⟩ := writeFields_bits 8 d (layoutFrom 0 fs) 0
    (sizeInBitsFrom 0 fs) (b :: List.replicate ((sizeInBitsFrom 0 fs + 7) / 8) 0) hasc
    (by simp; omega) hk' (fun i hi => by
      obtain ⟨j, rfl⟩ : ∃ j, i = 8 + j := ⟨i - 8, by omega⟩
      rw [bitAt_cons]; exact bitAt_replicate_zero _ j)
  have hy : y = b :: body := by
    apply bytes_ext
    · rw [ly]; simp only [List.length_cons, lx, List.length_replicate]
    · intro i _
      by_cases h8 : i < 8
      · rw [qy i (by omega)]; exact bitAt_cons_low b _ _ h8
      · obtain ⟨j, rfl⟩ : ∃ j, i = 8 + j := ⟨i - 8, by omega⟩
        rw [bitAt_cons]
        by_cases hin : ∃ p ∈ layoutFrom 0 fs, p.2.offset ≤ j ∧ j < p.2.offset + p.2.width
        · obtain ⟨p, hp, h1, h2⟩ := hin
          obtain ⟨v, hv⟩ := Option.isSome_iff_exists.mp (hk' p hp)
          have a1 := ix p hp v hv (j - p.2.offset) (by omega)
          have a2 := iy p hp v hv (j - p.2.offset) (by omega)
          rw [show p.2.offset + 0 + (j - p.2.offset) = j by omega] at a1
          rw [show p.2.offset + 8 + (j - p.2.offset) = 8 + j by omega] at a2
          rw [a1, a2]
        · rw [gx j (by omega) (fun p hp hc => hin ⟨p, hp, by omega, by omega⟩),
            gy (8 + j) (by omega) (fun p hp hc => hin ⟨p, hp, by omega, by omega⟩)]
  rw [← hy]; exact ey

theorem setByte_zero {b : Nat} (hb : b < 256) (d : Bytes) (x : UInt8) :
    setByte (x :: d) 0 (b : Int) = .ok (UInt8.ofNat b :: d) := by
  have h1 : (0 : Int) ≤ b ∧ (b : Int) < 256 := by omega
  simp only [setByte, List.length_cons, Nat.zero_lt_succ, if_true, h1, and_self, List.set_cons_zero,
    Int.toNat_natCast]
  rfl

theorem serializeObj_ok {decls : List (String × List FieldDecl)} (hnd : (decls.map (·.1)).Nodup)
    {j : Nat} (hj : j < 256) {obj : Obj} {fs : List FieldDecl} (h : decls[j]? = some (obj.name, fs))
    (hg : GoodWidths fs) (hk : ∀ f ∈ fs, (obj.attributes.lookup f.name).isSome) {body : Bytes}
    (hs : serialize (mkStruct obj.name fs) obj.attributes = .ok body) :
    serializeObj (classes decls) obj =
      .ok ((mkStruct obj.name fs).sizeInBytes + 1, UInt8.ofNat j :: body) := by
  have h1 := dictGet_of_lookup (initializers_lookup hnd h)
  have h2 : toBytes (j : Int) 1 false = .ok [UInt8.ofNat j] := by
    rw [toBytes_unsigned, if_pos (by simpa using hj)]
    simp only [toLE]
    rw [Nat.mod_eq_of_lt hj]
  have h3 : ((([UInt8.ofNat j] : Bytes).getD 0 0).toNat) = j := by
    simp only [List.getD_cons_zero, UInt8.toNat_ofNat']
    omega
  have h4 := writeFields_shifted hg hk (UInt8.ofNat j) hs
  simp only [serializeObj, h1, bind, Except.bind, h2, h3]
  rw [show List.replicate ((mkStruct obj.name fs).sizeInBytes + 1) (0 : UInt8) =
    0 :: List.replicate (mkStruct obj.name fs).sizeInBytes 0 from rfl, setByte_zero hj]
  simp only [Nat.one_mul]
  rw [h4]; rfl

/-! ## The loops of `__set_multivector` -/

/-- Offsets of consecutive buckets with the given sizes, including the final sentinel. -/
def offsets : List Nat → Nat → List Nat
  | [], o => [o]
  | n :: ns, o => o :: offsets ns (o + n)

theorem writeBucket_ok {name : String} {types : List StructType} (objs : List Obj) (bufs : List Bytes) (dp : Nat)
    (h : List.Forall₂ (fun o b => serializeObj types o = .ok (b.length, b)) objs bufs)
    (s : BState) {d0 : Bytes} (hs : s.store.lookup name = some ⟨d0, true⟩) :
    ∃ s', writeBucket name types objs dp s = (.ok (dp + bufs.flatten.length), s') ∧
      Wrote name bufs.flatten s s' := by
  induction h generalizing dp s d0 with
  | nil => exact ⟨s, by simp [writeBucket], Wrote.refl name s⟩
  | @cons o b os bs hob _ ih =>
    obtain ⟨s1, e1, w1⟩ := resWrite_ok (b := b) hs
    obtain ⟨s2, e2, w2⟩ := ih (dp + b.length) s1 (w1.own _ hs)
    have : writeObj name types o dp s = (.ok (dp + b.length), s1) := by
      unfold writeObj
      rw [BM.bind_ok (lift_ok hob s)]
      show (resWrite name b >>= fun _ => pure (dp + b.length)) s = _
      rw [BM.bind_ok e1]; rfl
    refine ⟨s2, ?_, by simpa using w1.trans w2⟩
    unfold writeBucket
    rw [BM.bind_ok this, e2]
    simp [Nat.add_assoc]

theorem writeBuckets_ok {name : String} {types : List StructType} (bs : List (List Obj)) (bufs : List Bytes) (dp : Nat)
    (h : List.Forall₂ (fun os b => ∃ l, List.Forall₂ (fun o b => serializeObj types o = .ok (b.length, b)) os l ∧
      b = l.flatten) bs bufs)
    (s : BState) {d0 : Bytes} (hs : s.store.lookup name = some ⟨d0, true⟩) :
    ∃ s', writeBuckets name types bs dp s = (.ok (offsets (bufs.map List.length) dp), s') ∧
      Wrote name bufs.flatten s s' := by
  induction h generalizing dp s d0 with
  | nil => exact ⟨s, by simp [writeBuckets, offsets], Wrote.refl name s⟩
  | @cons os b oss bs' hob _ ih =>
    obtain ⟨l, hl, rfl⟩ := hob
    obtain ⟨s1, e1, w1⟩ := writeBucket_ok os l dp hl s hs
    obtain ⟨s2, e2, w2⟩ := ih (dp + l.flatten.length) s1 (w1.own _ hs)
    refine ⟨s2, ?_, by simpa using w1.trans w2⟩
    unfold writeBuckets
    rw [BM.bind_ok e1, BM.bind_ok e2]; rfl

theorem indexAdds_ok {name : String} {size : Nat} (points : List Nat) (h : ∀ x ∈ points, x < 2 ^ (8 * size))
    (s : BState) {d0 : Bytes} (hs : s.store.lookup (name ++ "_index") = some ⟨d0, true⟩) :
    ∃ s', forEach points (fun i => indexWriterAdd name size i) s = (.ok (), s') ∧
      Wrote (name ++ "_index") (points.map (toLE size)).flatten s s' := by
  induction points generalizing s d0 with
  | nil => exact ⟨s, rfl, Wrote.refl _ s⟩
  | cons x xs ih =>
    obtain ⟨s1, e1, w1⟩ := resWrite_ok (b := toLE size x) hs
    obtain ⟨s2, e2, w2⟩ := ih (fun y hy => h y (by simp [hy])) s1 (w1.own _ hs)
    refine ⟨s2, ?_, by simpa using w1.trans w2⟩
    show (indexWriterAdd name size x >>= fun _ => forEach xs fun i => indexWriterAdd name size i) s = _
    have : indexWriterAdd name size x s = (.ok (), s1) := by
      unfold indexWriterAdd
      have hx : toBytes (x : Int) size false = .ok (toLE size x) := by
        rw [toBytes_unsigned, if_pos (h x (by simp))]
      rw [BM.bind_ok (lift_ok hx s), e1]
    rw [BM.bind_ok this, e2]

theorem offsets_length (ns : List Nat) (o : Nat) : (offsets ns o).length = ns.length + 1 := by
  induction ns generalizing o with
  | nil => rfl
  | cons n ns ih => simp [offsets, ih]

theorem offsets_getElem? (ns : List Nat) (o i : Nat) (h : i ≤ ns.length) :
    (offsets ns o)[i]? = some (o + (ns.take i).sum) := by
  induction ns generalizing o i with
  | nil => simp at h; subst h; simp [offsets]
  | cons n ns ih =>
    cases i with
    | zero => simp [offsets]
    | succ i => simp at h; simp [offsets, ih (o + n) i h, Nat.add_assoc]

theorem offsets_le (ns : List Nat) (o : Nat) : ∀ x ∈ offsets ns o, x ≤ o + ns.sum := by
  induction ns generalizing o with
  | nil => simp [offsets]
  | cons n ns ih =>
    intro x hx
    simp only [offsets, List.mem_cons] at hx
    rcases hx with rfl | hx
    · omega
    · have := ih (o + n) x hx; simp; omega

/-- The complete payload part of setting a multivector. -/
theorem setMultivector_ok {path name : String} {it : StructType} {types : List StructType} {schema : String}
    {opt : Bool} (value : List (List Obj)) (bufs : List Bytes) (hp : path ≠ "") (hn : name ≠ "")
    (hsize : it.sizeInBytes ≠ 0)
    (hval : ∀ os ∈ value, ∀ o ∈ os, validateObj name types o = .ok ())
    (hbuf : List.Forall₂ (fun os b => ∃ l, List.Forall₂ (fun o b => serializeObj types o = .ok (b.length, b)) os l ∧
      b = l.flatten) value bufs)
    (hpts : ∀ x ∈ offsets (bufs.map List.length) 0, x < 2 ^ (8 * it.sizeInBytes))
    (hilen : (((offsets (bufs.map List.length) 0).map (toLE it.sizeInBytes)).flatten).length < 2 ^ 64)
    (s : BState) (hs : s.store.lookup name = some ⟨[], true⟩) :
    ∃ s', setPayload path name (.multivector it types schema opt) (.buckets value) s = (.ok (), s') ∧
      s'.ops = s.ops ++ ([.openWb (name ++ "_index"),
        .write (name ++ "_index") (frame ((offsets (bufs.map List.length) 0).map (toLE it.sizeInBytes)).flatten)] ++
        (.openWb (name ++ "_index.schema") ::
          writeOps (name ++ "_index.schema") (encodeUtf8 ("index(" ++ schema ++ ")")))) ∧
      s'.written = s.written ++ [name, name ++ "_index"] ∧
      s'.store.lookup name = some ⟨bufs.flatten, true⟩ := by
  have hni : name ++ "_index" ≠ "" := by intro e; exact hn (String.append_eq_empty_iff.mp e).1
  have hns : name ++ "_index.schema" ≠ "" := by intro e; exact hn (String.append_eq_empty_iff.mp e).1
  have hne1 : name ≠ name ++ "_index" := str_ne_append name _ (by decide)
  have hne2 : name ≠ name ++ "_index.schema" := str_ne_append name _ (by decide)
  have e0 : forEach value (fun subList => forEach subList fun obj => BM.lift (validateObj name types obj)) s =
      (.ok (), s) := by
    clear hs hbuf hpts hilen
    induction value with
    | nil => rfl
    | cons os value ih =>
      show (forEach os (fun obj => BM.lift (validateObj name types obj)) >>= fun _ => _) s = _
      rw [BM.bind_ok (forEach_lift_ok (fun o ho => hval os (by simp) o ho) s)]
      exact ih fun os' h' o ho => hval os' (by simp [h']) o ho
  obtain ⟨s1, e1, w1⟩ := writeBuckets_ok value bufs 0 hbuf s hs
  obtain ⟨s2, e2, o2, v2, l2, r2⟩ := storageGet_ok hp hni s1
  have e2' : indexWriterInit path name it.sizeInBytes s1 = (.ok (), s2) := by
    unfold indexWriterInit; rw [if_neg (by simp [hn, hsize]), e2]
  obtain ⟨s3, e3, w3⟩ := indexAdds_ok _ hpts s2 l2
  have l3 := w3.own _ l2
  simp only [List.nil_append] at l3
  obtain ⟨s4, e4, o4, v4, l4, r4⟩ := closeFramed_ok l3 hilen
  obtain ⟨s5, e5, o5, v5, l5, r5⟩ := writeRawData_ok hp hns (encodeUtf8 ("index(" ++ schema ++ ")")) s4
  have ln : s5.store.lookup name = some ⟨bufs.flatten, true⟩ := by
    rw [r5 name hne2, r4 name hne1, w3.others name hne1, r2 name hne1]
    simpa using w1.own _ hs
  refine ⟨{ s5 with written := s5.written ++ [name] ++ [name ++ "_index"] }, ?_, ?_, ?_, ln⟩
  · show setMultivector path name it types schema value s = _
    unfold setMultivector
    rw [BM.bind_ok e0, BM.bind_ok e1, BM.bind_ok e2', BM.bind_ok e3]
    have : indexWriterFinish name s3 = (.ok (), s4) := e4
    rw [BM.bind_ok this, BM.bind_ok e5]
    rfl
  · show s5.ops = _
    rw [o5, o4, w3.ops, o2, w1.ops]; simp
  · show s5.written ++ [name] ++ [name ++ "_index"] = _
    rw [v5, v4, w3.written, v2, w1.written]; simp

end Model
