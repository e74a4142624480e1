import Verif.Model.Native.CppTar
import Verif.Model.Native.CppArchive
import Verif.Spec.TarFormat
import Verif.Lemmas.Archive

/-!
# C94, C95: the C++ tar reader
-/

namespace Props
open Py Model Model.Native Spec

/-! ## Fields -/

theorem foldl_digits_ge (base : Nat) (hb : 1 ≤ base) (ds : List Nat) (v : Nat) : v ≤ ds.foldl (fun n d => n * base + d) v := by
  induction ds generalizing v with
  | nil => exact Nat.le_refl _
  | cons d ds ih =>
    rw [List.foldl_cons]
    refine Nat.le_trans ?_ (ih _)
    exact Nat.le_trans (Nat.le_mul_of_pos_right v hb) (Nat.le_add_right _ _)

theorem decodeOctal_digits (ds : List Nat) (hd : ∀ d ∈ ds, d < 8) (rest : Bytes) (hr : rest = [] ∨ rest.head? = some 0) (v : Nat)
    (hv : ds.foldl (fun n d => n * 8 + d) v < 2 ^ 64) :
    decodeOctal v (ds.map (fun d => UInt8.ofNat (48 + d)) ++ rest) = .ok (ds.foldl (fun n d => n * 8 + d) v) := by
  induction ds generalizing v with
  | nil =>
    rcases hr with rfl | hr
    · rfl
    · cases rest with
      | nil => rfl
      | cons b bs => simp at hr; subst hr; simp [decodeOctal]
  | cons d ds ih =>
    have hd8 := hd d (by simp)
    have htn : (UInt8.ofNat (48 + d)).toNat = 48 + d := by rw [UInt8.toNat_ofNat']; omega
    have hne : UInt8.ofNat (48 + d) ≠ 0 := fun h => by rw [h] at htn; simp at htn; omega
    have hge := foldl_digits_ge 8 (by omega) ds (v * 8 + d)
    rw [List.foldl_cons] at hv ⊢
    rw [List.map_cons, List.cons_append, decodeOctal, if_neg hne, if_neg (by omega), if_neg (by omega), htn,
      show 48 + d - 48 = d by omega]
    exact ih (fun x hx => hd x (by simp [hx])) _ hv

theorem decodeBase256_digits (ds : List Nat) (hd : ∀ d ∈ ds, d < 256) (v : Nat) (hv : ds.foldl (fun n d => n * 256 + d) v < 2 ^ 64) :
    decodeBase256 v (ds.map UInt8.ofNat) = .ok (ds.foldl (fun n d => n * 256 + d) v) := by
  induction ds generalizing v with
  | nil => rfl
  | cons d ds ih =>
    have hd8 := hd d (by simp)
    have htn : (UInt8.ofNat d).toNat = d := by rw [UInt8.toNat_ofNat']; omega
    have hge := foldl_digits_ge 256 (by omega) ds (v * 256 + d)
    rw [List.foldl_cons] at hv ⊢
    rw [List.map_cons, decodeBase256, if_neg (by omega), htn]
    exact ih (fun x hx => hd x (by simp [hx])) _ hv

/-- Numbers are decoded. -/
theorem decodeNumeric_field {field : Bytes} {n : Nat} (h : NumberField field n) (hn : n < 2 ^ 64) : decodeNumeric field = .ok n := by
  rcases h with ⟨ds, hd, ⟨_, rest, rfl, hr⟩, rfl⟩ | ⟨ds, hne, hd, hh, rfl, rfl⟩
  · have key := decodeOctal_digits ds hd rest hr 0 hn
    cases hf : ds.map (fun d => UInt8.ofNat (48 + d)) ++ rest with
    | nil =>
      rw [hf] at key
      exact key
    | cons b bs =>
      rw [hf] at key
      rw [decodeNumeric, if_neg, key]; · rfl
      cases ds with
      | nil =>
        rcases hr with rfl | hr
        · simp at hf
        · simp only [List.map_nil, List.nil_append] at hf
          rw [hf] at hr
          simp at hr; subst hr; simp
      | cons d ds =>
        rw [List.map_cons, List.cons_append] at hf
        injection hf with hb _
        have hd8 := hd d (by simp)
        rw [← hb, UInt8.toNat_ofNat']; omega
  · obtain ⟨d, ds, rfl⟩ := List.exists_cons_of_ne_nil hne
    have h1 := hh d (by simp)
    rw [List.modifyHead_cons, List.map_cons, decodeNumeric]
    have htn : (UInt8.ofNat (d + 128)).toNat = d + 128 := by rw [UInt8.toNat_ofNat']; omega
    rw [htn, if_pos (by omega), show (d + 128) % 128 = d by omega]
    unfold bigEndian at hn ⊢
    rw [List.foldl_cons, Nat.zero_mul, Nat.zero_add] at hn ⊢
    exact decodeBase256_digits ds (fun x hx => hd x (by simp [hx])) d hn

theorem untilZero_field {field text : Bytes} (h : TextField field text) : untilZero field = text := by
  obtain ⟨h0, rest, rfl, hr⟩ := h
  unfold untilZero
  have : ∀ b ∈ text, decide (b ≠ 0) = true := fun b hb => by simp; rintro rfl; exact h0 hb
  rw [List.takeWhile_append_of_pos this]
  rcases hr with rfl | hr
  · simp
  · cases rest with
    | nil => simp
    | cons b bs => simp at hr; subst hr; simp

/-! ## Headers -/

theorem sum_replicate_le {a b : Bytes} {n : Nat} {x : UInt8} : n * x.toNat ≤ ((a ++ List.replicate n x ++ b).map UInt8.toNat).sum := by
  rw [List.map_append, List.map_append, List.map_replicate, List.sum_append, List.sum_append, List.sum_replicate_nat]
  exact Nat.le_trans (Nat.le_add_left _ _) (Nat.le_add_right _ _)

theorem bytes_sum_lt (l : Bytes) : (l.map UInt8.toNat).sum ≤ 255 * l.length := by
  induction l with
  | nil => simp
  | cons b l ih =>
    have := b.toNat_lt
    simp only [List.map_cons, List.sum_cons, List.length_cons]
    omega

theorem header_checked {h name : Bytes} {type : UInt8} {size : Nat} (hh : TarHeader h name type size) : verifyChecksum h = .ok true := by
  have hlen := hh.length
  have e1 : tarSlice h 0 148 = h.take 148 := by simp [tarSlice]
  have e2 : tarSlice h 156 356 = h.drop 156 := by
    unfold tarSlice
    rw [List.take_of_length_le (by rw [List.length_drop]; omega)]
  have hc := hh.checksum
  rw [e1, e2] at hc
  have hb := bytes_sum_lt (h.take 148 ++ List.replicate 8 32 ++ h.drop 156)
  rw [List.length_append, List.length_append, List.length_take, List.length_drop, List.length_replicate, hlen] at hb
  unfold verifyChecksum
  rw [show tarField h 148 8 = tarSlice h 148 8 from rfl, decodeNumeric_field hc (by omega)]
  simp

theorem header_not_zero {h name : Bytes} {type : UInt8} {size : Nat} (hh : TarHeader h name type size) : h.all (fun b => b == 0) = false := by
  by_contra hz
  rw [Bool.not_eq_false, List.all_eq_true] at hz
  have hz' : ∀ b ∈ h, b = 0 := fun b hb => by simpa using hz b hb
  have hf : ∀ b ∈ tarSlice h 148 8, b = 0 := fun b hb => hz' b (List.mem_of_mem_drop (List.mem_of_mem_take hb))
  have hsum := sum_replicate_le (a := tarSlice h 0 148) (b := tarSlice h 156 356) (n := 8) (x := 32)
  rcases hh.checksum with ⟨ds, hd, ⟨h0, rest, he, hr⟩, hn⟩ | ⟨ds, hne, hd, hd2, he, hn⟩
  · cases ds with
    | nil =>
      rw [show bigEndian 8 [] = 0 from rfl] at hn
      rw [hn] at hsum
      revert hsum; decide
    | cons d ds =>
      have := hf (UInt8.ofNat (48 + d)) (by rw [he]; simp)
      exact h0 (by rw [List.map_cons, this]; simp)
  · obtain ⟨d, ds, rfl⟩ := List.exists_cons_of_ne_nil hne
    have h1 := hd2 d (by simp)
    have := hf (UInt8.ofNat (d + 128)) (by rw [he]; simp)
    have htn : (UInt8.ofNat (d + 128)).toNat = d + 128 := by rw [UInt8.toNat_ofNat']; omega
    rw [this] at htn
    simp at htn

theorem header_flag {h name : Bytes} {type : UInt8} {size : Nat} (hh : TarHeader h name type size) : h.getD 156 0 = type := by
  have := hh.type
  unfold tarSlice at this
  have h2 : (h.drop 156).head? = some type := by
    cases hd : h.drop 156 with
    | nil => rw [hd] at this; cases this
    | cons b bs => rw [hd] at this; simpa using this
  rw [List.head?_drop] at h2
  rw [List.getD_eq_getElem?_getD, h2]; rfl

theorem image_length {files : List (Bytes × Bytes)} {image : Bytes} (h : TarImage files image) : image.length % 512 = 0 := by
  have hb : ∀ {b c : Bytes}, TarBlocks b c → b.length % 512 = 0 := fun ⟨_, _, h, _⟩ => h
  induction h with
  | empty => rfl
  | last rest hr => rw [List.length_append, List.length_replicate]; omega
  | file type ht hh hbl _ ih => have := hh.length; have := hb hbl; simp; omega
  | directory hh _ ih => have := hh.length; simp; omega
  | longName type ht hne hl hnb ht' hh hbl _ ih => have := hh.length; have := hb hbl; have := hl.length; have := hb hnb; simp; omega

theorem blocks_length {blocks content : Bytes} (h : TarBlocks blocks content) : blocks.length = content.length + tarPadding content.length := by
  obtain ⟨fill, rfl, h1, h2⟩ := h
  rw [List.length_append] at h1 ⊢
  unfold tarPadding
  omega

/-! ## Reading -/

/-- A member as the reader finds it. -/
def EntryOf (data : Bytes) (file : Bytes × Bytes) (e : TarEntry) : Prop :=
  e.name = file.1 ∧ e.size = file.2.length ∧ e.offset + e.size ≤ data.length ∧ (data.drop e.offset).take e.size = file.2

theorem block_at (pre h post : Bytes) : ((pre ++ (h ++ post)).drop pre.length).take h.length = h := by simp

theorem step_file {data pre h blocks image name content long : Bytes} {es : List TarEntry} {type : UInt8} (hd : data = pre ++ (h ++ (blocks ++ image))) (hlen : data.length < 2 ^ 63)
    (ht : type = 48 ∨ type = 0) (hh : TarHeader h name type content.length) (hb : TarBlocks blocks content) :
    tarStep data ⟨pre.length, long, es⟩ = .next ⟨(pre ++ h ++ blocks).length, [], es ++ [⟨if long ≠ [] then long else name, (pre ++ h).length, content.length⟩]⟩ := by
  have hl := hh.length
  have hbl := blocks_length hb
  have hdl : data.length = pre.length + (512 + (blocks.length + image.length)) := by rw [hd]; simp [hl]
  have hblk : (data.drop pre.length).take 512 = h := by rw [hd, ← hl]; exact block_at _ _ _
  unfold tarStep
  simp only [hblk]
  rw [if_pos (by omega), if_pos (by omega), header_not_zero hh, if_neg (by simp), header_checked hh]
  simp only [header_flag hh]
  have hf : type.toNat = 48 ∨ type.toNat = 0 := by rcases ht with rfl | rfl <;> simp
  rw [if_pos hf, show tarField h 124 12 = tarSlice h 124 12 from rfl, decodeNumeric_field hh.size (by omega),
    show tarField h 0 100 = tarSlice h 0 100 from rfl, untilZero_field hh.name]
  simp only [List.length_append, hl]
  congr 2
  omega

theorem step_directory {data pre h image name long : Bytes} {n : Nat} {es : List TarEntry} (hd : data = pre ++ (h ++ image))
    (hh : TarHeader h name 53 n) : tarStep data ⟨pre.length, long, es⟩ = .next ⟨(pre ++ h).length, long, es⟩ := by
  have hl := hh.length
  have hdl : data.length = pre.length + (512 + image.length) := by rw [hd]; simp [hl]
  have hblk : (data.drop pre.length).take 512 = h := by rw [hd, ← hl]; exact block_at _ _ _
  unfold tarStep
  simp only [hblk]
  rw [if_pos (by omega), if_pos (by omega), header_not_zero hh, if_neg (by simp), header_checked hh]
  simp only [header_flag hh]
  rw [if_neg (by decide), if_pos (by decide)]
  simp only [List.length_append, hl]

theorem step_long {data pre h blocks image name any text long : Bytes} {es : List TarEntry} (hd : data = pre ++ (h ++ (blocks ++ image))) (hlen : data.length < 2 ^ 63)
    (ht : TextField text name) (hh : TarHeader h any 76 text.length) (hb : TarBlocks blocks text) :
    tarStep data ⟨pre.length, long, es⟩ = .next ⟨(pre ++ h ++ blocks).length, name, es⟩ := by
  have hl := hh.length
  have hbl := blocks_length hb
  have hdl : data.length = pre.length + (512 + (blocks.length + image.length)) := by rw [hd]; simp [hl]
  have hblk : (data.drop pre.length).take 512 = h := by rw [hd, ← hl]; exact block_at _ _ _
  have htext : (data.drop (pre.length + 512)).take text.length = text := by
    obtain ⟨fill, rfl, _⟩ := hb
    rw [hd, ← List.append_assoc, show pre.length + 512 = (pre ++ h).length by simp [hl], List.drop_left]
    simp
  unfold tarStep
  simp only [hblk]
  rw [if_pos (by omega), if_pos (by omega), header_not_zero hh, if_neg (by simp), header_checked hh]
  simp only [header_flag hh]
  rw [if_neg (by decide), if_neg (by decide), if_pos (by decide), show tarField h 124 12 = tarSlice h 124 12 from rfl, decodeNumeric_field hh.size (by omega)]
  simp only [List.length_append, hl]
  rw [if_neg (by omega), htext, untilZero_field ht]
  congr 2
  omega

theorem step_end {data pre image : Bytes} {es : List TarEntry} {long : Bytes} (hd : data = pre ++ image) (hi : image = [] ∨ ∃ rest, image = List.replicate 512 0 ++ rest) :
    tarStep data ⟨pre.length, long, es⟩ = .done es := by
  unfold tarStep
  rcases hi with rfl | ⟨rest, rfl⟩
  · rw [if_neg (by simp [hd])]
  · have hdl : data.length = pre.length + (512 + rest.length) := by
      rw [hd, List.length_append, List.length_append, List.length_replicate]
    have hblk : (data.drop pre.length).take 512 = List.replicate 512 0 := by
      rw [hd]
      have := block_at pre (List.replicate 512 0) rest
      rwa [List.length_replicate] at this
    simp only [hblk]
    rw [if_pos (by omega), if_pos (by omega), if_pos]
    rw [List.all_eq_true]
    intro b hb
    rw [List.eq_of_mem_replicate hb]; rfl

theorem entry_at {data pre h blocks image content name : Bytes} (hd : data = pre ++ (h ++ (blocks ++ image))) (hb : TarBlocks blocks content) :
    EntryOf data (name, content) ⟨name, (pre ++ h).length, content.length⟩ := by
  obtain ⟨fill, rfl, _⟩ := hb
  refine ⟨rfl, rfl, ?_, ?_⟩
  · rw [hd]; simp; omega
  · show (data.drop (pre ++ h).length).take content.length = content
    rw [hd, ← List.append_assoc, List.drop_left]
    simp

theorem tar_reads {files : List (Bytes × Bytes)} {image : Bytes} (h : TarImage files image) : ∀ {data pre : Bytes} (es : List TarEntry), data = pre ++ image → data.length < 2 ^ 63 →
    ∃ n entries, tarRun data n ⟨pre.length, [], es⟩ = some (.done (es ++ entries)) ∧ List.Forall₂ (EntryOf data) files entries := by
  induction h with
  | empty =>
    intro data pre es hd _
    exact ⟨1, [], by rw [tarRun, step_end hd (.inl rfl)]; simp, .nil⟩
  | last rest hr =>
    intro data pre es hd _
    exact ⟨1, [], by rw [tarRun, step_end hd (.inr ⟨rest, rfl⟩)]; simp, .nil⟩
  | @file h name content blocks files image type ht hh hb _ ih =>
    intro data pre es hd hl
    have hd' : data = pre ++ (h ++ (blocks ++ image)) := by rw [hd]; simp
    obtain ⟨n, entries, h1, h2⟩ := ih (data := data) (pre := pre ++ h ++ blocks) (es ++ [⟨name, (pre ++ h).length, content.length⟩]) (by rw [hd]; simp) hl
    refine ⟨n + 1, ⟨name, (pre ++ h).length, content.length⟩ :: entries, ?_, .cons (entry_at hd' hb) h2⟩
    rw [tarRun, step_file hd' hl ht hh hb]
    simpa using h1
  | @directory h name n files image hh _ ih =>
    intro data pre es hd hl
    obtain ⟨n, entries, h1, h2⟩ := ih (data := data) (pre := pre ++ h) es (by rw [hd]; simp) hl
    refine ⟨n + 1, entries, ?_, h2⟩
    rw [tarRun, step_directory hd hh]
    exact h1
  | @longName l any text fill nameBlocks h name content blocks files image type ht hne hl hnb ht' hh hb _ ih =>
    intro data pre es hd hlen
    have hd1 : data = pre ++ (l ++ (nameBlocks ++ (h ++ (blocks ++ image)))) := by rw [hd]; simp
    have hd2 : data = (pre ++ l ++ nameBlocks) ++ (h ++ (blocks ++ image)) := by rw [hd]; simp
    obtain ⟨n, entries, h1, h2⟩ := ih (data := data) (pre := (pre ++ l ++ nameBlocks) ++ h ++ blocks)
      (es ++ [⟨name, ((pre ++ l ++ nameBlocks) ++ h).length, content.length⟩]) (by rw [hd]; simp) hlen
    refine ⟨n + 2, ⟨name, ((pre ++ l ++ nameBlocks) ++ h).length, content.length⟩ :: entries, ?_, .cons (entry_at hd2 hb) h2⟩
    rw [tarRun, step_long hd1 hlen ht hl hnb]
    simp only
    rw [tarRun, step_file hd2 hlen ht' hh hb, if_pos hne]
    simpa using h1

/-- **C94** (reading). The reader finds the regular files of a tar file, in order, with their names and contents. -/
theorem C94_reads {files : List (Bytes × Bytes)} {image : Bytes} (h : TarImage files image) (hlen : image.length < 2 ^ 63) :
    ∃ n entries, readTar image n = some (.done entries) ∧ List.Forall₂ (EntryOf image) files entries := by
  obtain ⟨n, entries, h1, h2⟩ := tar_reads h (data := image) (pre := []) [] rfl hlen
  refine ⟨n, entries, ?_, h2⟩
  unfold readTar
  rw [if_neg (by rw [image_length h]; simp)]
  exact h1

/-! ## The storage -/

theorem tarFiles_eq {files : List (Bytes × Bytes)} {image : Bytes} {entries : List TarEntry} (hlen : image.length < 2 ^ 63) (h : List.Forall₂ (EntryOf image) files entries) :
    tarFiles image entries = files.map fun p => (tarPath p.1, p.2) := by
  induction h with
  | nil => rfl
  | @cons p e ps es hpe _ ih =>
    obtain ⟨h1, h2, h3, h4⟩ := hpe
    have hl : tarLength image e = e.size := by
      unfold tarLength
      rw [Nat.min_def, if_pos (by omega)]
    rw [tarFiles, List.map_cons, ih, hl, h4, h1]

theorem lookup_of_all {l : List (Bytes × Bytes)} {k c : Bytes} (h : ∀ p ∈ l, p.1 = k → p.2 = c) (hk : ∃ p ∈ l, p.1 = k) : l.lookup k = some c := by
  induction l with
  | nil => simp at hk
  | cons p l ih =>
    obtain ⟨a, b⟩ := p
    rw [List.lookup_cons]
    by_cases hab : k = a
    · subst hab
      have := h (k, b) (by simp) rfl
      simp at this; simp [this]
    · rw [show (k == a) = false by simpa using hab]
      refine ih (fun p hp => h p (by simp [hp])) ?_
      obtain ⟨p, hp, he⟩ := hk
      rcases List.mem_cons.mp hp with rfl | hp
      · exact absurd he.symm hab
      · exact ⟨p, hp, he⟩

theorem lookup_of_none {l : List (Bytes × Bytes)} {k : Bytes} (h : ∀ p ∈ l, p.1 ≠ k) : l.lookup k = none := by
  induction l with
  | nil => rfl
  | cons p l ih =>
    obtain ⟨a, b⟩ := p
    rw [List.lookup_cons, show (k == a) = false by simpa using (fun e => h (a, b) (by simp) e.symm)]
    exact ih fun p hp => h p (by simp [hp])

/-- **C94** (storage). The storage of a tar file with the files of a directory has the resources of the directory. -/
theorem C94_storage {f : Files} {files : List (Bytes × Bytes)} {image : Bytes} (h : TarImage files image) (hlen : image.length < 2 ^ 63) (hf : FilesOf f files) :
    ∃ n entries, readTar image n = some (.done entries) ∧ cppTarStorage image entries = f := by
  obtain ⟨n, entries, h1, h2⟩ := C94_reads h hlen
  refine ⟨n, entries, h1, ?_⟩
  have hp : ∀ p ∈ files.map (fun p => (tarPath p.1, p.2)), ∃ key, f key = some p.2 ∧ p.1 = encodeUtf8 key := by
    intro p hp
    obtain ⟨⟨name, c⟩, hq, rfl⟩ := List.mem_map.mp hp
    obtain ⟨key, hk, hn⟩ := hf.sound name c hq
    refine ⟨key, hk, ?_⟩
    have hno := (hf.complete key c hk).1
    rcases hn with rfl | rfl
    · exact if_neg hno
    · simp [tarPath]
  funext key
  unfold cppTarStorage
  rw [tarFiles_eq hlen h2]
  cases hk : f key with
  | none =>
    refine lookup_of_none fun p hpm he => ?_
    obtain ⟨key', h3, h4⟩ := hp p hpm
    rw [encodeUtf8_inj (h4.symm.trans he), hk] at h3
    cases h3
  | some c =>
    refine lookup_of_all (fun p hpm he => ?_) ?_
    · obtain ⟨key', h3, h4⟩ := hp p hpm
      rw [encodeUtf8_inj (h4.symm.trans he), hk] at h3
      exact (Option.some.inj h3).symm
    · obtain ⟨hno, name, hm, hn⟩ := hf.complete key c hk
      refine ⟨(tarPath name, c), List.mem_map.mpr ⟨(name, c), hm, rfl⟩, ?_⟩
      rcases hn with rfl | rfl
      · exact if_neg hno
      · simp [tarPath]

/-- **C94** (opening). An archive is opened from the tar file of its directory as it is opened from the directory. -/
theorem C94_open {f : Files} {files : List (Bytes × Bytes)} {image : Bytes} (h : TarImage files image) (hlen : image.length < 2 ^ 63) (hf : FilesOf f files) :
    ∃ n entries, readTar image n = some (.done entries) ∧
      ∀ archiveName schema resources, cppOpen (cppTarStorage image entries) archiveName schema resources = cppOpen f archiveName schema resources := by
  obtain ⟨n, entries, h1, h2⟩ := C94_storage h hlen hf
  exact ⟨n, entries, h1, fun _ _ _ => by rw [h2]⟩

/-! ## What is accepted -/

theorem decodeOctal_ok (field : Bytes) : ∀ (v n : Nat), decodeOctal v field = .ok n →
    ∃ ds : List Nat, (∀ d ∈ ds, d < 8) ∧ TextField field (ds.map fun d => UInt8.ofNat (48 + d)) ∧ n = ds.foldl (fun n d => n * 8 + d) v := by
  induction field with
  | nil => intro v n h; cases h; exact ⟨[], by simp, ⟨by simp, [], rfl, .inl rfl⟩, rfl⟩
  | cons b bs ih =>
    intro v n h
    rw [decodeOctal] at h
    split at h
    · rename_i hb
      cases h
      exact ⟨[], by simp, ⟨by simp, b :: bs, rfl, .inr (by simp [hb])⟩, rfl⟩
    · rename_i hb
      split at h
      · cases h
      · split at h
        · cases h
        · rename_i hr
          obtain ⟨ds, h1, ⟨h0, rest, h2, h3⟩, h4⟩ := ih _ _ h
          have hd : UInt8.ofNat (48 + (b.toNat - 48)) = b := by
            rw [show 48 + (b.toNat - 48) = b.toNat by omega]; simp
          refine ⟨(b.toNat - 48) :: ds, ?_, ⟨?_, rest, ?_, h3⟩, by rw [h4]; rfl⟩
          · intro d hm
            rcases List.mem_cons.mp hm with rfl | hm
            · omega
            · exact h1 d hm
          · rw [List.map_cons, hd, List.mem_cons]
            rintro (e | e)
            · exact hb e.symm
            · exact h0 e
          · rw [List.map_cons, hd, h2]; rfl

theorem decodeBase256_ok (field : Bytes) : ∀ (v n : Nat), decodeBase256 v field = .ok n → n = (field.map UInt8.toNat).foldl (fun n d => n * 256 + d) v := by
  induction field with
  | nil => intro v n h; cases h; rfl
  | cons b bs ih =>
    intro v n h
    rw [decodeBase256] at h
    split at h
    · cases h
    · exact ih _ _ h

/-- What is decoded is a number. -/
theorem numberField_of_decode {field : Bytes} {n : Nat} (h : decodeNumeric field = .ok n) : NumberField field n := by
  cases field with
  | nil => cases h; exact .inl ⟨[], by simp, ⟨by simp, [], rfl, .inl rfl⟩, rfl⟩
  | cons b bs =>
    rw [decodeNumeric] at h
    split at h
    · rename_i hb
      have hlt := b.toNat_lt
      refine .inr ⟨(b.toNat % 128) :: bs.map UInt8.toNat, by simp, ?_, ?_, ?_, ?_⟩
      · intro d hm
        rcases List.mem_cons.mp hm with rfl | hm
        · omega
        · obtain ⟨c, _, rfl⟩ := List.mem_map.mp hm; exact c.toNat_lt
      · intro d hm; simp at hm; omega
      · rw [List.modifyHead_cons, List.map_cons, show b.toNat % 128 + 128 = b.toNat by omega, List.map_map]
        have : (UInt8.ofNat ∘ UInt8.toNat) = id := by funext c; simp
        simp [this]
      · rw [decodeBase256_ok _ _ _ h]; simp [bigEndian]
    · obtain ⟨ds, h1, h2, h3⟩ := decodeOctal_ok _ _ _ h
      exact .inl ⟨ds, h1, h2, h3⟩

theorem textField_untilZero (field : Bytes) : TextField field (untilZero field) := by
  unfold untilZero
  refine ⟨?_, field.dropWhile (fun b => decide (b ≠ 0)), (List.takeWhile_append_dropWhile).symm, ?_⟩
  · intro h
    have := List.all_eq_true.mp (List.all_takeWhile (p := fun b : UInt8 => decide (b ≠ 0)) (l := field)) 0 h
    simp at this
  · cases hd : field.dropWhile (fun b => decide (b ≠ 0)) with
    | nil => exact .inl rfl
    | cons b bs =>
      right
      have := List.head?_dropWhile_not (fun b : UInt8 => decide (b ≠ 0)) field
      rw [hd] at this
      simp at this
      simp [this]

/-- What is accepted is a header. -/
theorem header_of_checked {h : Bytes} {size : Nat} (hl : h.length = 512) (hc : verifyChecksum h = .ok true) (hs : decodeNumeric (tarField h 124 12) = .ok size) :
    TarHeader h (untilZero (tarField h 0 100)) (h.getD 156 0) size := by
  refine ⟨hl, textField_untilZero _, numberField_of_decode hs, ?_, ?_⟩
  · have e1 : tarSlice h 0 148 = h.take 148 := by simp [tarSlice]
    have e2 : tarSlice h 156 356 = h.drop 156 := by
      unfold tarSlice
      rw [List.take_of_length_le (by rw [List.length_drop]; omega)]
    rw [e1, e2]
    unfold verifyChecksum at hc
    split at hc
    · cases hc
    · rename_i n hn
      simp only [Except.ok.injEq, decide_eq_true_eq] at hc
      rw [hc]
      exact numberField_of_decode hn
  · unfold tarSlice
    have hlt : 156 < h.length := by omega
    rw [List.getD_eq_getElem?_getD, List.getElem?_eq_getElem hlt, List.drop_eq_getElem_cons hlt]
    rfl

/-! ## Arbitrary bytes -/

/-- The entry belongs to a block of the data that is the header of a regular file. -/
def EntrySound (data : Bytes) (e : TarEntry) : Prop :=
  512 ≤ e.offset ∧ e.offset ≤ data.length ∧ e.offset % 512 = 0 ∧
    ∃ name type, (type = 48 ∨ type = 0) ∧ TarHeader ((data.drop (e.offset - 512)).take 512) name type e.size

/-- The loop stands at a block; the entries are sound. -/
def TarInv (data : Bytes) (s : TarState) : Prop := s.offset % 512 = 0 ∧ ∀ e ∈ s.entries, EntrySound data e

theorem tarStep_inv {data : Bytes} (hd : data.length % 512 = 0) {s : TarState} (hs : TarInv data s) :
    tarStep data s ≠ .fault ∧ (∀ s', tarStep data s = .next s' → TarInv data s') ∧ ∀ es, tarStep data s = .done es → ∀ e ∈ es, EntrySound data e := by
  obtain ⟨h1, h2⟩ := hs
  unfold tarStep
  by_cases hlt : s.offset < data.length
  · have hle : s.offset + 512 ≤ data.length := by omega
    rw [if_pos hlt, if_pos hle]
    simp only
    by_cases hz : ((data.drop s.offset).take 512).all (fun b => b == 0) = true
    · rw [if_pos hz]
      exact ⟨by simp, by simp, fun es he => by cases he; exact h2⟩
    · rw [if_neg hz]
      cases hvc : verifyChecksum ((data.drop s.offset).take 512) with
      | error e => exact ⟨by simp, by simp, by simp⟩
      | ok b =>
        cases b with
        | false => exact ⟨by simp, by simp, by simp⟩
        | true =>
          simp only
          have hpad : ∀ size, (s.offset + 512 + (size + tarPadding size) % 2 ^ 64) % 2 ^ 64 % 512 = 0 := by
            intro size; unfold tarPadding; omega
          split
          · rename_i hflag
            cases hdec : decodeNumeric (tarField ((data.drop s.offset).take 512) 124 12) with
            | error e => exact ⟨by simp, by simp, by simp⟩
            | ok size =>
              refine ⟨by simp, fun s' he => ?_, by simp⟩
              cases he
              refine ⟨hpad size, fun e he => ?_⟩
              rcases List.mem_append.mp he with he | he
              · exact h2 e he
              · rw [List.mem_singleton] at he
                subst he
                have hH := header_of_checked (by rw [List.length_take, List.length_drop]; omega) hvc hdec
                rw [← Nat.add_sub_cancel (n := s.offset) (m := 512)] at hH
                refine ⟨Nat.le_add_left _ _, hle, by show (s.offset + 512) % 512 = 0; omega, _, _, ?_, hH⟩
                rw [Nat.add_sub_cancel]
                rcases hflag with hf | hf
                · left; exact UInt8.toNat_inj.mp hf
                · right; exact UInt8.toNat_inj.mp hf
          · split
            · refine ⟨by simp, fun s' he => ?_, by simp⟩
              cases he
              exact ⟨by show (s.offset + 512) % 512 = 0; omega, h2⟩
            · split
              · cases decodeNumeric (tarField ((data.drop s.offset).take 512) 124 12) with
                | error e => exact ⟨by simp, by simp, by simp⟩
                | ok size =>
                  simp only
                  split
                  · exact ⟨by simp, by simp, by simp⟩
                  · refine ⟨by simp, fun s' he => ?_, by simp⟩
                    cases he
                    exact ⟨hpad size, h2⟩
              · exact ⟨by simp, by simp, by simp⟩
  · rw [if_neg hlt]
    exact ⟨by simp, by simp, fun es he => by cases he; exact h2⟩

theorem tarRun_inv {data : Bytes} (hd : data.length % 512 = 0) (n : Nat) {s : TarState} (hs : TarInv data s) :
    tarRun data n s ≠ some .fault ∧ ∀ es, tarRun data n s = some (.done es) → ∀ e ∈ es, EntrySound data e := by
  induction n generalizing s with
  | zero => simp [tarRun]
  | succ n ih =>
    obtain ⟨h1, h2, h3⟩ := tarStep_inv hd hs
    rw [tarRun]
    cases he : tarStep data s with
    | next s' => exact ih (h2 s' he)
    | done es => exact ⟨by simp, fun es' h => by cases h; exact h3 es he⟩
    | error e => simp
    | fault => exact absurd he h1

/-- **C95** (safety). Whatever the file contains, reading the headers stays inside of the file, and so do the files that are handed out. -/
theorem C95_safe (data : Bytes) (hlen : data.length < 2 ^ 64) (n : Nat) :
    readTar data n ≠ some .fault ∧ ∀ entries, readTar data n = some (.done entries) → ∀ e ∈ entries, e.offset + tarLength data e ≤ data.length := by
  unfold readTar
  by_cases hd : data.length % 512 ≠ 0
  · rw [if_pos hd]; exact ⟨by simp, by simp⟩
  · rw [if_neg hd]
    obtain ⟨h1, h2⟩ := tarRun_inv (data := data) (by omega) n (s := ⟨0, [], []⟩) ⟨rfl, by simp⟩
    refine ⟨h1, fun es he e hm => ?_⟩
    have := (h2 es he e hm).2.1
    unfold tarLength
    omega

/-- **C95** (soundness). Whatever the file contains, the files that are handed out are those of headers in the file. -/
theorem C95_sound (data : Bytes) (n : Nat) {entries : List TarEntry} (h : readTar data n = some (.done entries)) : ∀ e ∈ entries, EntrySound data e := by
  unfold readTar at h
  by_cases hd : data.length % 512 ≠ 0
  · rw [if_pos hd] at h; cases h
  · rw [if_neg hd] at h
    exact (tarRun_inv (data := data) (by omega) n (s := ⟨0, [], []⟩) ⟨rfl, by simp⟩).2 entries h

/-! ## The end -/

/-- A step goes on by a block or more, if there is no huge size. -/
theorem tarStep_grows {data : Bytes} (hlen : data.length < 2 ^ 62) {s : TarState}
    (hsz : ∀ name type size, TarHeader ((data.drop s.offset).take 512) name type size → size < 2 ^ 62) :
    ∀ s', tarStep data s = .next s' → s.offset < data.length ∧ s.offset + 512 ≤ s'.offset := by
  intro s'
  unfold tarStep
  by_cases hlt : s.offset < data.length
  · rw [if_pos hlt]
    by_cases hle : s.offset + 512 ≤ data.length
    · rw [if_pos hle]
      simp only
      have hgrow : ∀ size, size < 2 ^ 62 → s.offset + 512 ≤ (s.offset + 512 + (size + tarPadding size) % 2 ^ 64) % 2 ^ 64 := by
        intro size hs; unfold tarPadding; omega
      split
      · simp
      · cases hvc : verifyChecksum ((data.drop s.offset).take 512) with
        | error e => simp
        | ok b =>
          cases b with
          | false => simp
          | true =>
            simp only
            have hsz' := fun size hdec => hsz _ _ size (header_of_checked (by rw [List.length_take, List.length_drop]; omega) hvc hdec)
            split
            · cases hdec : decodeNumeric (tarField ((data.drop s.offset).take 512) 124 12) with
              | error e => simp
              | ok size => intro he; cases he; exact ⟨hlt, hgrow size (hsz' size hdec)⟩
            · split
              · intro he; cases he; exact ⟨hlt, Nat.le_refl _⟩
              · split
                · cases hdec : decodeNumeric (tarField ((data.drop s.offset).take 512) 124 12) with
                  | error e => simp
                  | ok size =>
                    simp only
                    split
                    · simp
                    · intro he; cases he; exact ⟨hlt, hgrow size (hsz' size hdec)⟩
                · simp
    · rw [if_neg hle]; simp
  · rw [if_neg hlt]; simp

theorem tarRun_ends {data : Bytes} (hd : data.length % 512 = 0) (hlen : data.length < 2 ^ 62)
    (hsz : ∀ k name type size, TarHeader ((data.drop (512 * k)).take 512) name type size → size < 2 ^ 62)
    (n : Nat) {s : TarState} (hs : TarInv data s) (hn : data.length ≤ s.offset + 512 * n) : tarRun data (n + 1) s ≠ none := by
  have hsz' : ∀ s, TarInv data s → ∀ name type size, TarHeader ((data.drop s.offset).take 512) name type size → size < 2 ^ 62 := by
    intro s hs name type size
    have := hsz (s.offset / 512) name type size
    rwa [show 512 * (s.offset / 512) = s.offset by have := hs.1; omega] at this
  induction n generalizing s with
  | zero =>
    rw [tarRun]
    cases he : tarStep data s with
    | next s' => have := tarStep_grows hlen (hsz' s hs) s' he; omega
    | done es => simp
    | error e => simp
    | fault => simp
  | succ n ih =>
    rw [tarRun]
    cases he : tarStep data s with
    | next s' => have := tarStep_grows hlen (hsz' s hs) s' he; exact ih ((tarStep_inv hd hs).2.1 s' he) (by omega)
    | done es => simp
    | error e => simp
    | fault => simp

/-- **C95** (end). Whatever the file contains, the loop ends after at most one iteration for each block, unless there is a block that is a header with
a size of `2 ^ 62` bytes or more. -/
theorem C95_ends (data : Bytes) (hlen : data.length < 2 ^ 62)
    (hsz : ∀ k name type size, TarHeader ((data.drop (512 * k)).take 512) name type size → size < 2 ^ 62) :
    readTar data (data.length / 512 + 1) ≠ none := by
  unfold readTar
  by_cases hd : data.length % 512 ≠ 0
  · rw [if_pos hd]; simp
  · rw [if_neg hd]
    exact tarRun_ends (by omega) hlen hsz _ ⟨rfl, by simp⟩ (by show data.length ≤ 0 + 512 * (data.length / 512); omega)

end Props
