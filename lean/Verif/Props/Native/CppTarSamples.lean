import Verif.Props.Native.CppTar

/-!
# C94, C95: examples and counterexamples
-/

namespace Props
open Py Model Model.Native Spec

/-- A header: name, size, prefix (345-499); the checksum is six octal digits, a zero and a blank. -/
def sampleTarHeader (name : Bytes) (type : UInt8) (size pfx : Bytes) : Bytes :=
  let first := name ++ List.replicate (100 - name.length) 0 ++ List.replicate 24 0 ++ size ++ List.replicate 12 0
  let last := [type] ++ List.replicate 188 0 ++ pfx ++ List.replicate (167 - pfx.length) 0
  let sum := ((first ++ List.replicate 8 32 ++ last).map UInt8.toNat).sum
  first ++ ([5, 4, 3, 2, 1, 0].map fun k => UInt8.ofNat (48 + sum / 8 ^ k % 8)) ++ [0, 32] ++ last

/-- Eleven octal digits and a zero. -/
def sampleTarSize (n : Nat) : Bytes := (((List.range 11).reverse).map fun k => UInt8.ofNat (48 + n / 8 ^ k % 8)) ++ [0]

def checkTarHeader (h name : Bytes) (type : UInt8) (size : Nat) : Bool :=
  decide (h.length = 512) && (match verifyChecksum h with | .ok b => b | .error _ => false) &&
    (match decodeNumeric (tarField h 124 12) with | .ok n => decide (n = size) | .error _ => false) &&
    decide (untilZero (tarField h 0 100) = name) && decide (h.getD 156 0 = type)

theorem checkTarHeader_spec {h name : Bytes} {type : UInt8} {size : Nat} (hc : checkTarHeader h name type size = true) : TarHeader h name type size := by
  unfold checkTarHeader at hc
  simp only [Bool.and_eq_true, decide_eq_true_eq] at hc
  obtain ⟨⟨⟨⟨h1, h2⟩, h3⟩, h4⟩, h5⟩ := hc
  have h2' : verifyChecksum h = .ok true := by split at h2 <;> simp_all
  have h3' : decodeNumeric (tarField h 124 12) = .ok size := by split at h3 <;> simp_all
  rw [← h4, ← h5]
  exact header_of_checked h1 h2' h3'

/-- The blocks of some contents. -/
def sampleTarBlocks (c : Bytes) : Bytes := c ++ List.replicate (tarPadding c.length) 0

theorem sampleTarBlocks_spec (c : Bytes) : TarBlocks (sampleTarBlocks c) c := by
  refine ⟨List.replicate (tarPadding c.length) 0, rfl, ?_, ?_⟩
  · unfold sampleTarBlocks; rw [List.length_append, List.length_replicate]; unfold tarPadding; omega
  · rw [List.length_replicate]; unfold tarPadding; omega

/-- A long name: 120 times the letter `n`. -/
def sampleLongName : Bytes := List.replicate 120 110

/-- The directory `d`, the file `./d/a`, a file with a long name, the end. -/
def sampleTar : Bytes :=
  sampleTarHeader [46, 47, 100, 47] 53 (sampleTarSize 0) [] ++
  (sampleTarHeader [46, 47, 100, 47, 97] 48 (sampleTarSize 3) [] ++ sampleTarBlocks [1, 2, 3] ++
  (sampleTarHeader [46] 76 (sampleTarSize 121) [] ++ sampleTarBlocks (sampleLongName ++ [0]) ++ sampleTarHeader (sampleLongName.take 100) 0 (sampleTarSize 2) [] ++ sampleTarBlocks [4, 5] ++
  (List.replicate 512 0 ++ List.replicate 512 0)))

/-- It is a tar file. -/
theorem sampleTar_image : TarImage [([46, 47, 100, 47, 97], [1, 2, 3]), (sampleLongName, [4, 5])] sampleTar := by
  unfold sampleTar
  refine .directory (checkTarHeader_spec (name := [46, 47, 100, 47]) (size := 0) (by decide +kernel)) ?_
  refine .file 48 (.inl rfl) (checkTarHeader_spec (by decide +kernel)) (sampleTarBlocks_spec _) ?_
  refine .longName (any := [46]) (text := sampleLongName ++ [0]) (fill := sampleLongName.take 100) 0 ⟨by decide, [0], rfl, .inr rfl⟩ (by decide) (checkTarHeader_spec (by decide +kernel)) (sampleTarBlocks_spec _) (.inr rfl)
    (checkTarHeader_spec (by decide +kernel)) (sampleTarBlocks_spec _) ?_
  exact .last _ (by decide +kernel)

/-- The directory it was made of. -/
def sampleTarDirectory : Files := fun p => if p = "d/a" then some [1, 2, 3] else if encodeUtf8 p = sampleLongName then some [4, 5] else none

theorem sampleTar_files : FilesOf sampleTarDirectory [([46, 47, 100, 47, 97], [1, 2, 3]), (sampleLongName, [4, 5])] := by
  have hlong : encodeUtf8 (String.ofList (List.replicate 120 'n')) = sampleLongName := by decide +kernel
  have hda : encodeUtf8 "d/a" = [100, 47, 97] := by decide +kernel
  constructor
  · intro name c hm
    simp only [List.mem_cons, Prod.mk.injEq, List.not_mem_nil, or_false] at hm
    rcases hm with ⟨rfl, rfl⟩ | ⟨rfl, rfl⟩
    · exact ⟨"d/a", rfl, .inr (by rw [hda]; rfl)⟩
    · refine ⟨String.ofList (List.replicate 120 'n'), ?_, .inl hlong.symm⟩
      unfold sampleTarDirectory
      rw [if_neg, if_pos hlong]
      intro e
      rw [e, hda] at hlong
      revert hlong; decide
  · intro path c hf
    unfold sampleTarDirectory at hf
    split at hf
    · rename_i hp
      cases hf; subst hp
      refine ⟨by rw [hda]; decide, _, List.mem_cons_self .., .inr (by rw [hda]; rfl)⟩
    · split at hf
      · rename_i hp
        cases hf
        refine ⟨by rw [hp]; decide, sampleLongName, by simp, .inl hp.symm⟩
      · cases hf

theorem sampleTar_length : sampleTar.length = 4608 := by decide +kernel

/-- The theorems apply to it. -/
example : ∃ n entries, readTar sampleTar n = some (.done entries) ∧ cppTarStorage sampleTar entries = sampleTarDirectory :=
  C94_storage sampleTar_image (by rw [sampleTar_length]; omega) sampleTar_files

example : readTar sampleTar 10 = some (.done [⟨[46, 47, 100, 47, 97], 1024, 3⟩, ⟨sampleLongName, 3072, 2⟩]) := by decide +kernel

theorem digits_lt (ds : List Nat) (hd : ∀ d ∈ ds, d < 8) : ∀ v, ds.foldl (fun n d => n * 8 + d) v < (v + 1) * 8 ^ ds.length := by
  induction ds with
  | nil => intro v; simp
  | cons d ds ih =>
    intro v
    have h1 := hd d (by simp)
    refine Nat.lt_of_lt_of_le (ih (fun x hx => hd x (by simp [hx])) _) ?_
    rw [List.length_cons, Nat.pow_succ, Nat.mul_comm (8 ^ ds.length) 8, ← Nat.mul_assoc]
    exact Nat.mul_le_mul_right _ (by show v * 8 + d + 1 ≤ (v + 1) * 8; omega)

theorem octal_field_lt {field : Bytes} {n : Nat} (hl : field.length ≤ 12) (hb : (field.getD 0 0).toNat < 128) (h : NumberField field n) : n < 2 ^ 62 := by
  rcases h with ⟨ds, hd, ⟨_, rest, he, _⟩, rfl⟩ | ⟨ds, hne, hd, hh, rfl, rfl⟩
  · have hlen : ds.length ≤ 12 := by rw [he, List.length_append, List.length_map] at hl; omega
    have h1 := digits_lt ds hd 0
    have h2 : 8 ^ ds.length ≤ 8 ^ 12 := Nat.pow_le_pow_right (by omega) hlen
    unfold bigEndian
    omega
  · obtain ⟨d, ds, rfl⟩ := List.exists_cons_of_ne_nil hne
    have h1 := hh d (by simp)
    rw [List.modifyHead_cons, List.map_cons] at hb
    simp only [List.getD_cons_zero, UInt8.toNat_ofNat'] at hb
    omega

/-- **C95** (end, octal sizes). The loop ends if no block has a number to the base 256 where headers have the size: only such numbers are that large. -/
theorem C95_ends_octal (data : Bytes) (hlen : data.length < 2 ^ 62) (hb : ∀ k, (data.getD (512 * k + 124) 0).toNat < 128) : readTar data (data.length / 512 + 1) ≠ none := by
  refine C95_ends data hlen fun k name type size hh => octal_field_lt ?_ ?_ hh.size
  · unfold tarSlice; rw [List.length_take]; omega
  · have := hb k
    unfold tarSlice
    have e : ∀ (l : Bytes), (((l.take 512).drop 124).take 12).getD 0 0 = l.getD 124 0 := by
      intro l
      rw [List.getD_eq_getElem?_getD, List.getElem?_take_of_lt (by omega), List.getElem?_drop, List.getElem?_take_of_lt (by omega), ← List.getD_eq_getElem?_getD]
    rw [e, List.getD_eq_getElem?_getD, List.getElem?_drop, ← List.getD_eq_getElem?_getD]
    exact this

/-- The hypotheses hold for the example. -/
example : readTar sampleTar (4608 / 512 + 1) ≠ none := by
  have h := C95_ends_octal sampleTar (by rw [sampleTar_length]; omega) (fun k => ?_)
  · rwa [sampleTar_length] at h
  · by_cases hk : k < 9
    · have : ∀ k : Fin 9, (sampleTar.getD (512 * k.val + 124) 0).toNat < 128 := by decide +kernel
      exact this ⟨k, hk⟩
    · rw [List.getD_eq_getElem?_getD, List.getElem?_eq_none (by rw [sampleTar_length]; omega)]; decide

/-! ## Findings -/

/-- A header with the size `2 ^ 64 - 512`. -/
def loopTar : Bytes := sampleTarHeader [97] 48 [128, 0, 0, 0, 255, 255, 255, 255, 255, 255, 254, 0] []

theorem loopTar_step (es : List TarEntry) : tarStep loopTar ⟨0, [], es⟩ = .next ⟨0, [], es ++ [⟨[97], 512, 2 ^ 64 - 512⟩]⟩ := by
  have hh : TarHeader loopTar [97] 48 (2 ^ 64 - 512) := checkTarHeader_spec (by decide +kernel)
  have hl := hh.length
  unfold tarStep
  have hb : (loopTar.drop 0).take 512 = loopTar := by rw [List.drop_zero, ← hl, List.take_length]
  simp only [hb]
  rw [if_pos (by omega), if_pos (by omega), header_not_zero hh, if_neg (by simp), header_checked hh]
  simp only [header_flag hh]
  rw [if_pos (by decide), show tarField loopTar 124 12 = tarSlice loopTar 124 12 from rfl, decodeNumeric_field hh.size (by omega),
    show tarField loopTar 0 100 = tarSlice loopTar 0 100 from rfl, untilZero_field hh.name]
  rfl

/-- **C95** (finding N25). A file of one block on which the loop does not end: the size wraps, and the reader reads the same block again. -/
theorem C95_counterexample_endless : loopTar.length = 512 ∧ ∀ n, readTar loopTar n = none := by
  have hl : loopTar.length = 512 := by decide +kernel
  refine ⟨hl, fun n => ?_⟩
  unfold readTar
  rw [if_neg (by rw [hl]; decide)]
  have : ∀ n es, tarRun loopTar n ⟨0, [], es⟩ = none := by
    intro n
    induction n with
    | zero => intro es; rfl
    | succ n ih => intro es; rw [tarRun, loopTar_step]; exact ih _
  exact this n []

/-- **C94** (finding N26). A directory with a long name gives its name to the next file. -/
theorem C94_counterexample_directory : TarHeader (sampleTarHeader [97] 48 (sampleTarSize 0) []) [97] 48 0 ∧
    readTar (sampleTarHeader [46] 76 (sampleTarSize 3) [] ++ sampleTarBlocks [100, 47, 0] ++ sampleTarHeader [100, 47] 53 (sampleTarSize 0) [] ++ sampleTarHeader [97] 48 (sampleTarSize 0) []) 9 =
      some (.done [⟨[100, 47], 2048, 0⟩]) :=
  ⟨checkTarHeader_spec (by decide +kernel), by decide +kernel⟩

/-- **C94** (finding N27). The prefix of a POSIX header (`p`, so that the name is `p/a`) is not read. -/
theorem C94_counterexample_prefix : readTar (sampleTarHeader [97] 48 (sampleTarSize 0) [112]) 9 = some (.done [⟨[97], 512, 0⟩]) := by decide +kernel

/-- **C94** (finding N28). Of two files with the same name, the first is found; to unpack the tar file leaves the second. -/
theorem C94_counterexample_twice : ∃ image entries, TarImage [([97], [1]), ([97], [2])] image ∧ readTar image 9 = some (.done entries) ∧ cppTarStorage image entries "a" = some [1] := by
  refine ⟨sampleTarHeader [97] 48 (sampleTarSize 1) [] ++ sampleTarBlocks [1] ++ (sampleTarHeader [97] 48 (sampleTarSize 1) [] ++ sampleTarBlocks [2] ++ []), [⟨[97], 512, 1⟩, ⟨[97], 1536, 1⟩], ?_, by decide +kernel, by decide +kernel⟩
  exact .file 48 (.inl rfl) (checkTarHeader_spec (by decide +kernel)) (sampleTarBlocks_spec _) (.file 48 (.inl rfl) (checkTarHeader_spec (by decide +kernel)) (sampleTarBlocks_spec _) .empty)

/-- **C94** (finding N29). A size that ends with a blank (`00000000001` and a blank, which POSIX allows) is an error. -/
theorem C94_counterexample_blank : readTar (sampleTarHeader [97] 48 ((sampleTarSize 1).take 11 ++ [32]) [] ++ sampleTarBlocks [1]) 9 = some (.error .character) := by decide +kernel

end Props
