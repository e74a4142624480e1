import Verif.Props.Native.Rust
import Verif.Props.Native.Go
import Verif.Props.Structure
import Verif.Model.Native.Assign

/-!
# C75, C76: the languages agree about the contents of a field
-/

namespace Props
open Py Spec Model Model.Native _root_.Native

/-! ## C75 -/

/-- The integer fields that all four languages read alike: no signed one-bit fields, no fields that span
nine bytes after the first byte (Rust), no signed fields inside a byte but not from its first bit on (Go),
no unsigned 64-bit fields that do not begin a byte (Python). -/
def Portable (o w : Nat) (s : Bool) : Prop :=
  ¬ (s = true ∧ w = 1) ∧ ¬ (8 ≤ o ∧ 64 < o % 8 + w) ∧ ¬ (s = true ∧ o % 8 ≠ 0 ∧ o % 8 + w ≤ 8) ∧
  ¬ (s = false ∧ w = 64 ∧ o % 8 ≠ 0)

instance (o w : Nat) (s : Bool) : Decidable (Portable o w s) := by unfold Portable; infer_instance

/-- All four runtimes read the integer stored in the field, as an integer of `b` bits. -/
def AllRead (d : Bytes) (o w b : Nat) (s : Bool) : Prop :=
  readValue d o w s = .ok (fieldValue d o w s) ∧
  cppRead (.int b s) d o w = some (fieldValue d o w s) ∧
  rustRead (.int b s) d o w = some (fieldValue d o w s) ∧
  goGet (.int b s) d o w = some (fieldValue d o w s)

theorem bitAt_replicate_ones (n i : Nat) : bitAt (List.replicate n 0xFF) i = decide (i < 8 * n) := by
  unfold bitAt
  rw [List.getD_eq_getElem?_getD, List.getElem?_replicate]
  by_cases h : i / 8 < n
  · have h2 : i < 8 * n := by omega
    simp only [h, if_true, Option.getD_some, h2, decide_true]
    have : i % 8 < 8 := Nat.mod_lt _ (by omega)
    generalize i % 8 = j at *
    revert j; decide
  · have h2 : ¬ i < 8 * n := by omega
    simp [h, h2]

theorem unsignedAt_ones {n o w : Nat} (h : o + w ≤ 8 * n) : unsignedAt (List.replicate n 0xFF) o w = 2 ^ w - 1 := by
  apply Nat.eq_of_testBit_eq; intro k
  rw [unsignedAt_testBit, Nat.testBit_two_pow_sub_one, bitAt_replicate_ones]
  by_cases hk : k < w
  · simp [hk]; omega
  · simp [hk]

/-- A buffer of `n` zero bytes with one bit set. -/
theorem one_bit_buffer (n a : Nat) (ha : a < 8 * n) :
    ∃ d : Bytes, d.length = n ∧ ∀ i, bitAt d i = decide (i = a) := by
  obtain ⟨d, -, hl, hb⟩ := C71_cpp_write (.int 64 false) (List.replicate (n + 9) 0) a 1 1 (by omega) (by omega)
    ⟨by decide, by decide⟩ (by simp; omega)
  refine ⟨d.take n, ?_, fun i => ?_⟩
  · simp only [List.length_replicate] at hl
    simp; omega
  · have : bitAt (d.take n) i = (decide (i < 8 * n) && bitAt d i) := by
      have := bitAt_slice d 0 n i
      simpa [sliceNN] using this
    rw [this, hb, bitAt_replicate_zero]
    by_cases hi : i = a
    · subst hi; simp [ha, digit]
    · rw [if_neg (by omega)]; simp [hi]

/-- **C75.** A field is read alike by the Python, C++, Rust and Go runtimes - namely as the integer stored in
its bits, whatever the (padded) buffer contains - if and only if it is portable in the sense above. The
type the generated code uses may be any integer type of at least eight bits that is wide enough. -/
theorem C75_readers_agree (o w b : Nat) (s : Bool) (hw : 1 ≤ w) (hwb : w ≤ b) (hb : 8 ≤ b) (hb' : b ≤ 64) :
    (∀ d : Bytes, o + w + 64 ≤ 8 * d.length → AllRead d o w b s) ↔ Portable o w s := by
  have hw' : w ≤ 64 := by omega
  constructor
  · intro h
    refine ⟨?_, ?_, ?_, ?_⟩
    · rintro ⟨rfl, rfl⟩
      have := (h (List.replicate (o + 9) 0xFF) (by simp; omega)).1
      have h2 := (C01_read_value_iff _ o 1 true (by omega) (by omega) (by simp; omega)).mp this
      apply h2.1
      refine ⟨rfl, rfl, ?_⟩
      rw [bitAt_replicate_ones]; simp; omega
    · rintro ⟨h8, h9⟩
      obtain ⟨e, hle, hbe⟩ := one_bit_buffer (2 * o + 32) (o + w - 1) (by omega)
      have hz := (h (List.replicate (2 * o + 32) 0) (by simp; omega)).2.2.1
      have he := (h e (by omega)).2.2.1
      have hsame := C72_ninth_byte_ignored (.int b s) (List.replicate (2 * o + 32) 0) e o w hw' ⟨hb, hwb⟩ h8 h9
        (by simp; omega) (by simp [hle]) (fun i hi => by
          rw [hbe, bitAt_replicate_zero]
          have : i ≠ o + w - 1 := by omega
          simp [this])
      rw [hz, he, Option.some.injEq] at hsame
      have h0 : unsignedAt (List.replicate (2 * o + 32) 0) o w = 0 := by
        apply Nat.eq_of_testBit_eq; intro k
        rw [unsignedAt_testBit, bitAt_replicate_zero]; simp
      have h1 : (unsignedAt e o w).testBit (w - 1) = true := by
        rw [unsignedAt_testBit, hbe]; simp; omega
      have hlt := unsignedAt_lt e o w
      have hne : unsignedAt e o w ≠ 0 := by intro hz; simp [hz] at h1
      simp only [fieldValue, h0, twosComplement] at hsame
      have hpow : (0 : Int) < 2 ^ w := by positivity
      have hlt' : (unsignedAt e o w : Int) < 2 ^ w := by exact_mod_cast hlt
      have hp0 : ¬ (2 ^ w ≤ 2 * 0) := by have : 0 < 2 ^ w := by positivity
                                         omega
      rw [if_neg hp0] at hsame
      split at hsame
      · split at hsame <;> push_cast at hsame <;> omega
      · omega
    · rintro ⟨rfl, ho, ho8⟩
      have hg := (h (List.replicate (o + w + 9) 0xFF) (by simp; omega)).2.2.2
      rw [C74_go_get (.int b true) _ o w hw hw' ⟨hb, hwb, hb'⟩ (by simp; omega), if_pos ⟨rfl, ho, ho8⟩, Option.some.injEq] at hg
      rw [fieldValue, if_pos rfl, twosComplement, unsignedAt_ones (by omega)] at hg
      have h2 : 2 ≤ 2 ^ w := by
        calc 2 = 2 ^ 1 := rfl
          _ ≤ 2 ^ w := Nat.pow_le_pow_right (by omega) hw
      rw [if_pos (by omega)] at hg
      have h3 : (0 : Int) < 2 ^ w := by positivity
      omega
    · rintro ⟨rfl, rfl, ho⟩
      have hp := (h (List.replicate (o + 64 + 16) 0xFF) (by simp; omega)).1
      have h2 := (C01_read_value_iff _ o 64 false (by omega) (by omega) (by simp; omega)).mp hp
      apply h2.2
      refine ⟨rfl, rfl, ho, o + 64, by omega, by omega, ?_⟩
      rw [bitAt_replicate_ones]; simp; omega
  · rintro ⟨h1, h2, h3, h4⟩ d hd
    refine ⟨?_, ?_, ?_, ?_⟩
    · rw [C01_read_value d o w s hw hw' (by omega), if_neg h1, if_neg h4]
    · rw [C70_cpp_read (.int b s) d o w hw hw' ⟨hb, hwb⟩ hd, if_neg (show ¬ ((CppType.int b s).isSigned = true ∧ w = 1) from h1)]; rfl
    · rw [C72_rust_read (.int b s) d o w hw hw' ⟨hb, hwb⟩ (by unfold RustPortable; omega) (by omega),
        if_neg (show ¬ ((RustType.int b s).isSigned = true ∧ w = 1) from h1)]; rfl
    · rw [C74_go_get (.int b s) d o w hw hw' ⟨hb, hwb, hb'⟩ (by omega), if_neg (show ¬ GoMisread (.int b s) o w from h3)]; rfl

/-- Boolean fields are read alike, without exception. -/
theorem C75_bools_agree (d : Bytes) (o : Nat) (hd : o + 1 + 64 ≤ 8 * d.length) :
    readValue d o 1 false = .ok (if bitAt d o then 1 else 0) ∧ cppRead .bool d o 1 = some (if bitAt d o then 1 else 0) ∧
    rustRead .bool d o 1 = some (if bitAt d o then 1 else 0) ∧ goGet .bool d o 1 = some (if bitAt d o then 1 else 0) := by
  have hf : fieldValue d o 1 false = if bitAt d o then 1 else 0 := by
    cases hb : bitAt d o <;> simp [fieldValue, unsignedAt, hb]
  refine ⟨?_, ?_, ?_, ?_⟩
  · rw [C01_read_value d o 1 false (by omega) (by omega) (by omega), if_neg (by simp), if_neg (by simp), hf]
  · rw [C70_cpp_read .bool d o 1 (by omega) (by omega) rfl hd, if_neg (by simp [CppType.isSigned]), ← hf]; rfl
  · rw [C72_rust_read .bool d o 1 (by omega) (by omega) rfl (by unfold RustPortable; omega) (by omega),
      if_neg (by simp [RustType.isSigned]), ← hf]; rfl
  · rw [C74_go_get .bool d o 1 (by omega) (by omega) rfl (by omega), if_neg (by simp [GoMisread, GoType.isSigned]), ← hf]; rfl

example : Portable 4 13 true ∧ Portable 7 57 false ∧ ¬ Portable 8 1 true ∧ ¬ Portable 9 64 true ∧
    ¬ Portable 1 3 true ∧ ¬ Portable 1 64 false := by decide

/-- **C75, writers.** For every in-range value and every field Rust can address the C++ and the Rust writer
produce the same buffer, whatever it contained before. -/
theorem C75_writers_agree (d : Bytes) (o w b : Nat) (s : Bool) (v : Int) (hw : 1 ≤ w) (hw' : w ≤ 64)
    (hp : RustPortable o w) (hv : InRange w s v) (hd : o + w + 64 ≤ 8 * d.length) :
    cppWrite (.int b s) d o w v = rustWrite (.int b s) d o w v := by
  have hst : CppStorable (.int b s) w v := ⟨hv, fun hs => by
    cases s with
    | true => simp [CppType.stdIsSigned] at hs
    | false => simp [InRange] at hv; exact hv.1⟩
  obtain ⟨d1, h1, hl1, hb1⟩ := C71_cpp_write (.int b s) d o w v hw hw' hst hd
  obtain ⟨d2, h2, hl2, hb2⟩ := C73_rust_write (.int b s) d o w v hw hw' hp hv (by omega)
  rw [h1, h2, Option.some.injEq]
  exact bytes_ext (by omega) fun i _ => by rw [hb1, hb2]

example : cppWrite (.int 16 true) (List.replicate 11 0xFF) 4 13 (-221) = rustWrite (.int 16 true) (List.replicate 11 0xFF) 4 13 (-221) :=
  C75_writers_agree _ 4 13 16 true (-221) (by omega) (by omega) (by unfold RustPortable; omega) (by decide) (by simp)

/-! ## C76 -/

/-- The value most recently assigned to a field (0 if there was no assignment). -/
def lastValue (calls : List (String × Int)) (name : String) : Int := (calls.reverse.lookup name).getD 0

theorem lastValue_nil (n : String) : lastValue [] n = 0 := rfl

theorem lookup_append_single {α} (l : List (String × α)) (n m : String) (v : α) :
    (l ++ [(m, v)]).lookup n = (l.lookup n).or (if n = m then some v else none) := by
  induction l with
  | nil => simp [List.lookup]; split <;> simp_all
  | cons p l ih =>
    obtain ⟨k, x⟩ := p
    simp only [List.cons_append, List.lookup_cons, ih]
    cases n == k <;> simp

/-- Folding assignments from the left over the last values so far. -/
theorem lookup_reverse_cons (calls : List (String × Int)) (m n : String) (v : Int) :
    (((m, v) :: calls).reverse.lookup n) = (calls.reverse.lookup n).or (if n = m then some v else none) := by
  rw [List.reverse_cons, lookup_append_single]

/-- The bits after some assignments: every field has the digits of the last value assigned to it (or its
old bits), everything else is unchanged. -/
theorem assignAll_bits (write : String → Bytes → Nat → Nat → Int → Option Bytes) (fields : List (String × FieldSig))
    (n : Nat) (ok : String → FieldSig → Int → Prop)
    (hwrite : ∀ d name f v, d.length = n → fields.lookup name = some f → ok name f v →
      ∃ d', write name d f.offset f.width v = some d' ∧ d'.length = d.length ∧
        ∀ i, bitAt d' i = if f.offset ≤ i ∧ i < f.offset + f.width then digit v (i - f.offset) else bitAt d i)
    (hdis : ∀ n1 f1 n2 f2, n1 ≠ n2 → fields.lookup n1 = some f1 → fields.lookup n2 = some f2 →
      f1.offset + f1.width ≤ f2.offset ∨ f2.offset + f2.width ≤ f1.offset)
    (calls : List (String × Int)) (d : Bytes) (hd : d.length = n)
    (hcalls : ∀ c ∈ calls, ∃ f, fields.lookup c.1 = some f ∧ ok c.1 f c.2) :
    ∃ d', assignAll write fields d calls = some d' ∧ d'.length = n ∧
      (∀ name f, fields.lookup name = some f → ∀ k, k < f.width → bitAt d' (f.offset + k) =
        match calls.reverse.lookup name with
        | some v => digit v k
        | none => bitAt d (f.offset + k)) ∧
      (∀ i, (∀ name f, fields.lookup name = some f → ¬ (f.offset ≤ i ∧ i < f.offset + f.width)) → bitAt d' i = bitAt d i) := by
  induction calls generalizing d with
  | nil => exact ⟨d, rfl, hd, fun _ _ _ _ _ => rfl, fun _ _ => rfl⟩
  | cons c calls ih =>
    obtain ⟨m, v⟩ := c
    obtain ⟨f, hf, hok⟩ := hcalls (m, v) (by simp)
    obtain ⟨d1, h1, hl1, hb1⟩ := hwrite d m f v hd hf hok
    obtain ⟨d2, h2, hl2, hb2, hr2⟩ := ih d1 (by omega) (fun c hc => hcalls c (by simp [hc]))
    refine ⟨d2, ?_, hl2, ?_, ?_⟩
    · simp only [assignAll, hf, h1, Option.bind_eq_bind, Option.bind_some, h2]
    · intro name g hg k hk
      rw [hb2 name g hg k hk, lookup_reverse_cons]
      cases hc : calls.reverse.lookup name with
      | some u => rfl
      | none =>
        simp only [Option.none_or]
        rw [hb1]
        by_cases hnm : name = m
        · subst hnm
          rw [hf] at hg; cases hg
          rw [if_pos rfl, if_pos ⟨by omega, by omega⟩]
          simp
        · rw [if_neg hnm]
          have := hdis name g m f hnm hg hf
          rw [if_neg (by omega)]
    · intro i hi
      rw [hr2 i hi, hb1, if_neg (hi m f hf)]

theorem lookup_mem {α} {l : List (String × α)} {n : String} {v : α} (h : l.lookup n = some v) : (n, v) ∈ l := by
  induction l with
  | nil => simp at h
  | cons p l ih =>
    obtain ⟨k, x⟩ := p
    rw [List.lookup_cons] at h
    cases hk : n == k with
    | true => rw [hk] at h; simp at h hk; subst h hk; simp
    | false => rw [hk] at h; simp [ih h]

theorem lookup_of_mem_nodup {α} {l : List (String × α)} {n : String} {v : α} (hn : (l.map (·.1)).Nodup) (h : (n, v) ∈ l) :
    l.lookup n = some v := by
  induction l with
  | nil => simp at h
  | cons p l ih =>
    obtain ⟨k, x⟩ := p
    rw [List.map_cons, List.nodup_cons] at hn
    rw [List.lookup_cons]
    rcases List.mem_cons.mp h with heq | hmem
    · cases heq; simp
    · have : n ≠ k := by
        rintro rfl
        exact hn.1 (List.mem_map.mpr ⟨(n, v), hmem, rfl⟩)
      have hb : (n == k) = false := by simpa using this
      rw [hb]; exact ih hn.2 hmem

theorem field_inj {fs : List FieldDecl} (hn : (fs.map (·.name)).Nodup) {f g : FieldDecl} (hf : f ∈ fs) (hg : g ∈ fs)
    (h : f.name = g.name) : f = g := by
  induction fs with
  | nil => simp at hf
  | cons a fs ih =>
    rw [List.map_cons, List.nodup_cons] at hn
    rcases List.mem_cons.mp hf with rfl | hf' <;> rcases List.mem_cons.mp hg with rfl | hg'
    · rfl
    · exact absurd (List.mem_map.mpr ⟨g, hg', h.symm⟩) hn.1
    · exact absurd (List.mem_map.mpr ⟨f, hf', h⟩) hn.1
    · exact ih hn.2 hf' hg'

theorem layout_disjoint (o : Nat) (fs : List FieldDecl) (hg : GoodWidths fs) :
    ∀ n1 f1 n2 f2, n1 ≠ n2 → (layoutFrom o fs).lookup n1 = some f1 → (layoutFrom o fs).lookup n2 = some f2 →
      f1.offset + f1.width ≤ f2.offset ∨ f2.offset + f2.width ≤ f1.offset := by
  induction fs generalizing o with
  | nil => intro n1 f1 n2 f2 _ h1; simp [layoutFrom] at h1
  | cons f fs ih =>
    intro n1 f1 n2 f2 hne h1 h2
    have hg' : GoodWidths fs := fun g hgm => hg g (by simp [hgm])
    have hasc := ascending_layout (o + f.width) fs hg'
    simp only [layoutFrom, List.lookup_cons] at h1 h2
    cases e1 : n1 == f.name with
    | true =>
      rw [e1] at h1
      simp only [Option.some.injEq] at h1
      cases e2 : n2 == f.name with
      | true => exact absurd ((by simpa using e1 : n1 = f.name).trans (by simpa using e2 : n2 = f.name).symm) hne
      | false =>
        rw [e2] at h2
        have := ascending_mem hasc (lookup_mem h2)
        subst h1
        left; exact this.1
    | false =>
      rw [e1] at h1
      cases e2 : n2 == f.name with
      | true =>
        rw [e2] at h2
        simp only [Option.some.injEq] at h2
        have := ascending_mem hasc (lookup_mem h1)
        subst h2
        right; exact this.1
      | false =>
        rw [e2] at h2
        exact ih (o + f.width) hg' n1 f1 n2 f2 hne h1 h2

/-- After any history of assignments to a zeroed buffer, it consists of the bytes Python produces and zeros. -/
theorem assignAll_serialize (write : String → Bytes → Nat → Nat → Int → Option Bytes) (name : String)
    (fs : List FieldDecl) (hg : GoodWidths fs) (hn : (fs.map (·.name)).Nodup) (pad : Nat)
    (ok : String → FieldSig → Int → Prop)
    (hwrite : ∀ d name f v, d.length = (mkStruct "" fs).sizeInBytes + pad → (layoutFrom 0 fs).lookup name = some f → ok name f v →
      ∃ d', write name d f.offset f.width v = some d' ∧ d'.length = d.length ∧
        ∀ i, bitAt d' i = if f.offset ≤ i ∧ i < f.offset + f.width then digit v (i - f.offset) else bitAt d i)
    (calls : List (String × Int)) (hcalls : ∀ c ∈ calls, ∃ f, (layoutFrom 0 fs).lookup c.1 = some f ∧ ok c.1 f c.2)
    (hone : ∀ f ∈ fs, f.width = 1 → lastValue calls f.name = 0 ∨ lastValue calls f.name = 1) :
    ∃ buf, serialize (mkStruct name fs) (fs.map fun f => (f.name, lastValue calls f.name)) = .ok buf ∧
      assignAll write (layoutFrom 0 fs) (List.replicate ((mkStruct name fs).sizeInBytes + pad) 0) calls =
        some (buf ++ List.replicate pad 0) := by
  have hlk : ∀ f ∈ fs, (fs.map fun f => (f.name, lastValue calls f.name)).lookup f.name = some (lastValue calls f.name) := by
    intro f hf
    apply lookup_of_mem_nodup
    · rw [List.map_map]; exact hn
    · exact List.mem_map.mpr ⟨f, hf, rfl⟩
  obtain ⟨buf, hser, hlen, himg, -⟩ := C06_struct_roundtrip name fs _ hg hn (fun f hf => ⟨_, hlk f hf⟩)
  refine ⟨buf, hser, ?_⟩
  obtain ⟨d', ha, hl', hb', hr'⟩ := assignAll_bits write (layoutFrom 0 fs) ((mkStruct name fs).sizeInBytes + pad) ok hwrite
    (layout_disjoint 0 fs hg) calls (List.replicate ((mkStruct name fs).sizeInBytes + pad) 0) (by simp) hcalls
  rw [ha, Option.some.injEq]
  have hasc := ascending_layout 0 fs hg
  have hkeysn : ((layoutFrom 0 fs).map (·.1)).Nodup := by rw [layoutFrom_keys]; exact hn
  apply bytes_ext
  · simp [hl', hlen]
  intro i _
  have hbits := image_bits (d := fs.map fun f => (f.name, lastValue calls f.name)) (buf := d') fs 0 (fun f hf => (hg f hf).1)
    (fun f hf => by rw [hlk f hf]; rfl)
    (by
      intro p hp v hv k hk
      have hlp := lookup_of_mem_nodup hkeysn (show (p.1, p.2) ∈ layoutFrom 0 fs from hp)
      have hmem : p.1 ∈ fs.map (·.name) := by rw [← layoutFrom_keys 0]; exact List.mem_map.mpr ⟨p, hp, rfl⟩
      obtain ⟨f, hf, hfn⟩ := List.mem_map.mp hmem
      rw [← hfn, hlk f hf, Option.some.injEq] at hv
      have hsd : storedDigit p.2.width v k = digit v k := by
        unfold storedDigit
        split
        · rename_i h1
          have hwf : f.width = 1 := by
            obtain ⟨i, hi⟩ := List.getElem?_of_mem hp
            rw [layoutFrom_getElem?] at hi
            cases hfi : fs[i]? with
            | none => simp [hfi] at hi
            | some g =>
              simp only [hfi, Option.map_some, Option.some.injEq] at hi
              have hgf : g = f := by
                have h3 : g.name = f.name := by rw [hfn, ← hi]
                exact field_inj hn (List.mem_of_getElem? hfi) hf h3
              rw [← hgf, ← h1, ← hi]
          have := hone f hf hwf
          rw [hv] at this
          have hk0 : k = 0 := by omega
          subst hk0
          rcases this with h | h <;> rw [h] <;> decide
        · rfl
      rw [hb' p.1 p.2 hlp k hk, hsd, bitAt_replicate_zero]
      rw [← hfn]
      cases hc : calls.reverse.lookup f.name with
      | some u =>
        simp only [lastValue, hc, Option.getD_some] at hv
        rw [hv]
      | none =>
        simp only [lastValue, hc, Option.getD_none] at hv
        rw [← hv]
        simp [digit])
    (by
      intro j hj
      rw [hr' j, bitAt_replicate_zero]
      intro nm f hlf hc
      have := ascending_mem hasc (lookup_mem hlf)
      simp only at this
      omega) i
  rw [Nat.zero_add] at hbits
  rw [hbits, ← himg, fromLE_testBit]
  by_cases hi : i < 8 * buf.length
  · unfold bitAt
    rw [List.getD_append]
    omega
  · rw [bitAt_of_ge (by omega)]
    unfold bitAt
    rw [List.getD_append_right _ _ _ _ (by omega)]
    have := bitAt_replicate_zero pad (i - 8 * buf.length)
    unfold bitAt at this
    rw [show (i - 8 * buf.length) / 8 = i / 8 - buf.length by omega, show (i - 8 * buf.length) % 8 = i % 8 by omega] at this
    exact this.symm

/-- **C76 (C++).** Assign to the fields of a new (zeroed, padded) C++ object in any order and any number of
times, every value in the range of its field: the object then consists of exactly the bytes the Python
builder writes for the values assigned last (0 for fields never assigned), and the padding is untouched.
`ty` gives the C++ types of the fields. -/
theorem C76_cpp_same_bytes (name : String) (fs : List FieldDecl) (ty : String → CppType) (hg : GoodWidths fs)
    (hn : (fs.map (·.name)).Nodup) (calls : List (String × Int))
    (hcalls : ∀ c ∈ calls, ∃ f ∈ fs, f.name = c.1 ∧ CppStorable (ty c.1) f.width c.2)
    (hone : ∀ f ∈ fs, f.width = 1 → lastValue calls f.name ≠ -1) :
    ∃ buf, serialize (mkStruct name fs) (fs.map fun f => (f.name, lastValue calls f.name)) = .ok buf ∧
      assignAll (fun n => cppWrite (ty n)) (layoutFrom 0 fs) (List.replicate ((mkStruct name fs).sizeInBytes + 8) 0) calls =
        some (buf ++ List.replicate 8 0) := by
  have hsize : sizeInBitsFrom 0 fs ≤ 8 * (mkStruct "" fs).sizeInBytes := by simp [mkStruct]; omega
  have hkeysn : ((layoutFrom 0 fs).map (·.1)).Nodup := by rw [layoutFrom_keys]; exact hn
  have hfind : ∀ f ∈ fs, ∃ g, (layoutFrom 0 fs).lookup f.name = some g ∧ g.width = f.width := by
    intro f hf
    obtain ⟨i, hi⟩ := List.getElem?_of_mem hf
    have := layoutFrom_getElem? 0 fs i
    rw [hi] at this
    exact ⟨_, lookup_of_mem_nodup hkeysn (List.mem_of_getElem? this), rfl⟩
  apply assignAll_serialize (ok := fun n f v => CppStorable (ty n) f.width v) _ name fs hg hn 8
  · intro d n f v hd hf hok
    have := ascending_mem (ascending_layout 0 fs hg) (lookup_mem hf)
    simp only at this
    exact C71_cpp_write (ty n) d f.offset f.width v this.2.1 this.2.2.1 hok (by omega)
  · intro c hc
    obtain ⟨f, hf, hfn, hst⟩ := hcalls c hc
    obtain ⟨g, hgl, hgw⟩ := hfind f hf
    exact ⟨g, by rw [← hfn]; exact hgl, by rw [hgw]; exact hst⟩
  · intro f hf h1
    have hne := hone f hf h1
    unfold lastValue at hne ⊢
    cases hc : calls.reverse.lookup f.name with
    | none => simp
    | some v =>
      rw [hc, Option.getD_some] at hne
      obtain ⟨g, hgm, hgn, hst⟩ := hcalls (f.name, v) (List.mem_reverse.mp (lookup_mem hc))
      have hgf : g = f := field_inj hn hgm hf hgn
      subst hgf
      have h2 := hst.1
      rw [h1] at h2
      simp only [Option.getD_some]
      cases hs : (ty g.name).isSigned <;> simp [InRange, hs] at h2 <;> omega

/-- **C76 (Rust).** The same for a new (zeroed, not padded) Rust structure whose fields are of the kind C73
covers. `ty` gives the Rust types of the fields. -/
theorem C76_rust_same_bytes (name : String) (fs : List FieldDecl) (ty : String → RustType) (hg : GoodWidths fs)
    (hn : (fs.map (·.name)).Nodup) (hp : ∀ p ∈ layoutFrom 0 fs, RustPortable p.2.offset p.2.width)
    (calls : List (String × Int))
    (hcalls : ∀ c ∈ calls, ∃ f ∈ fs, f.name = c.1 ∧ InRange f.width (ty c.1).isSigned c.2)
    (hone : ∀ f ∈ fs, f.width = 1 → lastValue calls f.name ≠ -1) :
    ∃ buf, serialize (mkStruct name fs) (fs.map fun f => (f.name, lastValue calls f.name)) = .ok buf ∧
      assignAll (fun n => rustWrite (ty n)) (layoutFrom 0 fs) (List.replicate (mkStruct name fs).sizeInBytes 0) calls =
        some buf := by
  have hsize : sizeInBitsFrom 0 fs ≤ 8 * (mkStruct "" fs).sizeInBytes := by simp [mkStruct]; omega
  have hkeysn : ((layoutFrom 0 fs).map (·.1)).Nodup := by rw [layoutFrom_keys]; exact hn
  have hfind : ∀ f ∈ fs, ∃ g, (layoutFrom 0 fs).lookup f.name = some g ∧ g.width = f.width := by
    intro f hf
    obtain ⟨i, hi⟩ := List.getElem?_of_mem hf
    have := layoutFrom_getElem? 0 fs i
    rw [hi] at this
    exact ⟨_, lookup_of_mem_nodup hkeysn (List.mem_of_getElem? this), rfl⟩
  have := assignAll_serialize (fun n => rustWrite (ty n)) name fs hg hn 0
    (fun n f v => InRange f.width (ty n).isSigned v)
    (by
      intro d n f v hd hf hok
      have := ascending_mem (ascending_layout 0 fs hg) (lookup_mem hf)
      simp only at this
      exact C73_rust_write (ty n) d f.offset f.width v this.2.1 this.2.2.1 (hp _ (lookup_mem hf)) hok (by omega))
    calls
    (by
      intro c hc
      obtain ⟨f, hf, hfn, hst⟩ := hcalls c hc
      obtain ⟨g, hgl, hgw⟩ := hfind f hf
      exact ⟨g, by rw [← hfn]; exact hgl, by rw [hgw]; exact hst⟩)
    (by
      intro f hf h1
      have hne := hone f hf h1
      unfold lastValue at hne ⊢
      cases hc : calls.reverse.lookup f.name with
      | none => simp
      | some v =>
        rw [hc, Option.getD_some] at hne
        obtain ⟨g, hgm, hgn, hst⟩ := hcalls (f.name, v) (List.mem_reverse.mp (lookup_mem hc))
        have hgf : g = f := field_inj hn hgm hf hgn
        subst hgf
        have h2 := hst
        rw [h1] at h2
        simp only [Option.getD_some]
        cases hs : (ty g.name).isSigned <;> simp [InRange, hs] at h2 <;> omega)
  simpa using this

/-- Three fields, assigned out of order and one of them twice. -/
example : assignAll (fun _ => cppWrite (.int 16 true)) (layoutFrom 0 [⟨"a", 3, true⟩, ⟨"b", 13, true⟩, ⟨"c", 7, true⟩])
      (List.replicate 11 0) [("c", 5), ("b", -221), ("a", 2), ("c", -1)] =
      some ([0x1A, 0xF9, 0x7F] ++ List.replicate 8 0) ∧
    assignAll (fun _ => rustWrite (.int 16 true)) (layoutFrom 0 [⟨"a", 3, true⟩, ⟨"b", 13, true⟩, ⟨"c", 7, true⟩])
      (List.replicate 3 0) [("c", 5), ("b", -221), ("a", 2), ("c", -1)] = some [0x1A, 0xF9, 0x7F] ∧
    serialize (mkStruct "S" [⟨"a", 3, true⟩, ⟨"b", 13, true⟩, ⟨"c", 7, true⟩]) [("a", 2), ("b", -221), ("c", -1)] =
      .ok [0x1A, 0xF9, 0x7F] := by decide +kernel

/-- The hypotheses of C76 hold for it. -/
example : ∀ c ∈ [("c", 5), ("b", -221), ("a", 2), ("c", (-1 : Int))],
    ∃ f ∈ ([⟨"a", 3, true⟩, ⟨"b", 13, true⟩, ⟨"c", 7, true⟩] : List FieldDecl), f.name = c.1 ∧ CppStorable (.int 16 true) f.width c.2 := by
  unfold CppStorable; decide

/-- Signed one-bit fields are the exception: C++ stores -1 as 1, Python as 0. -/
theorem C76_counterexample :
    serialize (mkStruct "S" [⟨"a", 1, true⟩]) [("a", -1)] = .ok [0] ∧
    assignAll (fun _ => cppWrite (.int 8 true)) (layoutFrom 0 [⟨"a", 1, true⟩]) (List.replicate 9 0) [("a", -1)] =
      some ([1] ++ List.replicate 8 0) := by decide +kernel

end Props
