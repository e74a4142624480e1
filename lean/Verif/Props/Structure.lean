import Verif.Lemmas.Image

/-!
# C06, C07: structure layout and structure round trip
-/

namespace Props
open Py Spec Model

/-! ## C07 -/

/-- **C07.** In the class generated for a structure, the fields appear in declaration order with their
declared width and signedness; each field's offset is the sum of the widths of its predecessors; two
different fields never overlap; every bit below the total width belongs to exactly one field; and the
size in bytes is the least number of bytes that contains all fields. -/
theorem C07_layout (name : String) (fs : List FieldDecl) :
    let t := mkStruct name fs
    let total := (fs.map (·.width)).sum
    (t.fields.length = fs.length) ∧
    (∀ (i : Nat) (f : FieldDecl), fs[i]? = some f → ∃ g, t.fields[i]? = some (f.name, g) ∧
      g.offset = ((fs.take i).map (·.width)).sum ∧ g.width = f.width ∧ g.isSigned = f.isSigned) ∧
    (∀ (i j : Nat) p q, t.fields[i]? = some p → t.fields[j]? = some q → i < j →
      p.2.offset + p.2.width ≤ q.2.offset) ∧
    (∀ b, b < total → ∃! i : Nat, ∃ p : String × FieldSig, t.fields[i]? = some p ∧
      p.2.offset ≤ b ∧ b < p.2.offset + p.2.width) ∧
    (total ≤ 8 * t.sizeInBytes) ∧ (∀ m, total ≤ 8 * m → t.sizeInBytes ≤ m) := by
  intro t total
  have hfields : ∀ (i : Nat) p, t.fields[i]? = some p →
      ∃ f, fs[i]? = some f ∧ p.2.offset = ((fs.take i).map (·.width)).sum ∧ p.2.width = f.width := by
    intro i p hp
    have : (layoutFrom 0 fs)[i]? = some p := hp
    rw [layoutFrom_getElem?] at this
    cases hf : fs[i]? with
    | none => simp [hf] at this
    | some f => rw [hf] at this; simp only [Option.map_some, Option.some.injEq] at this; subst this
                exact ⟨f, rfl, by simp, rfl⟩
  have hsum : ∀ (i : Nat) f, fs[i]? = some f → ((fs.take (i + 1)).map (·.width)).sum =
      ((fs.take i).map (·.width)).sum + f.width := by
    intro i f hf
    rw [List.take_add_one, hf]; simp
  have hmono : ∀ i j, i ≤ j → ((fs.take i).map (·.width)).sum ≤ ((fs.take j).map (·.width)).sum := by
    intro i j hij
    induction j, hij using Nat.le_induction with
    | base => exact Nat.le_refl _
    | succ j _ ih =>
      cases hf : fs[j]? with
      | none => rw [List.take_add_one, hf]; simpa using ih
      | some f => rw [hsum j f hf]; omega
  have hdisj : ∀ (i j : Nat) p q, t.fields[i]? = some p → t.fields[j]? = some q → i < j →
      p.2.offset + p.2.width ≤ q.2.offset := by
    intro i j p q hp hq hij
    obtain ⟨f, hf, hpo, hpw⟩ := hfields i p hp
    obtain ⟨g, hg, hqo, -⟩ := hfields j q hq
    rw [hpo, hpw, hqo, ← hsum i f hf]
    exact hmono (i + 1) j hij
  refine ⟨layoutFrom_length 0 fs, ?_, hdisj, ?_, ?_, ?_⟩
  · intro i f hf
    refine ⟨⟨((fs.take i).map (·.width)).sum, f.width, f.isSigned⟩, ?_, rfl, rfl, rfl⟩
    show (layoutFrom 0 fs)[i]? = _
    rw [layoutFrom_getElem?, hf]; simp
  · intro b hb
    have hex : ∀ n, n ≤ fs.length → b < ((fs.take n).map (·.width)).sum → ∃ i : Nat, ∃ p : String × FieldSig, t.fields[i]? = some p ∧
        p.2.offset ≤ b ∧ b < p.2.offset + p.2.width := by
      intro n
      induction n with
      | zero => intro _ h; simp at h
      | succ n ih =>
        intro hn hlt
        by_cases h : b < ((fs.take n).map (·.width)).sum
        · exact ih (by omega) h
        · have hf : fs[n]? = some fs[n] := List.getElem?_eq_getElem (by omega)
          rw [hsum n _ hf] at hlt
          refine ⟨n, (fs[n].name, ⟨((fs.take n).map (·.width)).sum, fs[n].width, fs[n].isSigned⟩),
            ?_, by simp only; omega, by simp only; omega⟩
          show (layoutFrom 0 fs)[n]? = _
          rw [layoutFrom_getElem?, hf]; simp
    obtain ⟨i, p, hp, h1, h2⟩ := hex fs.length (Nat.le_refl _) (by simpa using hb)
    refine ⟨i, ⟨p, hp, h1, h2⟩, ?_⟩
    rintro j ⟨q, hq, h3, h4⟩
    rcases Nat.lt_trichotomy i j with h | h | h
    · have := hdisj i j p q hp hq h; omega
    · exact h.symm
    · have := hdisj j i q p hq hp h; omega
  · show total ≤ 8 * ((sizeInBitsFrom 0 fs + 7) / 8)
    rw [sizeInBitsFrom_eq]; simp only [Nat.zero_add]
    show total ≤ 8 * ((total + 7) / 8); omega
  · intro m hm
    show (sizeInBitsFrom 0 fs + 7) / 8 ≤ m
    rw [sizeInBitsFrom_eq]; simp only [Nat.zero_add]
    show (total + 7) / 8 ≤ m; omega

example : mkStruct "S" [⟨"a", 3, false⟩, ⟨"b", 17, true⟩, ⟨"c", 1, false⟩] =
    { name := "S", sizeInBytes := 3, fieldKeys := ["a", "b", "c"],
      fields := [("a", ⟨0, 3, false⟩), ("b", ⟨3, 17, true⟩), ("c", ⟨20, 1, false⟩)] } := by
  decide

/-! ## C06 -/

/-- Field widths 1..64. The generator rejects wider fields; it accepts the width 0, for which there is nothing to store
(`C06_width_zero`, `C01_width_zero`). -/
def GoodWidths (fs : List FieldDecl) : Prop := ∀ f ∈ fs, 1 ≤ f.width ∧ f.width ≤ 64

theorem field_bounds {name : String} {fs : List FieldDecl} (hg : GoodWidths fs)
    {p : String × FieldSig} (hp : p ∈ (mkStruct name fs).fields) :
    1 ≤ p.2.width ∧ p.2.width ≤ 64 ∧ p.2.offset + p.2.width ≤ 8 * (mkStruct name fs).sizeInBytes := by
  have hasc := ascending_layout 0 fs hg
  have := ascending_mem hasc hp
  have e : (mkStruct name fs).sizeInBytes = (sizeInBitsFrom 0 fs + 7) / 8 := rfl
  rw [e]; omega

theorem lookup_layout {fs : List FieldDecl} (hnames : (fs.map (·.name)).Nodup) {i : Nat} {f : FieldDecl} (hi : fs[i]? = some f) :
    (layoutFrom 0 fs).lookup f.name = some ⟨bitOffset fs i, f.width, f.isSigned⟩ := by
  have hm : (f.name, (⟨bitOffset fs i, f.width, f.isSigned⟩ : FieldSig)) ∈ layoutFrom 0 fs := by
    apply List.mem_of_getElem? (i := i)
    rw [layoutFrom_getElem?, hi]; simp [bitOffset]
  have hnd : ((layoutFrom 0 fs).map (·.1)).Nodup := by rw [layoutFrom_keys]; exact hnames
  revert hm hnd
  generalize layoutFrom 0 fs = l
  intro hm hnd
  induction l with
  | nil => simp at hm
  | cons q l ih =>
    obtain ⟨a, b⟩ := q
    rcases List.mem_cons.mp hm with h | h
    · cases h; simp
    · simp only [List.map_cons, List.nodup_cons] at hnd
      have hne : ¬ f.name = a := by
        rintro rfl; exact hnd.1 (List.mem_map_of_mem (f := (·.1)) h)
      have : (f.name == a) = false := by simpa using hne
      rw [List.lookup_cons, this]
      exact ih h hnd.2

/-- **C06.** For every structure type (any number of fields with distinct names and widths 1..64) and every dictionary that has
all of its fields, whatever the integers in it: serialising succeeds; the bytes are exactly `size_in_bytes` many and hold,
read as one little-endian number, the digits of the fields one after the other; and in a structure located *anywhere* in a larger
buffer that holds these bytes, field number `i` shows `shownValue`. If the value is in the range of its field, that is the value itself,
except in exactly two cases: -1 in a signed 1-bit field, and an unsigned 64-bit field at an unaligned offset if a bit behind it in its
last byte is set. -/
theorem C06_struct_roundtrip (name : String) (fs : List FieldDecl) (value : List (String × Int))
    (hg : GoodWidths fs) (hnames : (fs.map (·.name)).Nodup) (hkeys : ∀ f ∈ fs, ∃ v, value.lookup f.name = some v) :
    ∃ buf, serialize (mkStruct name fs) value = .ok buf ∧ buf.length = (mkStruct name fs).sizeInBytes ∧ fromLE buf = image value fs ∧
      ∀ (mem : Bytes) (pos : Nat), (mem.drop pos).take buf.length = buf → pos + buf.length ≤ mem.length →
        ∀ (i : Nat) f, fs[i]? = some f → ∃ v, value.lookup f.name = some v ∧
          (StructView.mk (mkStruct name fs) mem pos).getAttr f.name = .ok (shownValue (bitOffset fs i) f (fs.drop (i + 1)) value v) ∧
          (InRange f.width f.isSigned v → (shownValue (bitOffset fs i) f (fs.drop (i + 1)) value v = v ↔
            ¬ (f.isSigned = true ∧ f.width = 1 ∧ v = -1) ∧
            ¬ (f.isSigned = false ∧ f.width = 64 ∧ bitOffset fs i % 8 ≠ 0 ∧ image value (fs.drop (i + 1)) % 2 ^ (8 - bitOffset fs i % 8) ≠ 0))) := by
  have hasc := ascending_layout 0 fs hg
  have hkeys' : ∀ f ∈ fs, (value.lookup f.name).isSome := fun f hf => by obtain ⟨v, hv⟩ := hkeys f hf; simp [hv]
  have hk : ∀ p ∈ layoutFrom 0 fs, (value.lookup p.1).isSome := by
    intro p hp
    have : p.1 ∈ (layoutFrom 0 fs).map (·.1) := List.mem_map_of_mem hp
    rw [layoutFrom_keys] at this
    obtain ⟨f, hf, hfe⟩ := List.mem_map.mp this
    rw [← hfe]; exact hkeys' f hf
  obtain ⟨buf, he, hl, -, hpost, hin, -⟩ := writeFields_bits 0 value (layoutFrom 0 fs) 0
    (sizeInBitsFrom 0 fs) (List.replicate ((sizeInBitsFrom 0 fs + 7) / 8) 0) hasc
    (by simp; omega) hk (fun i _ => bitAt_replicate_zero _ i)
  have hlen : buf.length = (mkStruct name fs).sizeInBytes := by rw [hl]; simp [mkStruct]
  have himg : fromLE buf = image value fs := by
    apply Nat.eq_of_testBit_eq
    intro i
    have := image_bits fs 0 (fun f hf => (hg f hf).1) hkeys' (fun p hp v hv k hk => by simpa using hin p hp v hv k hk)
      (fun i hi => hpost i (by omega)) i
    rw [← this, fromLE_testBit, Nat.zero_add]
  refine ⟨buf, he, hlen, himg, ?_⟩
  intro mem pos hsub hle i f hi
  have hf := List.mem_of_getElem? hi
  obtain ⟨v, hv⟩ := hkeys f hf
  refine ⟨v, hv, ?_, shownValue_eq_iff⟩
  have hlook := lookup_layout hnames hi
  have hm : (f.name, (⟨bitOffset fs i, f.width, f.isSigned⟩ : FieldSig)) ∈ (mkStruct name fs).fields := by
    apply List.mem_of_getElem? (i := i)
    show (layoutFrom 0 fs)[i]? = _
    rw [layoutFrom_getElem?, hi]; simp [bitOffset]
  obtain ⟨h1, h2, h3⟩ := field_bounds (name := name) hg hm
  have hdrop : fs.drop i = f :: fs.drop (i + 1) := by
    obtain ⟨hlt, e⟩ := List.getElem?_eq_some_iff.mp hi
    rw [List.drop_eq_getElem_cons hlt, e]
  have hlook' : (mkStruct name fs).fields.lookup f.name = some ⟨bitOffset fs i, f.width, f.isSigned⟩ := hlook
  simp only [StructView.getAttr, hlook', StructView.getValue]
  rw [readValue_embed h1 h2 (by rw [hlen]; exact h3) hsub hle]
  exact readValue_image himg (fun f hf => (hg f hf).1) h2 hdrop hv (by rw [hlen]; exact h3)

/-- Fields of width 0 at unaligned offsets cannot be written: whatever the value, `write_value` raises `IndexError`. -/
theorem C06_width_zero (d : Bytes) (o : Nat) (s : Bool) (v : Int) (ho : o % 8 ≠ 0) : writeValue d o 0 s v = .error .indexError := by
  have hb : toBytes (band (shl v (o % 8)) (shl (shl 1 0 - 1) (o % 8))) ((0 + 7) / 8 + 1) s = .ok (toLE 1 0) := by
    have h0 : band (shl v (o % 8)) (shl (shl 1 0 - 1) (o % 8)) = 0 := by
      have : shl (shl 1 0 - 1) (o % 8) = 0 := by simp [shl]
      rw [this]
      obtain ⟨n, hn, hk⟩ := band_right_nat (shl v (o % 8)) 0
      have hz : n = 0 := Nat.eq_of_testBit_eq fun k => by rw [hk]; simp
      rw [hz] at hn
      exact hn
    rw [h0]
    cases s <;> rfl
  have hlast : ∀ d' : Bytes, writeLast (toLE 1 0) o 0 d' = .error .indexError := by
    intro d'
    unfold writeLast
    simp only
    rw [if_pos (by omega)]
    unfold getByte
    cases d'[o / 8 + max 1 ((0 + 7) / 8)]? <;> rfl
  unfold writeValue
  rw [if_neg (by omega), if_neg (by omega)]
  simp only [hb, bind, Except.bind]
  by_cases hlen : o / 8 < d.length
  · obtain ⟨d', he, -⟩ := writeFirst_bits 1 0 o d (by omega) hlen
    rw [he]
    exact hlast d'
  · have : getByte d (o / 8) = .error .indexError := by
      unfold getByte; rw [List.getElem?_eq_none (by omega)]; rfl
    unfold writeFirst
    simp only [this, bind, Except.bind]

/-- The excluded case of C06 is real: an unaligned unsigned 64-bit field followed by another field
reads back a different (too large) value. -/
theorem C06_counterexample_u64 :
    ∃ (fs : List FieldDecl) (value : List (String × Int)) (buf : Bytes),
      GoodWidths fs ∧ (∀ f ∈ fs, ∃ v, value.lookup f.name = some v ∧ InRange f.width f.isSigned v) ∧
      serialize (mkStruct "S" fs) value = .ok buf ∧ value.lookup "b" = some 5 ∧
      (StructView.mk (mkStruct "S" fs) buf 0).getAttr "b" = .ok (5 + 2 ^ 64) := by
  refine ⟨[⟨"a", 1, false⟩, ⟨"b", 64, false⟩, ⟨"c", 1, false⟩], [("a", 0), ("b", 5), ("c", 1)],
    [10, 0, 0, 0, 0, 0, 0, 0, 2], ?_, ?_, by decide +kernel, by decide +kernel, by decide +kernel⟩
  · intro f hf
    simp only [List.mem_cons, List.not_mem_nil, or_false] at hf
    rcases hf with rfl | rfl | rfl <;> decide
  · intro f hf
    simp only [List.mem_cons, List.not_mem_nil, or_false] at hf
    rcases hf with rfl | rfl | rfl
    · exact ⟨0, by decide, by decide⟩
    · exact ⟨5, by decide, by decide⟩
    · exact ⟨1, by decide, by decide⟩

/-- C06 is not vacuous: a three-field structure with negative values at a non-zero position. -/
example : ∃ buf, serialize (mkStruct "S" [⟨"a", 3, false⟩, ⟨"b", 17, true⟩, ⟨"c", 64, false⟩])
      [("c", 2 ^ 64 - 1), ("b", -3), ("a", 7)] = .ok buf ∧
    (StructView.mk (mkStruct "S" [⟨"a", 3, false⟩, ⟨"b", 17, true⟩, ⟨"c", 64, false⟩])
      ([1, 2] ++ buf ++ [255]) 2).asDict = .ok [("a", 7), ("b", -3), ("c", 2 ^ 64 - 1)] :=
  ⟨[239, 255, 255, 255, 255, 255, 255, 255, 255, 255, 15], by decide +kernel, by decide +kernel⟩

end Props
