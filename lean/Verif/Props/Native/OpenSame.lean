import Verif.Props.Native.CppArchive

/-!
# C86: an archive that Rust opens is the same archive in C++
-/

namespace Props
open Py Spec Model Model.Native _root_.Native

/-- What is shown in Rust and in C++ is the same: the same resources are absent, the same number of elements in the same bytes. (In C++,
eight more bytes are readable behind them.) -/
inductive SameShown : List RustResource → List (String × Option RustOpened) → List (String × Option CppOpened) → Prop where
  | nil : SameShown [] [] []
  | absent {r rs l l' name} (rest : SameShown rs l l') : SameShown (r :: rs) ((name, none) :: l) ((name, none) :: l')
  | vector {rs l l' name schema optional maxSize overlapping n mem tail len} (ht : tail.length = 8) (hl : n * len ≤ mem.length)
    (ho : overlapping = true → n * (len + 1) ≤ mem.length) (rest : SameShown rs l l') :
    SameShown (.vector name schema optional maxSize overlapping n :: rs) ((name, some (.vector ⟨mem, len⟩)) :: l)
      ((name, some (.vector ⟨mem ++ tail, len⟩)) :: l')
  | instance {rs l l' name schema optional maxSize n mem tail} (ht : tail.length = 8) (hl : n ≤ mem.length) (rest : SameShown rs l l') :
    SameShown (.instance name schema optional maxSize n :: rs) ((name, some (.instance mem)) :: l) ((name, some (.instance (mem ++ tail))) :: l')
  | rawData {rs l l' name schema optional maxSize b} (rest : SameShown rs l l') :
    SameShown (.rawData name schema optional maxSize :: rs) ((name, some (.rawData b)) :: l) ((name, some (.rawData b)) :: l')
  | multivector {rs l l' name schema optional maxSize w mem tail len data tail'} (ht : tail.length = 8) (ht' : tail'.length = 8)
    (hl : (w + 7) / 8 * (len + 1) ≤ mem.length) (rest : SameShown rs l l') :
    SameShown (.multivector name schema optional maxSize w :: rs) ((name, some (.multivector ⟨⟨mem, len⟩, data⟩)) :: l)
      ((name, some (.multivector ⟨⟨mem ++ tail, len⟩, data ++ tail'⟩)) :: l')
  | archive {rs l l' name optional maxSize archiveName archiveSchema resources i i'} (inner : SameShown resources i i')
    (rest : SameShown rs l l') :
    SameShown (.archive name optional maxSize archiveName archiveSchema resources :: rs) ((name, some (.archive i)) :: l)
      ((name, some (.archive i')) :: l')

mutual
/-- No schema of these resources is empty. (Generated schemas are not.) -/
def HaveSchemas : List RustResource → Prop
  | [] => True
  | r :: rs => HaveSchema r ∧ HaveSchemas rs

/-- The same for one resource. -/
def HaveSchema : RustResource → Prop
  | .vector _ schema _ _ _ _ => schema ≠ ""
  | .instance _ schema _ _ _ => schema ≠ ""
  | .rawData _ schema _ _ => schema ≠ ""
  | .multivector _ schema _ _ _ => schema ≠ ""
  | .archive _ _ _ _ schema resources => schema ≠ "" ∧ HaveSchemas resources
end

theorem good_cpp {f : Files} {name schema : String} {p : Bytes} (hs : schema ≠ "") (h : GoodResource f name schema p) :
    ∃ t, GoodCpp f name schema p t := by
  obtain ⟨t, h1, h2, h3⟩ := h
  exact ⟨t, h1, h2, h3, hs⟩

theorem not_goodCpp {f : Files} {name schema : String} (h : f name = none) (p t : Bytes) : ¬ GoodCpp f name schema p t := by
  intro hg
  rw [hg.1] at h
  cases h

theorem index_schema_ne (schema : String) : "index(" ++ schema ++ ")" ≠ "" := by
  intro h
  have := congrArg String.length h
  simp at this

theorem opensTo_cpp {f : Files} {rs : List RustResource} {l : List (String × Option RustOpened)} (h : OpensTo f rs l)
    (hh : HaveSchemas rs) : ∃ l', CppOpensTo f rs l' ∧ SameShown rs l l' := by
  induction h with
  | nil f => exact ⟨[], .nil f, .nil⟩
  | noVector h _ ih =>
    rw [HaveSchemas] at hh
    obtain ⟨l', h1, h2⟩ := ih hh.2
    exact ⟨_, .noVector (not_goodCpp h) h1, .absent h2⟩
  | noInstance h _ ih =>
    rw [HaveSchemas] at hh
    obtain ⟨l', h1, h2⟩ := ih hh.2
    exact ⟨_, .noInstance (not_goodCpp h) h1, .absent h2⟩
  | noRawData h _ ih =>
    rw [HaveSchemas] at hh
    obtain ⟨l', h1, h2⟩ := ih hh.2
    exact ⟨_, .noRawData (not_goodCpp h) h1, .absent h2⟩
  | noMultivector h _ _ ih =>
    rw [HaveSchemas] at hh
    obtain ⟨l', h1, h2⟩ := ih hh.2
    exact ⟨_, .noMultivector (Or.inl (not_goodCpp h)) h1, .absent h2⟩
  | noArchive h _ ih =>
    rw [HaveSchemas] at hh
    obtain ⟨l', h1, h2⟩ := ih hh.2
    exact ⟨_, .noSignature (not_goodCpp h) h1, .absent h2⟩
  | @vector f rs l name schema optional maxSize overlapping n p hg h0 hd ho hm _ ih =>
    rw [HaveSchemas, HaveSchema] at hh
    obtain ⟨l', h1, h2⟩ := ih hh.2
    obtain ⟨t, hg'⟩ := good_cpp hh.1 hg
    have hmul : n * (p.length / n) = p.length := Nat.mul_div_cancel' hd
    refine ⟨_, .vector hg' hm h1, .vector hg'.2.1 ?_ ?_ h2⟩
    · split
      · exact le_trans (Nat.mul_le_mul_left _ (Nat.sub_le _ _)) hmul.le
      · exact hmul.le
    · rintro rfl
      have : 0 < p.length / n := Nat.div_pos (ho rfl) h0
      rw [if_pos rfl, Nat.sub_add_cancel this, hmul]
  | «instance» hg hn _ ih =>
    rw [HaveSchemas, HaveSchema] at hh
    obtain ⟨l', h1, h2⟩ := ih hh.2
    obtain ⟨t, hg'⟩ := good_cpp hh.1 hg
    exact ⟨_, .instance hg' h1, .instance hg'.2.1 hn h2⟩
  | rawData hg hm _ ih =>
    rw [HaveSchemas, HaveSchema] at hh
    obtain ⟨l', h1, h2⟩ := ih hh.2
    obtain ⟨t, hg'⟩ := good_cpp hh.1 hg
    exact ⟨_, .rawData hg' hm h1, .rawData h2⟩
  | @multivector f rs l name schema optional maxSize w index data hi hg h0 hd ho hm _ ih =>
    rw [HaveSchemas, HaveSchema] at hh
    obtain ⟨l', h1, h2⟩ := ih hh.2
    obtain ⟨t', hg'⟩ := good_cpp hh.1 hg
    obtain ⟨t, hi'⟩ := good_cpp (index_schema_ne schema) hi
    refine ⟨_, .multivector hi' hg' hm h1, .multivector hi'.2.1 hg'.2.1 ?_ h2⟩
    have : 0 < index.length / ((w + 7) / 8) := Nat.div_pos ho h0
    rw [Nat.sub_add_cancel this, Nat.mul_div_cancel' hd]
  | archive hs _ _ ihi ih =>
    rw [HaveSchemas, HaveSchema] at hh
    obtain ⟨l', h1, h2⟩ := ih hh.2
    obtain ⟨i', h3, h4⟩ := ihi hh.1.2
    obtain ⟨t, hg'⟩ := good_cpp hh.1.1 hs
    exact ⟨_, .archive hg' h3 h1, .archive h4 h2⟩

/-- **C86.** Whatever the files are (written by a builder or not): an archive that can be opened in Rust can be opened in C++, with the
same resources, in the same bytes. -/
theorem C86_rust_then_cpp (f : Files) (hs : SmallFiles f) (archiveName schema : String) (hne : schema ≠ "") (resources : List RustResource)
    (hh : HaveSchemas resources) (l : List (String × Option RustOpened)) (h : rustOpen f archiveName schema resources = .ok l) :
    ∃ l', cppOpen f archiveName schema resources = some l' ∧ SameShown resources l l' := by
  obtain ⟨⟨p, hg⟩, h⟩ := ((C84_rust_open f hs archiveName schema resources).1 l).mp h
  obtain ⟨t, hg'⟩ := good_cpp hne hg
  obtain ⟨l', h1, h2⟩ := opensTo_cpp h hh
  exact ⟨l', ((C85_cpp_open f hs archiveName schema resources).2 l').mpr ⟨⟨p, t, hg'⟩, h1⟩, h2⟩

/-- **C86 (values).** In the same bytes, whatever they are, the getters in Rust and the members in C++ have the same values. -/
theorem C86_same_values (tyR : String → RustType) (tyC : String → CppType) (fs : List FieldDecl) (hg : GoodStruct fs) (hr : RustStruct fs)
    (hR : RustTypes tyR fs) (hC : CppTypes tyC fs) (mem tail : Bytes) (hm : ((fs.map (·.width)).sum + 7) / 8 ≤ mem.length)
    (ht : tail.length = 8) (f : FieldDecl) (hf : f ∈ fs) :
    ∃ v, rustGet tyR fs mem f.name = some v ∧ cppGet tyC fs (mem ++ tail) f.name = some v := by
  obtain ⟨i, hi⟩ := List.getElem?_of_mem hf
  have hkeysn : ((layoutFrom 0 fs).map (·.1)).Nodup := by rw [layoutFrom_keys]; exact hg.names
  have hlk := layoutFrom_getElem? 0 fs i
  rw [hi] at hlk
  have hlk := lookup_of_mem_nodup hkeysn (List.mem_of_getElem? hlk)
  obtain ⟨hR1, hR2⟩ := hR f hf
  obtain ⟨hC1, hC2⟩ := hC f hf
  have hw := hg.widths f hf
  have hfit := bitOffset_fits hi
  have hbits : ∀ k, k < f.width → bitAt (mem ++ tail) (bitOffset fs i + k) = bitAt mem (bitOffset fs i + k) := fun k hk =>
    bitAt_append_left (by omega)
  have hu : unsignedAt (mem ++ tail) (bitOffset fs i) f.width = unsignedAt mem (bitOffset fs i) f.width := by
    apply Nat.eq_of_testBit_eq; intro k
    rw [unsignedAt_testBit, unsignedAt_testBit]
    by_cases hk : k < f.width
    · rw [hbits k hk]
    · simp [hk]
  have hb0 := hbits 0 (by omega)
  rw [Nat.add_zero] at hb0
  simp only [rustGet, cppGet, hlk, Option.bind_eq_bind, Option.bind_some, Nat.zero_add]
  rw [show ((fs.take i).map (·.width)).sum = bitOffset fs i from rfl]
  refine ⟨_, C72_rust_read _ _ _ _ hw.1 hw.2 hR1 (hr i f hi) (by omega), ?_⟩
  rw [C70_cpp_read _ _ _ _ hw.1 hw.2 hC1 (by rw [List.length_append]; omega), hR2, hC2, hb0]
  simp only [fieldValue, hu]

/-- **C86 (elements).** The elements of a vector that was opened in Rust and in C++ have the same values, whatever is in the files. -/
theorem C86_same_elements (tyR : String → RustType) (tyC : String → CppType) (fs : List FieldDecl) (hg : GoodStruct fs) (hr : RustStruct fs)
    (hR : RustTypes tyR fs) (hC : CppTypes tyC fs) (mem tail : Bytes) (len : Nat) (ht : tail.length = 8)
    (hl : ((fs.map (·.width)).sum + 7) / 8 * len ≤ mem.length) (i : Nat) (hi : i < len) (f : FieldDecl) (hf : f ∈ fs) :
    ∃ m v, RustSlice.at ⟨mem, len⟩ (((fs.map (·.width)).sum + 7) / 8) i = some m ∧ rustGet tyR fs m f.name = some v ∧
      cppGet tyC fs (CppView.at ⟨mem ++ tail, len⟩ (((fs.map (·.width)).sum + 7) / 8) i) f.name = some v := by
  have h1 := Nat.mul_le_mul_left (((fs.map (·.width)).sum + 7) / 8) (Nat.succ_le_of_lt hi)
  rw [Nat.mul_succ] at h1
  have h2 : (mem ++ tail).drop (((fs.map (·.width)).sum + 7) / 8 * i) = mem.drop (((fs.map (·.width)).sum + 7) / 8 * i) ++ tail :=
    List.drop_append_of_le_length (by omega)
  obtain ⟨v, h3, h4⟩ := C86_same_values tyR tyC fs hg hr hR hC (mem.drop (((fs.map (·.width)).sum + 7) / 8 * i)) tail
    (by rw [List.length_drop]; omega) ht f hf
  exact ⟨_, v, if_pos hi, h3, by rw [CppView.at, h2]; exact h4⟩

/-- The converse of C86 does not hold: an optional resource with broken files is an error in Rust, and absent in C++. -/
theorem C86_counterexample_broken_optional :
    let f : Files := fun n => List.lookup n [("A.archive", frame []), ("A.archive.schema", encodeUtf8 "a"), ("v", [1, 2]),
      ("v.schema", encodeUtf8 "v")]
    let resources : List RustResource := [.rawData "v" "v" true none]
    (∀ l, rustOpen f "A" "a" resources ≠ .ok l) ∧ cppOpen f "A" "a" resources = some [("v", none)] := by
  intro f resources
  have hsm : SmallFiles f := by
    intro n b h
    have : ∀ p ∈ [("A.archive", frame []), ("A.archive.schema", encodeUtf8 "a"), ("v", [1, 2]),
      ("v.schema", encodeUtf8 "v")], p.2.length < 2 ^ 64 := by decide +kernel
    exact this (n, b) (mem_of_lookup h)
  have hbad : ∀ p t : Bytes, t.length = 8 → f "v" ≠ some (toLE 8 p.length ++ p ++ t) := by
    intro p t ht h
    have e : f "v" = some [1, 2] := by decide +kernel
    rw [e, Option.some.injEq] at h
    have := congrArg List.length h
    simp [Py.toLE_length, ht] at this
    omega
  constructor
  · intro l h
    have : OpensTo f [.rawData "v" "v" true none] l := (((C84_rust_open f hsm "A" "a" resources).1 l).mp h).2
    cases this with
    | noRawData h' _ => exact absurd h' (by decide +kernel)
    | rawData hg _ _ =>
      obtain ⟨t, h1, h2, -⟩ := hg
      exact hbad _ _ h2 h1
  · refine ((C85_cpp_open f hsm "A" "a" resources).2 _).mpr ⟨⟨[], List.replicate 8 0, ?_, rfl, ?_, by decide⟩, .noRawData ?_ (.nil f)⟩
    · decide +kernel
    · decide +kernel
    · intro p t hg
      exact hbad _ _ hg.2.1 hg.1

/-- The conditions of C86 are met by the archive of C84. -/
example : HaveSchemas (archiveResources 2) ∧ ∃ l, rustOpen archiveFiles "A" "a" (archiveResources 2) = .ok l := by
  constructor
  · simp [archiveResources, HaveSchemas, HaveSchema]
  · exact ⟨_, archive_opens⟩

end Props
