import Verif.Props.Native.RustInterop

/-!
# C84: opening an archive in Rust

`OpensTo` is the specification: when do the files of a directory make up the resources of an archive, and what is in them. The model of
the generated `open` is `Model.Native.rustOpen`.
-/

namespace Props
open Py Spec Model Model.Native _root_.Native

/-- `size` is not above the limit, if there is one. -/
def Within (maxSize : Option Nat) (size : Nat) : Prop := ∀ limit, maxSize = some limit → size ≤ limit

/-- The files of these resources are in the directory `f`, and this is what they hold. A resource is `none` if it is optional and has
no file at all (a multivector: neither of its two data files; an archive: no signature file in its directory). Otherwise its files
are well-formed: size, payload, eight more bytes, the schema; the size of the payload is a multiple of the size of the structure; the
index of a multivector, and a vector of structures with a range, have at least one element. -/
inductive OpensTo : Files → List RustResource → List (String × Option RustOpened) → Prop where
  | nil (f : Files) : OpensTo f [] []
  | noVector {f rs l name schema maxSize overlapping n} (h : f name = none) (rest : OpensTo f rs l) :
    OpensTo f (.vector name schema true maxSize overlapping n :: rs) ((name, none) :: l)
  | noInstance {f rs l name schema maxSize n} (h : f name = none) (rest : OpensTo f rs l) :
    OpensTo f (.instance name schema true maxSize n :: rs) ((name, none) :: l)
  | noRawData {f rs l name schema maxSize} (h : f name = none) (rest : OpensTo f rs l) :
    OpensTo f (.rawData name schema true maxSize :: rs) ((name, none) :: l)
  | noMultivector {f rs l name schema maxSize w} (h : f name = none) (h' : f (name ++ "_index") = none) (rest : OpensTo f rs l) :
    OpensTo f (.multivector name schema true maxSize w :: rs) ((name, none) :: l)
  | noArchive {f rs l name maxSize archiveName archiveSchema resources} (h : f (name ++ "/" ++ (archiveName ++ ".archive")) = none)
    (rest : OpensTo f rs l) :
    OpensTo f (.archive name true maxSize archiveName archiveSchema resources :: rs) ((name, none) :: l)
  | vector {f rs l name schema optional maxSize overlapping n p} (hg : GoodResource f name schema p) (hn : 0 < n) (hd : n ∣ p.length)
    (ho : overlapping = true → n ≤ p.length) (hm : Within maxSize (if overlapping then p.length / n - 1 else p.length / n))
    (rest : OpensTo f rs l) :
    OpensTo f (.vector name schema optional maxSize overlapping n :: rs)
      ((name, some (.vector ⟨p, if overlapping then p.length / n - 1 else p.length / n⟩)) :: l)
  | instance {f rs l name schema optional maxSize n p} (hg : GoodResource f name schema p) (hn : n ≤ p.length) (rest : OpensTo f rs l) :
    OpensTo f (.instance name schema optional maxSize n :: rs) ((name, some (.instance p)) :: l)
  | rawData {f rs l name schema optional maxSize p} (hg : GoodResource f name schema p) (hm : Within maxSize p.length)
    (rest : OpensTo f rs l) : OpensTo f (.rawData name schema optional maxSize :: rs) ((name, some (.rawData p)) :: l)
  | multivector {f rs l name schema optional maxSize w index data} (hi : GoodResource f (name ++ "_index") ("index(" ++ schema ++ ")") index)
    (hg : GoodResource f name schema data) (hw : 0 < (w + 7) / 8) (hd : (w + 7) / 8 ∣ index.length) (ho : (w + 7) / 8 ≤ index.length)
    (hm : Within maxSize (index.length / ((w + 7) / 8) - 1)) (rest : OpensTo f rs l) :
    OpensTo f (.multivector name schema optional maxSize w :: rs)
      ((name, some (.multivector ⟨⟨index, index.length / ((w + 7) / 8) - 1⟩, data⟩)) :: l)
  | archive {f rs l name optional maxSize archiveName archiveSchema resources p l'}
    (hs : GoodResource (subdir f name) (archiveName ++ ".archive") archiveSchema p) (inner : OpensTo (subdir f name) resources l')
    (rest : OpensTo f rs l) :
    OpensTo f (.archive name optional maxSize archiveName archiveSchema resources :: rs) ((name, some (.archive l')) :: l)

/-- No file is larger than the address space. -/
def SmallFiles (f : Files) : Prop := ∀ n b, f n = some b → b.length < 2 ^ 64

theorem smallFiles_subdir {f : Files} (h : SmallFiles f) (d : String) : SmallFiles (subdir f d) := fun n b hb => h _ b hb

theorem andThen_ok {α β : Type} {x : RResult α} {g : α → RResult β} {b : β} : x.andThen g = .ok b ↔ ∃ a, x = .ok a ∧ g a = .ok b := by
  cases x <;> simp [RResult.andThen]

theorem andThen_error {α β : Type} {x : RResult α} {g : α → RResult β} {e : RErr} :
    x.andThen g = .error e ↔ x = .error e ∨ ∃ a, x = .ok a ∧ g a = .error e := by
  cases x <;> simp [RResult.andThen]

theorem andThen_panic {α β : Type} {x : RResult α} {g : α → RResult β} : x.andThen g = .panic ↔ x = .panic ∨ ∃ a, x = .ok a ∧ g a = .panic := by
  cases x <;> simp [RResult.andThen]

theorem rustCheck_ok {α : Type} {optional : Bool} {size : α → Nat} {maxSize : Option Nat} {x : RResult α} {y : Option α} :
    rustCheck optional size maxSize x = .ok y ↔
      (y = none ∧ optional = true ∧ x = .error .missing) ∨ ∃ a, y = some a ∧ x = .ok a ∧ Within maxSize (size a) := by
  unfold rustCheck Within
  rcases x with a | e | _
  · cases maxSize with
    | none => simp [eq_comm]
    | some limit =>
      simp only [reduceCtorEq, and_false, false_or, RResult.ok.injEq, Option.some.injEq, forall_eq']
      constructor
      · split
        · rintro ⟨⟩
        · intro h; cases h; exact ⟨a, rfl, rfl, by omega⟩
      · rintro ⟨b, rfl, rfl, h⟩; rw [if_neg (by omega)]
  · cases e <;> cases optional <;> simp [eq_comm]
  · simp

theorem rustCheck_missing {α : Type} (optional : Bool) (size : α → Nat) (maxSize : Option Nat) (x : RResult α) :
    rustCheck optional size maxSize x ≠ .error .missing := by
  unfold rustCheck
  rcases x with a | e | _
  · cases maxSize with
    | none => simp
    | some limit => simp only; split <;> simp
  · cases e <;> cases optional <;> simp
  · simp

theorem rustCheck_panic {α : Type} {optional : Bool} {size : α → Nat} {maxSize : Option Nat} {x : RResult α}
    (h : rustCheck optional size maxSize x = .panic) : x = .panic := by
  unfold rustCheck at h
  rcases x with a | e | _
  · cases maxSize with
    | none => simp at h
    | some limit => simp only at h; split at h <;> simp at h
  · cases e <;> cases optional <;> simp at h
  · rfl

theorem rustFromBytes_ok {overlapping : Bool} {n : Nat} {data : Bytes} {v : RustSlice} :
    rustFromBytes overlapping n data = .ok v ↔ 0 < n ∧ n ∣ data.length ∧ (overlapping = true → n ≤ data.length) ∧
      v = ⟨data, if overlapping then data.length / n - 1 else data.length / n⟩ := by
  unfold rustFromBytes
  by_cases hn : n = 0
  · simp [hn]
  rw [if_neg hn]
  by_cases hd : data.length % n ≠ 0
  · rw [if_pos hd]
    simp only [reduceCtorEq, false_iff, not_and]
    intro _ h; exact absurd (Nat.mod_eq_zero_of_dvd h) hd
  rw [if_neg hd]
  rw [not_not] at hd
  have hdv := Nat.dvd_of_mod_eq_zero hd
  cases overlapping with
  | false => simp [hdv, Nat.pos_of_ne_zero hn, eq_comm]
  | true =>
    rw [if_pos rfl]
    by_cases hl : data.length < n
    · rw [if_pos hl]; simp; omega
    · rw [if_neg hl]
      have e : (data.length - n) / n = data.length / n - 1 := by
        have := Nat.div_eq_sub_div (Nat.pos_of_ne_zero hn) (by omega : n ≤ data.length)
        rw [this, Nat.add_sub_cancel]
      simp [hdv, Nat.pos_of_ne_zero hn, eq_comm, e]; omega

theorem rustFromBytes_missing (overlapping : Bool) (n : Nat) (data : Bytes) : rustFromBytes overlapping n data ≠ .error .missing := by
  unfold rustFromBytes
  split
  · simp
  · split
    · simp
    · split
      · split <;> simp
      · simp

theorem rustOpenMulti_ok {f : Files} {name schema : String} {w : Nat} {m : RustMulti} :
    rustOpenMulti f name schema w = .ok m ↔ ∃ index data, rustReadAndCheck f (name ++ "_index") ("index(" ++ schema ++ ")") = .ok index ∧
      rustReadAndCheck f name schema = .ok data ∧ ∃ v, rustFromBytes true ((w + 7) / 8) index = .ok v ∧ m = ⟨v, data⟩ := by
  unfold rustOpenMulti
  rcases rustReadAndCheck f (name ++ "_index") ("index(" ++ schema ++ ")") with i | e | _ <;>
    rcases rustReadAndCheck f name schema with d | e' | _
  · simp only [andThen_ok, RResult.ok.injEq, exists_and_left, exists_eq_left']
    exact ⟨fun ⟨v, h, e⟩ => ⟨v, h, e.symm⟩, fun ⟨v, h, e⟩ => ⟨v, h, e.symm⟩⟩
  · cases e' <;> simp
  · simp
  · cases e <;> simp
  · cases e <;> cases e' <;> simp
  · cases e <;> simp
  all_goals simp

theorem rustOpenMulti_missing {f : Files} {name schema : String} {w : Nat} :
    rustOpenMulti f name schema w = .error .missing ↔
      rustReadAndCheck f (name ++ "_index") ("index(" ++ schema ++ ")") = .error .missing ∧
      rustReadAndCheck f name schema = .error .missing := by
  unfold rustOpenMulti
  rcases rustReadAndCheck f (name ++ "_index") ("index(" ++ schema ++ ")") with i | e | _ <;>
    rcases rustReadAndCheck f name schema with d | e' | _
  · simp [andThen_error, rustFromBytes_missing]
  · cases e' <;> simp
  · simp
  · cases e <;> simp
  · cases e <;> cases e' <;> simp
  · cases e <;> simp
  all_goals simp

theorem read_ok_iff {f : Files} (hs : SmallFiles f) {name schema : String} {p : Bytes} :
    rustReadAndCheck f name schema = .ok p ↔ GoodResource f name schema p := (C82_rust_accepts_iff f name schema (hs name)).1 p

theorem read_missing_iff {f : Files} (hs : SmallFiles f) {name schema : String} :
    rustReadAndCheck f name schema = .error .missing ↔ f name = none := (C82_rust_accepts_iff f name schema (hs name)).2.1

theorem read_no_panic {f : Files} (hs : SmallFiles f) {name schema : String} : rustReadAndCheck f name schema ≠ .panic :=
  (C82_rust_accepts_iff f name schema (hs name)).2.2

/-- Resources are never reported as missing. -/
theorem rustOpenAll_missing (f : Files) (rs : List RustResource) : rustOpenAll f rs ≠ .error .missing := by
  induction rs with
  | nil => simp [rustOpenAll]
  | cons r rs ih =>
    rw [rustOpenAll]
    intro h
    rcases andThen_error.mp h with h | ⟨x, -, h⟩
    · cases r <;> simp only [rustOpenResource] at h <;> rcases andThen_error.mp h with h | ⟨y, -, h⟩ <;>
        first | exact rustCheck_missing _ _ _ _ h | simp at h
    · rcases andThen_error.mp h with h | ⟨y, -, h⟩
      · exact ih h
      · simp at h

theorem rustOpen_missing {f : Files} (hs : SmallFiles f) {archiveName schema : String} {rs : List RustResource} :
    rustOpen f archiveName schema rs = .error .missing ↔ f (archiveName ++ ".archive") = none := by
  rw [rustOpen, andThen_error, read_missing_iff hs]
  constructor
  · rintro (h | ⟨p, -, h⟩)
    · exact h
    · exact absurd h (rustOpenAll_missing f rs)
  · exact Or.inl

/-- The number of constructors, for induction through sub-archives. -/
theorem rustOpenAll_iff (n : Nat) (f : Files) (hs : SmallFiles f) (rs : List RustResource) (hn : sizeOf rs < n)
    (l : List (String × Option RustOpened)) : rustOpenAll f rs = .ok l ↔ OpensTo f rs l := by
  induction n generalizing f rs l with
  | zero => omega
  | succ n ih =>
    cases rs with
    | nil =>
      rw [rustOpenAll, RResult.ok.injEq]
      constructor
      · rintro rfl; exact .nil f
      · intro h; cases h; rfl
    | cons r rs =>
      simp only [List.cons.sizeOf_spec] at hn
      have ihs := fun l => ih f hs rs (by omega) l
      rw [rustOpenAll, andThen_ok]
      simp only [andThen_ok, RResult.ok.injEq, ihs]
      cases r with
      | vector name schema optional maxSize overlapping k =>
        simp only [rustOpenResource, andThen_ok, rustCheck_ok, RResult.ok.injEq, read_ok_iff hs, rustFromBytes_ok]
        constructor
        · rintro ⟨x, ⟨y, (⟨rfl, rfl, h⟩ | ⟨a, rfl, ⟨p, hg, h0, hd, ho, rfl⟩, hm⟩), rfl⟩, l, hl, rfl⟩
          · rcases andThen_error.mp h with h | ⟨p, -, h⟩
            · exact .noVector ((read_missing_iff hs).mp h) hl
            · exact absurd h (rustFromBytes_missing _ _ _)
          · exact .vector hg h0 hd ho hm hl
        · intro h
          cases h with
          | noVector h rest => exact ⟨_, ⟨none, Or.inl ⟨rfl, rfl, andThen_error.mpr (Or.inl ((read_missing_iff hs).mpr h))⟩, rfl⟩, _, rest, rfl⟩
          | vector hg h0 hd ho hm rest => exact ⟨_, ⟨_, Or.inr ⟨_, rfl, ⟨_, hg, h0, hd, ho, rfl⟩, hm⟩, rfl⟩, _, rest, rfl⟩
      | «instance» name schema optional maxSize k =>
        simp only [rustOpenResource, andThen_ok, rustCheck_ok, RResult.ok.injEq, read_ok_iff hs]
        constructor
        · rintro ⟨x, ⟨y, (⟨rfl, rfl, h⟩ | ⟨a, rfl, ⟨p, hg, h⟩, hm⟩), rfl⟩, l, hl, rfl⟩
          · rcases andThen_error.mp h with h | ⟨p, -, h⟩
            · exact .noInstance ((read_missing_iff hs).mp h) hl
            · unfold rustFromBytesSlice at h; split at h <;> simp at h
          · unfold rustFromBytesSlice at h
            split at h
            · simp at h
            · cases h; exact .instance hg (by omega) hl
        · intro h
          cases h with
          | noInstance h rest => exact ⟨_, ⟨none, Or.inl ⟨rfl, rfl, andThen_error.mpr (Or.inl ((read_missing_iff hs).mpr h))⟩, rfl⟩, _, rest, rfl⟩
          | «instance» hg hk rest =>
            exact ⟨_, ⟨_, Or.inr ⟨_, rfl, ⟨_, hg, by unfold rustFromBytesSlice; rw [if_neg (by omega)]⟩, fun _ _ => Nat.zero_le _⟩, rfl⟩, _, rest, rfl⟩
      | rawData name schema optional maxSize =>
        simp only [rustOpenResource, andThen_ok, rustCheck_ok, RResult.ok.injEq, read_ok_iff hs, read_missing_iff hs]
        constructor
        · rintro ⟨x, ⟨y, (⟨rfl, rfl, h⟩ | ⟨a, rfl, hg, hm⟩), rfl⟩, l, hl, rfl⟩
          · exact .noRawData h hl
          · exact .rawData hg hm hl
        · intro h
          cases h with
          | noRawData h rest => exact ⟨_, ⟨none, Or.inl ⟨rfl, rfl, h⟩, rfl⟩, _, rest, rfl⟩
          | rawData hg hm rest => exact ⟨_, ⟨_, Or.inr ⟨_, rfl, hg, hm⟩, rfl⟩, _, rest, rfl⟩
      | multivector name schema optional maxSize w =>
        simp only [rustOpenResource, andThen_ok, rustCheck_ok, RResult.ok.injEq, rustOpenMulti_ok, rustOpenMulti_missing, read_ok_iff hs,
          read_missing_iff hs, rustFromBytes_ok]
        constructor
        · rintro ⟨x, ⟨y, (⟨rfl, rfl, h', h⟩ | ⟨a, rfl, ⟨index, data, hi, hg, v, ⟨h0, hd, ho, rfl⟩, rfl⟩, hm⟩), rfl⟩, l, hl, rfl⟩
          · exact .noMultivector h h' hl
          · exact .multivector hi hg h0 hd (ho trivial) hm hl
        · intro h
          cases h with
          | noMultivector h h' rest => exact ⟨_, ⟨none, Or.inl ⟨rfl, rfl, h', h⟩, rfl⟩, _, rest, rfl⟩
          | multivector hi hg h0 hd ho hm rest =>
            exact ⟨_, ⟨_, Or.inr ⟨_, rfl, ⟨_, _, hi, hg, _, ⟨h0, hd, fun _ => ho, rfl⟩, rfl⟩, hm⟩, rfl⟩, _, rest, rfl⟩
      | archive name optional maxSize archiveName archiveSchema resources =>
        have hs' := smallFiles_subdir hs name
        simp only [RustResource.archive.sizeOf_spec] at hn
        have ihr := fun l => ih (subdir f name) hs' resources (by omega) l
        simp only [rustOpenResource, andThen_ok, rustCheck_ok, RResult.ok.injEq, rustOpen_missing hs']
        simp only [rustOpen, andThen_ok, read_ok_iff hs', ihr]
        constructor
        · rintro ⟨x, ⟨y, (⟨rfl, rfl, h⟩ | ⟨a, rfl, ⟨p, hg, h⟩, hm⟩), rfl⟩, l, hl, rfl⟩
          · exact .noArchive h hl
          · exact .archive hg h hl
        · intro h
          cases h with
          | noArchive h rest => exact ⟨_, ⟨none, Or.inl ⟨rfl, rfl, h⟩, rfl⟩, _, rest, rfl⟩
          | archive hg h rest => exact ⟨_, ⟨_, Or.inr ⟨_, rfl, ⟨_, hg, h⟩, fun _ _ => Nat.zero_le _⟩, rfl⟩, _, rest, rfl⟩

/-- **C84.** Opening an archive in Rust succeeds, with this result, if and only if the signature and the files of the resources are as
specified; it reports "missing" if and only if there is no signature file. -/
theorem C84_rust_open (f : Files) (hs : SmallFiles f) (archiveName schema : String) (resources : List RustResource) :
    (∀ l, rustOpen f archiveName schema resources = .ok l ↔
      (∃ p, GoodResource f (archiveName ++ ".archive") schema p) ∧ OpensTo f resources l) ∧
    (rustOpen f archiveName schema resources = .error .missing ↔ f (archiveName ++ ".archive") = none) := by
  refine ⟨fun l => ?_, rustOpen_missing hs⟩
  rw [rustOpen, andThen_ok]
  simp only [read_ok_iff hs, rustOpenAll_iff _ f hs resources (Nat.lt_succ_self _)]
  exact ⟨fun ⟨p, hg, h⟩ => ⟨⟨p, hg⟩, h⟩, fun ⟨⟨p, hg⟩, h⟩ => ⟨p, hg, h⟩⟩

/-- In this directory opening these resources panics: all resources before it are as specified, and then there is an instance with too
few bytes (or a structure without any bytes), or a sub-archive with a good signature in which this happens. -/
inductive Panics : Files → List RustResource → Prop where
  | here {f pre l name schema optional maxSize n post p} (h : OpensTo f pre l) (hg : GoodResource f name schema p) (hn : p.length < n) :
    Panics f (pre ++ .instance name schema optional maxSize n :: post)
  | noBytes {f pre l name schema optional maxSize overlapping post p} (h : OpensTo f pre l) (hg : GoodResource f name schema p) :
    Panics f (pre ++ .vector name schema optional maxSize overlapping 0 :: post)
  | noWidth {f pre l name schema optional maxSize w post index data} (h : OpensTo f pre l)
    (hi : GoodResource f (name ++ "_index") ("index(" ++ schema ++ ")") index) (hg : GoodResource f name schema data) (hw : (w + 7) / 8 = 0) :
    Panics f (pre ++ .multivector name schema optional maxSize w :: post)
  | inner {f pre l name optional maxSize archiveName archiveSchema resources post p} (h : OpensTo f pre l)
    (hs : GoodResource (subdir f name) (archiveName ++ ".archive") archiveSchema p) (hi : Panics (subdir f name) resources) :
    Panics f (pre ++ .archive name optional maxSize archiveName archiveSchema resources :: post)

theorem panics_cons {f : Files} {r : RustResource} {rs : List RustResource} {x : String × Option RustOpened}
    (h1 : OpensTo f [r] [x]) (h : Panics f rs) : Panics f (r :: rs) := by
  have happ : ∀ {pre l}, OpensTo f pre l → OpensTo f (r :: pre) (x :: l) := by
    intro pre l hl
    cases h1 with
    | noVector h _ => exact .noVector h hl
    | noInstance h _ => exact .noInstance h hl
    | noRawData h _ => exact .noRawData h hl
    | noMultivector h h' _ => exact .noMultivector h h' hl
    | noArchive h _ => exact .noArchive h hl
    | vector hg h0 hd ho hm _ => exact .vector hg h0 hd ho hm hl
    | «instance» hg hk _ => exact .instance hg hk hl
    | rawData hg hm _ => exact .rawData hg hm hl
    | multivector hi hg h0 hd ho hm _ => exact .multivector hi hg h0 hd ho hm hl
    | archive hg h _ => exact .archive hg h hl
  cases h with
  | here h hg hn => exact .here (pre := r :: _) (happ h) hg hn
  | noBytes h hg => exact .noBytes (pre := r :: _) (happ h) hg
  | noWidth h hi hg hw => exact .noWidth (pre := r :: _) (happ h) hi hg hw
  | inner h hs hi => exact .inner (pre := r :: _) (happ h) hs hi

theorem rustOpenAll_append_panic {f : Files} {pre post : List RustResource} {l : List (String × Option RustOpened)}
    (h : rustOpenAll f pre = .ok l) (h' : rustOpenAll f post = .panic) : rustOpenAll f (pre ++ post) = .panic := by
  induction pre generalizing l with
  | nil => exact h'
  | cons r pre ih =>
    rw [rustOpenAll, andThen_ok] at h
    obtain ⟨x, hx, h⟩ := h
    obtain ⟨l', hl', -⟩ := andThen_ok.mp h
    rw [List.cons_append, rustOpenAll, hx, RResult.andThen, ih hl', RResult.andThen]

theorem rustFromBytes_panic {overlapping : Bool} {n : Nat} {data : Bytes} : rustFromBytes overlapping n data = .panic ↔ n = 0 := by
  unfold rustFromBytes
  split
  · simp [*]
  · split
    · simp [*]
    · split
      · split <;> simp [*]
      · simp [*]

theorem rustOpenMulti_panic {f : Files} (hs : SmallFiles f) {name schema : String} {w : Nat} :
    rustOpenMulti f name schema w = .panic ↔ ∃ index data, rustReadAndCheck f (name ++ "_index") ("index(" ++ schema ++ ")") = .ok index ∧
      rustReadAndCheck f name schema = .ok data ∧ (w + 7) / 8 = 0 := by
  have n1 := read_no_panic hs (name := name ++ "_index") (schema := "index(" ++ schema ++ ")")
  have n2 := read_no_panic hs (name := name) (schema := schema)
  unfold rustOpenMulti
  revert n1 n2
  rcases rustReadAndCheck f (name ++ "_index") ("index(" ++ schema ++ ")") with i | e | _ <;>
    rcases rustReadAndCheck f name schema with d | e' | _ <;> intro n1 n2
  · simp only [andThen_panic, rustFromBytes_panic, reduceCtorEq, and_false, exists_false, or_false, RResult.ok.injEq]
    exact ⟨fun h => ⟨i, d, rfl, rfl, h⟩, fun ⟨_, _, _, _, h⟩ => h⟩
  · cases e' <;> simp
  · exact absurd rfl n2
  · cases e <;> simp
  · cases e <;> cases e' <;> simp
  · exact absurd rfl n2
  all_goals exact absurd rfl n1

theorem rustCheck_panic_iff {α : Type} {optional : Bool} {size : α → Nat} {maxSize : Option Nat} {x : RResult α} :
    rustCheck optional size maxSize x = .panic ↔ x = .panic := ⟨rustCheck_panic, by rintro rfl; rfl⟩

theorem rustOpenAll_panic (n : Nat) (f : Files) (hs : SmallFiles f) (rs : List RustResource) (hn : sizeOf rs < n) :
    rustOpenAll f rs = .panic → Panics f rs := by
  induction n generalizing f rs with
  | zero => omega
  | succ n ih =>
    cases rs with
    | nil => simp [rustOpenAll]
    | cons r rs =>
      simp only [List.cons.sizeOf_spec] at hn
      rw [rustOpenAll, andThen_panic]
      rintro (h | ⟨x, hx, h⟩)
      · cases r with
        | vector name schema optional maxSize overlapping k =>
          simp only [rustOpenResource, andThen_panic, rustCheck_panic_iff, rustFromBytes_panic, reduceCtorEq, and_false, exists_false,
            or_false, read_ok_iff hs] at h
          rcases h with h | ⟨p, hg, rfl⟩
          · exact absurd h (read_no_panic hs)
          · exact .noBytes (pre := []) (.nil f) hg
        | «instance» name schema optional maxSize k =>
          simp only [rustOpenResource, andThen_panic, rustCheck_panic_iff, reduceCtorEq, and_false, exists_false,
            or_false, read_ok_iff hs] at h
          rcases h with h | ⟨p, hg, h⟩
          · exact absurd h (read_no_panic hs)
          · unfold rustFromBytesSlice at h
            split at h
            · exact .here (pre := []) (.nil f) hg ‹_›
            · simp at h
        | rawData name schema optional maxSize =>
          simp only [rustOpenResource, andThen_panic, rustCheck_panic_iff, reduceCtorEq, and_false, exists_false, or_false] at h
          exact absurd h (read_no_panic hs)
        | multivector name schema optional maxSize w =>
          simp only [rustOpenResource, andThen_panic, rustCheck_panic_iff, reduceCtorEq, and_false, exists_false, or_false,
            rustOpenMulti_panic hs, read_ok_iff hs] at h
          obtain ⟨index, data, hi, hg, hw⟩ := h
          exact .noWidth (pre := []) (.nil f) hi hg hw
        | archive name optional maxSize archiveName archiveSchema resources =>
          have hs' := smallFiles_subdir hs name
          simp only [RustResource.archive.sizeOf_spec] at hn
          simp only [rustOpenResource, andThen_panic, rustCheck_panic_iff, reduceCtorEq, and_false, exists_false, or_false,
            rustOpen, read_ok_iff hs'] at h
          rcases h with h | ⟨p, hg, h⟩
          · exact absurd h (read_no_panic hs')
          · exact .inner (pre := []) (.nil f) hg (ih _ hs' resources (by omega) h)
      · simp only [andThen_panic, reduceCtorEq, and_false, exists_false, or_false] at h
        refine panics_cons (x := x) ?_ (ih f hs rs (by omega) h)
        rw [← rustOpenAll_iff _ f hs [r] (Nat.lt_succ_self _), rustOpenAll, hx, RResult.andThen, rustOpenAll, RResult.andThen]

theorem panics_rustOpenAll {f : Files} {rs : List RustResource} (h : Panics f rs) (hs : SmallFiles f) : rustOpenAll f rs = .panic := by
  induction h with
  | here h hg hn =>
    refine rustOpenAll_append_panic ((rustOpenAll_iff _ _ hs _ (Nat.lt_succ_self _) _).mpr h) ?_
    rw [rustOpenAll, rustOpenResource, (read_ok_iff hs).mpr hg, RResult.andThen, rustFromBytesSlice, if_pos hn]; rfl
  | noBytes h hg =>
    refine rustOpenAll_append_panic ((rustOpenAll_iff _ _ hs _ (Nat.lt_succ_self _) _).mpr h) ?_
    rw [rustOpenAll, rustOpenResource, (read_ok_iff hs).mpr hg]; rfl
  | noWidth h hi hg hw =>
    refine rustOpenAll_append_panic ((rustOpenAll_iff _ _ hs _ (Nat.lt_succ_self _) _).mpr h) ?_
    rw [rustOpenAll, rustOpenResource, (rustOpenMulti_panic hs).mpr ⟨_, _, (read_ok_iff hs).mpr hi, (read_ok_iff hs).mpr hg, hw⟩]; rfl
  | inner h hg hi ih =>
    refine rustOpenAll_append_panic ((rustOpenAll_iff _ _ hs _ (Nat.lt_succ_self _) _).mpr h) ?_
    have hs' := smallFiles_subdir hs
    rw [rustOpenAll, rustOpenResource, rustOpen, (read_ok_iff (hs' _)).mpr hg, RResult.andThen, ih (hs' _)]; rfl

/-- **C84 (panics).** Opening an archive panics if and only if the signature is good and the first thing that is wrong is an instance
with too few bytes; every other wrong file is reported as an error. -/
theorem C84_rust_open_panics (f : Files) (hs : SmallFiles f) (archiveName schema : String) (resources : List RustResource) :
    rustOpen f archiveName schema resources = .panic ↔
      (∃ p, GoodResource f (archiveName ++ ".archive") schema p) ∧ Panics f resources := by
  rw [rustOpen, andThen_panic]
  simp only [read_ok_iff hs]
  constructor
  · rintro (h | ⟨p, hg, h⟩)
    · exact absurd h (read_no_panic hs)
    · exact ⟨⟨p, hg⟩, rustOpenAll_panic _ f hs _ (Nat.lt_succ_self _) h⟩
  · rintro ⟨⟨p, hg⟩, h⟩
    exact Or.inr ⟨p, hg, panics_rustOpenAll h hs⟩

/-! ## Consequences and examples -/

/-- **C84, a corollary.** If opening succeeds, an optional vector that is shown as absent has no data file: broken files are never taken for
absent ones. -/
theorem C84_absent_means_no_file (f : Files) (hs : SmallFiles f) (archiveName schema : String) (pre post : List RustResource)
    (name rschema : String) (optional : Bool) (maxSize : Option Nat) (overlapping : Bool) (n : Nat) (l l' : List (String × Option RustOpened))
    (hl : l.length = pre.length)
    (h : rustOpen f archiveName schema (pre ++ .vector name rschema optional maxSize overlapping n :: post) = .ok (l ++ (name, none) :: l')) :
    optional = true ∧ f name = none := by
  have := (((C84_rust_open f hs archiveName schema _).1 _).mp h).2
  clear h
  induction pre generalizing l with
  | nil =>
    obtain rfl : l = [] := List.length_eq_zero_iff.mp hl
    cases this with
    | noVector h _ => exact ⟨rfl, h⟩
  | cons r pre ih =>
    cases l with
    | nil => simp at hl
    | cons x l =>
      apply ih l (by simpa using hl)
      cases this <;> assumption

/-- A directory with an archive: an instance of two bytes, raw data, an optional vector that is absent, and a sub-archive with a
multivector. -/
def archiveFiles : Files := fun n => List.lookup n
  [("A.archive", frame []), ("A.archive.schema", encodeUtf8 "a"), ("head", frame [1, 2]), ("head.schema", encodeUtf8 "h"),
   ("text", frame [65, 66, 0]), ("text.schema", encodeUtf8 "t"), ("sub/B.archive", frame []), ("sub/B.archive.schema", encodeUtf8 "b"),
   ("sub/m", frame [0, 7, 0, 9]), ("sub/m.schema", encodeUtf8 "m"), ("sub/m_index", frame [0, 2, 4]),
   ("sub/m_index.schema", encodeUtf8 "index(m)")]

/-- its resources; `n` is the size of the structure of the instance -/
def archiveResources (n : Nat) : List RustResource :=
  [.instance "head" "h" false none n, .rawData "text" "t" false (some 3), .vector "v" "v" true none true 2,
   .archive "sub" true none "B" "b" [.multivector "m" "m" false (some 2) 8]]

theorem archiveFiles_small : SmallFiles archiveFiles := by
  intro n b h
  have : ∀ p ∈ [("A.archive", frame []), ("A.archive.schema", encodeUtf8 "a"), ("head", frame [1, 2]), ("head.schema", encodeUtf8 "h"),
      ("text", frame [65, 66, 0]), ("text.schema", encodeUtf8 "t"), ("sub/B.archive", frame []), ("sub/B.archive.schema", encodeUtf8 "b"),
      ("sub/m", frame [0, 7, 0, 9]), ("sub/m.schema", encodeUtf8 "m"), ("sub/m_index", frame [0, 2, 4]),
      ("sub/m_index.schema", encodeUtf8 "index(m)")], p.2.length < 2 ^ 64 := by decide +kernel
  exact this (n, b) (mem_of_lookup h)

theorem archive_opens : rustOpen archiveFiles "A" "a" (archiveResources 2) = .ok
    [("head", some (.instance [1, 2])), ("text", some (.rawData [65, 66, 0])), ("v", none),
     ("sub", some (.archive [("m", some (.multivector ⟨⟨[0, 2, 4], 2⟩, [0, 7, 0, 9]⟩))]))] := by
  have h1 : rustReadAndCheck archiveFiles "A.archive" "a" = .ok [] := (read_ok_iff archiveFiles_small).mpr
    ⟨List.replicate 8 0, by decide +kernel, rfl, by decide +kernel⟩
  have h2 : rustReadAndCheck archiveFiles "head" "h" = .ok [1, 2] := (read_ok_iff archiveFiles_small).mpr
    ⟨List.replicate 8 0, by decide +kernel, rfl, by decide +kernel⟩
  have h3 : rustReadAndCheck archiveFiles "text" "t" = .ok [65, 66, 0] := (read_ok_iff archiveFiles_small).mpr
    ⟨List.replicate 8 0, by decide +kernel, rfl, by decide +kernel⟩
  have h4 : rustReadAndCheck archiveFiles "v" "v" = .error .missing := (read_missing_iff archiveFiles_small).mpr (by decide +kernel)
  have h5 : rustReadAndCheck (subdir archiveFiles "sub") "B.archive" "b" = .ok [] :=
    (read_ok_iff (smallFiles_subdir archiveFiles_small _)).mpr ⟨List.replicate 8 0, by decide +kernel, rfl, by decide +kernel⟩
  have h6 : rustReadAndCheck (subdir archiveFiles "sub") "m_index" "index(m)" = .ok [0, 2, 4] :=
    (read_ok_iff (smallFiles_subdir archiveFiles_small _)).mpr ⟨List.replicate 8 0, by decide +kernel, rfl, by decide +kernel⟩
  have h7 : rustReadAndCheck (subdir archiveFiles "sub") "m" "m" = .ok [0, 7, 0, 9] :=
    (read_ok_iff (smallFiles_subdir archiveFiles_small _)).mpr ⟨List.replicate 8 0, by decide +kernel, rfl, by decide +kernel⟩
  have e1 : "A" ++ ".archive" = "A.archive" := by decide +kernel
  have e2 : "B" ++ ".archive" = "B.archive" := by decide +kernel
  have e3 : "m" ++ "_index" = "m_index" := by decide +kernel
  have e4 : "index(" ++ "m" ++ ")" = "index(m)" := by decide +kernel
  simp only [rustOpen, rustOpenAll, rustOpenResource, archiveResources, rustOpenMulti, e1, e2, e3, e4, h1, h2, h3, h4, h5, h6, h7]
  rfl

/-- The conditions of C84 are met: this directory is an archive, with this contents. -/
example : OpensTo archiveFiles (archiveResources 2)
    [("head", some (.instance [1, 2])), ("text", some (.rawData [65, 66, 0])), ("v", none),
     ("sub", some (.archive [("m", some (.multivector ⟨⟨[0, 2, 4], 2⟩, [0, 7, 0, 9]⟩))]))] :=
  (((C84_rust_open archiveFiles archiveFiles_small "A" "a" (archiveResources 2)).1 _).mp archive_opens).2

/-- A finding (N11): an instance file that is too short makes `open` panic, although `from_bytes_slice` is meant to report an error. -/
theorem C84_counterexample_panic : rustOpen archiveFiles "A" "a" (archiveResources 3) = .panic :=
  (C84_rust_open_panics archiveFiles archiveFiles_small "A" "a" (archiveResources 3)).mpr
    ⟨⟨[], List.replicate 8 0, by decide +kernel, rfl, by decide +kernel⟩,
     .here (pre := []) (.nil _) (p := [1, 2]) ⟨List.replicate 8 0, by decide +kernel, rfl, by decide +kernel⟩ (by decide)⟩

end Props
