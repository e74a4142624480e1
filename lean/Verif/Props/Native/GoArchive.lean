import Verif.Props.Native.GoReader
import Verif.Props.Native.RustArchive

/-!
# C88: opening an archive in Go
-/

namespace Props
open Py Spec Model Model.Native _root_.Native

/-- There is a file `name` with at least 16 bytes, the bytes `d`, and a schema file that is not empty, with the bytes `s`. -/
def GoFile (f : Files) (name : String) (d s : Bytes) : Prop :=
  f name = some d ∧ 16 ≤ d.length ∧ f (name ++ ".schema") = some s ∧ s ≠ []

/-- What Go makes of a resource with one file: without a file it is closed, optional or not; otherwise the file must be there as above, and
the schema must be the expected one. The size in the file is not looked at. -/
def GoData (f : Files) (name schema : String) : Option Bytes → Prop
  | none => f name = none
  | some d => GoFile f name d (encodeUtf8 schema)

/-- The same for a multivector. It is closed if one of its files is missing; the other one must be well-formed, but may have any schema. The
schema of the index may always be any. -/
def GoMultiData (f : Files) (name schema : String) : Option GoMulti → Prop
  | none => (f name = none ∧ (f (name ++ "_index") = none ∨ ∃ i s, GoFile f (name ++ "_index") i s)) ∨
      (f (name ++ "_index") = none ∧ ∃ d s, GoFile f name d s)
  | some m => GoFile f name m.data (encodeUtf8 schema) ∧ (∃ s, GoFile f (name ++ "_index") m.index s) ∧ ∀ t, m.position t = 0

/-- The resources of an archive in Go. Archives are looked for in a directory with the name of the resource in lower case; they have no
signature there, and need not exist. -/
inductive GoOpensTo : Files → List RustResource → List (String × GoOpened) → Prop where
  | nil (f : Files) : GoOpensTo f [] []
  | vector {f rs l name schema optional maxSize overlapping n o} (h : GoData f name schema o) (rest : GoOpensTo f rs l) :
    GoOpensTo f (.vector name schema optional maxSize overlapping n :: rs) ((name, .data o) :: l)
  | instance {f rs l name schema optional maxSize n o} (h : GoData f name schema o) (rest : GoOpensTo f rs l) :
    GoOpensTo f (.instance name schema optional maxSize n :: rs) ((name, .data o) :: l)
  | rawData {f rs l name schema optional maxSize o} (h : GoData f name schema o) (rest : GoOpensTo f rs l) :
    GoOpensTo f (.rawData name schema optional maxSize :: rs) ((name, .data o) :: l)
  | multivector {f rs l name schema optional maxSize w o} (h : GoMultiData f name schema o) (rest : GoOpensTo f rs l) :
    GoOpensTo f (.multivector name schema optional maxSize w :: rs) ((name, .multivector o) :: l)
  | archive {f rs l name optional maxSize archiveName archiveSchema resources l'} (inner : GoOpensTo (subdir f name.toLower) resources l')
    (rest : GoOpensTo f rs l) :
    GoOpensTo f (.archive name optional maxSize archiveName archiveSchema resources :: rs) ((name, .archive true l') :: l)

theorem goMemoryDescriptor_ok {f : Files} {name : String} {d s : Bytes} :
    goMemoryDescriptor f name = .ok (d, s) ↔ GoFile f name d s := by
  unfold goMemoryDescriptor GoFile
  cases h1 : f name with
  | none => simp
  | some d' =>
    simp only [Option.some.injEq]
    by_cases hl : d'.length < 8 + 8
    · rw [if_pos hl]; simp; rintro rfl; omega
    · rw [if_neg hl]
      cases h2 : f (name ++ ".schema") with
      | none => simp
      | some s' =>
        simp only [Option.some.injEq]
        by_cases hs : s'.length = 0
        · rw [if_pos hs]
          simp only [reduceCtorEq, false_iff, not_and, not_not]
          rintro rfl - rfl; exact List.length_eq_zero_iff.mp hs
        · rw [if_neg hs]
          simp only [Except.ok.injEq, Prod.mk.injEq]
          constructor
          · rintro ⟨rfl, rfl⟩; exact ⟨rfl, by omega, rfl, fun h => hs (by rw [h]; rfl)⟩
          · rintro ⟨rfl, -, rfl, -⟩; exact ⟨rfl, rfl⟩

theorem goMemoryDescriptor_cantAccess {f : Files} {name : String} : goMemoryDescriptor f name = .error .cantAccess ↔ f name = none := by
  unfold goMemoryDescriptor
  cases h1 : f name with
  | none => simp
  | some d =>
    simp only [reduceCtorEq, iff_false]
    split
    · simp
    · split
      · simp
      · split <;> simp

theorem goTry_some {f : Files} {name : String} {d s : Bytes} : goTry f name = .ok (some (d, s)) ↔ GoFile f name d s := by
  rw [← goMemoryDescriptor_ok]
  unfold goTry
  rcases goMemoryDescriptor f name with e | x
  · cases e <;> simp
  · simp

theorem goTry_none {f : Files} {name : String} : goTry f name = .ok none ↔ f name = none := by
  rw [← goMemoryDescriptor_cantAccess]
  unfold goTry
  rcases goMemoryDescriptor f name with e | x
  · cases e <;> simp
  · simp

theorem goTry_cantAccess {f : Files} {name : String} : goTry f name ≠ .error .cantAccess := by
  unfold goTry
  rcases goMemoryDescriptor f name with e | x
  · cases e <;> simp
  · simp

theorem goOpenData_ok {f : Files} {name schema : String} {x : GoOpened} :
    goOpenData f name schema = .ok x ↔ ∃ o, x = .data o ∧ GoData f name schema o := by
  unfold goOpenData
  constructor
  · intro h
    cases ht : goTry f name with
    | error e => rw [ht] at h; cases h
    | ok y =>
      rw [ht] at h
      rcases y with _ | ⟨d, s⟩
      · cases h; exact ⟨none, rfl, goTry_none.mp ht⟩
      · simp only at h
        by_cases hs : encodeUtf8 schema ≠ s
        · rw [if_pos hs] at h; cases h
        · rw [if_neg hs] at h
          rw [not_not] at hs
          cases h
          exact ⟨some d, rfl, by rw [GoData, hs]; exact goTry_some.mp ht⟩
  · rintro ⟨o, rfl, h⟩
    cases o with
    | none => rw [goTry_none.mpr h]
    | some d => rw [goTry_some.mpr h]; simp

theorem goOpenData_cantAccess {f : Files} {name schema : String} : goOpenData f name schema ≠ .error .cantAccess := by
  unfold goOpenData
  cases ht : goTry f name with
  | error e => intro h; simp only [Except.error.injEq] at h; subst h; exact goTry_cantAccess ht
  | ok y =>
    rcases y with _ | ⟨d, s⟩
    · simp
    · simp only; split <;> simp

theorem goOpenMulti_ok {f : Files} {name schema : String} {x : GoOpened} :
    goOpenMulti f name schema = .ok x ↔ ∃ o, x = .multivector o ∧ GoMultiData f name schema o := by
  unfold goOpenMulti
  constructor
  · intro h
    cases ht : goTry f name with
    | error e => rw [ht] at h; cases h
    | ok y =>
      rw [ht] at h
      cases hi : goTry f (name ++ "_index") with
      | error e => rw [hi] at h; cases h
      | ok z =>
        rw [hi] at h
        rcases y with _ | ⟨d, s⟩
        · refine ⟨none, ?_, .inl ⟨goTry_none.mp ht, ?_⟩⟩
          · simp only [Except.ok.injEq] at h; exact h.symm
          · rcases z with _ | ⟨i, s⟩
            · exact .inl (goTry_none.mp hi)
            · exact .inr ⟨i, s, goTry_some.mp hi⟩
        · rcases z with _ | ⟨i, s'⟩
          · refine ⟨none, ?_, .inr ⟨goTry_none.mp hi, d, s, goTry_some.mp ht⟩⟩
            simp only [Except.ok.injEq] at h; exact h.symm
          · simp only at h
            by_cases hs : encodeUtf8 schema ≠ s
            · rw [if_pos hs] at h; cases h
            · rw [if_neg hs] at h
              rw [not_not] at hs
              cases h
              exact ⟨some (goMultiNew d i), rfl, by show GoFile f name d _; rw [hs]; exact goTry_some.mp ht, ⟨s', goTry_some.mp hi⟩, fun t => rfl⟩
  · rintro ⟨o, rfl, h⟩
    cases o with
    | none =>
      rcases h with ⟨h1, h2 | ⟨i, s, h2⟩⟩ | ⟨h1, d, s, h2⟩
      · rw [goTry_none.mpr h1, goTry_none.mpr h2]
      · rw [goTry_none.mpr h1, goTry_some.mpr h2]
      · rw [goTry_some.mpr h2, goTry_none.mpr h1]
    | some m =>
      obtain ⟨h1, ⟨s, h2⟩, h3⟩ := h
      rw [goTry_some.mpr h1, goTry_some.mpr h2]
      obtain ⟨d, i, p⟩ := m
      have : p = fun _ => 0 := funext h3
      simp [goMultiNew, this]

theorem goOpenMulti_cantAccess {f : Files} {name schema : String} : goOpenMulti f name schema ≠ .error .cantAccess := by
  unfold goOpenMulti
  cases ht : goTry f name with
  | error e => intro h; simp only [Except.error.injEq] at h; subst h; exact goTry_cantAccess ht
  | ok y =>
    cases hi : goTry f (name ++ "_index") with
    | error e => intro h; simp only [Except.error.injEq] at h; subst h; exact goTry_cantAccess hi
    | ok z =>
      rcases y with _ | ⟨d, s⟩ <;> rcases z with _ | ⟨i, s'⟩ <;> simp
      split <;> simp

theorem except_map_ok {ε α β : Type} {x : Except ε α} {g : α → β} {b : β} : x.map g = .ok b ↔ ∃ a, x = .ok a ∧ b = g a := by
  cases x <;> simp [Except.map, eq_comm]

theorem except_map_error {ε α β : Type} {x : Except ε α} {g : α → β} {e : ε} : x.map g = .error e ↔ x = .error e := by
  cases x <;> simp [Except.map]

/-- A missing file is never the reason why an archive does not open. -/
theorem goOpen_cantAccess (f : Files) (rs : List RustResource) : goOpen f rs ≠ .error .cantAccess := by
  induction rs with
  | nil => simp [goOpen]
  | cons r rs ih =>
    unfold goOpen
    cases hr : goOpenResource f r with
    | error e =>
      intro h
      simp only [Except.error.injEq] at h
      subst h
      cases r <;> unfold goOpenResource at hr
      · exact goOpenData_cantAccess (except_map_error.mp hr)
      · exact goOpenData_cantAccess (except_map_error.mp hr)
      · exact goOpenData_cantAccess (except_map_error.mp hr)
      · exact goOpenMulti_cantAccess (except_map_error.mp hr)
      · split at hr
        · cases hr
        · rename_i h1 _; cases hr; exact h1 rfl
        · cases hr
    | ok x =>
      cases hl : goOpen f rs with
      | error e => intro h; simp only [Except.error.injEq] at h; subst h; exact ih hl
      | ok l => simp

theorem goOpen_iff (n : Nat) (f : Files) (rs : List RustResource) (hn : sizeOf rs < n) (l : List (String × GoOpened)) :
    goOpen f rs = .ok l ↔ GoOpensTo f rs l := by
  induction n generalizing f rs l with
  | zero => omega
  | succ n ih =>
    cases rs with
    | nil =>
      constructor
      · intro h; simp only [goOpen, Except.ok.injEq] at h; subst h; exact .nil f
      · intro h; cases h; rfl
    | cons r rs =>
      have hrs : ∀ l, goOpen f rs = .ok l ↔ GoOpensTo f rs l := ih f rs (by simp at hn ⊢; omega)
      have step : goOpen f (r :: rs) = .ok l ↔ ∃ x l', goOpenResource f r = .ok x ∧ GoOpensTo f rs l' ∧ l = x :: l' := by
        constructor
        · intro h
          unfold goOpen at h
          cases hr : goOpenResource f r with
          | error e => rw [hr] at h; cases h
          | ok x =>
            rw [hr] at h
            cases hl : goOpen f rs with
            | error e => rw [hl] at h; cases h
            | ok l' => rw [hl] at h; cases h; exact ⟨x, l', rfl, (hrs l').mp hl, rfl⟩
        · rintro ⟨x, l', h1, h2, rfl⟩
          unfold goOpen
          rw [h1, (hrs l').mpr h2]
      rw [step]
      cases r with
      | vector name schema optional maxSize overlapping k =>
        unfold goOpenResource
        constructor
        · rintro ⟨x, l', h1, h2, rfl⟩
          obtain ⟨a, ha, rfl⟩ := except_map_ok.mp h1
          obtain ⟨o, rfl, ho⟩ := goOpenData_ok.mp ha
          exact .vector ho h2
        · intro h
          cases h with
          | vector h rest => exact ⟨_, _, except_map_ok.mpr ⟨_, goOpenData_ok.mpr ⟨_, rfl, h⟩, rfl⟩, rest, rfl⟩
      | «instance» name schema optional maxSize k =>
        unfold goOpenResource
        constructor
        · rintro ⟨x, l', h1, h2, rfl⟩
          obtain ⟨a, ha, rfl⟩ := except_map_ok.mp h1
          obtain ⟨o, rfl, ho⟩ := goOpenData_ok.mp ha
          exact .instance ho h2
        · intro h
          cases h with
          | «instance» h rest => exact ⟨_, _, except_map_ok.mpr ⟨_, goOpenData_ok.mpr ⟨_, rfl, h⟩, rfl⟩, rest, rfl⟩
      | rawData name schema optional maxSize =>
        unfold goOpenResource
        constructor
        · rintro ⟨x, l', h1, h2, rfl⟩
          obtain ⟨a, ha, rfl⟩ := except_map_ok.mp h1
          obtain ⟨o, rfl, ho⟩ := goOpenData_ok.mp ha
          exact .rawData ho h2
        · intro h
          cases h with
          | rawData h rest => exact ⟨_, _, except_map_ok.mpr ⟨_, goOpenData_ok.mpr ⟨_, rfl, h⟩, rfl⟩, rest, rfl⟩
      | multivector name schema optional maxSize w =>
        unfold goOpenResource
        constructor
        · rintro ⟨x, l', h1, h2, rfl⟩
          obtain ⟨a, ha, rfl⟩ := except_map_ok.mp h1
          obtain ⟨o, rfl, ho⟩ := goOpenMulti_ok.mp ha
          exact .multivector ho h2
        · intro h
          cases h with
          | multivector h rest => exact ⟨_, _, except_map_ok.mpr ⟨_, goOpenMulti_ok.mpr ⟨_, rfl, h⟩, rfl⟩, rest, rfl⟩
      | archive name optional maxSize archiveName archiveSchema resources =>
        have hsub : ∀ l, goOpen (subdir f name.toLower) resources = .ok l ↔ GoOpensTo (subdir f name.toLower) resources l :=
          ih (subdir f name.toLower) resources (by simp at hn ⊢; omega)
        unfold goOpenResource
        constructor
        · rintro ⟨x, l', h1, h2, rfl⟩
          cases hc : goOpen (subdir f name.toLower) resources with
          | error e =>
            rw [hc] at h1
            cases e <;> simp at h1
            exact absurd hc (goOpen_cantAccess _ _)
          | ok l'' =>
            rw [hc] at h1
            cases h1
            exact .archive ((hsub l'').mp hc) h2
        · intro h
          cases h with
          | archive inner rest => exact ⟨_, _, by rw [(hsub _).mpr inner], rest, rfl⟩

/-- **C88.** Opening an archive in Go succeeds, with this result, if and only if the files of its resources are as `GoOpensTo` says. -/
theorem C88_go_open (f : Files) (resources : List RustResource) (l : List (String × GoOpened)) :
    goOpen f resources = .ok l ↔ GoOpensTo f resources l := goOpen_iff _ f resources (Nat.lt_succ_self _) l

mutual
/-- The archive object if there are no files: everything is closed, archives are open. -/
def goEmpty : List RustResource → List (String × GoOpened)
  | [] => []
  | r :: rs => goEmpty1 r :: goEmpty rs

/-- The same for one resource. -/
def goEmpty1 : RustResource → String × GoOpened
  | .vector name .. => (name, .data none)
  | .instance name .. => (name, .data none)
  | .rawData name .. => (name, .data none)
  | .multivector name .. => (name, .multivector none)
  | .archive name _ _ _ _ resources => (name, .archive true (goEmpty resources))
end

/-- **C88 (an empty directory).** Where there is no file at all, `open` succeeds for every archive, even if none of its resources is
optional; sub-archives are open. -/
theorem C88_go_empty_directory (f : Files) (hf : ∀ n, f n = none) (resources : List RustResource) :
    goOpen f resources = .ok (goEmpty resources) := by
  rw [C88_go_open]
  have key : ∀ n (f : Files) (rs : List RustResource), (∀ n, f n = none) → sizeOf rs < n → GoOpensTo f rs (goEmpty rs) := by
    intro n
    induction n with
    | zero => intro f rs _ h; omega
    | succ n ih =>
      intro f rs hf hn
      cases rs with
      | nil => unfold goEmpty; exact .nil f
      | cons r rs =>
        have hrs := ih f rs hf (by simp at hn ⊢; omega)
        unfold goEmpty
        cases r with
        | vector => unfold goEmpty1; exact .vector (o := none) (hf _) hrs
        | «instance» => unfold goEmpty1; exact .instance (o := none) (hf _) hrs
        | rawData => unfold goEmpty1; exact .rawData (o := none) (hf _) hrs
        | multivector => unfold goEmpty1; exact .multivector (o := none) (.inl ⟨hf _, .inl (hf _)⟩) hrs
        | archive name => unfold goEmpty1; exact .archive (ih _ _ (fun n => hf _) (by simp at hn ⊢; omega)) hrs
  exact key _ f resources hf (Nat.lt_succ_self _)

/-! ## An archive that opens in Rust -/

mutual
/-- The conditions under which an archive that opens in Rust also opens in Go: no schema is empty, sub-archives are not optional and have
names in lower case. -/
def GoPlain : List RustResource → Prop
  | [] => True
  | r :: rs => GoPlain1 r ∧ GoPlain rs

/-- The same for one resource. -/
def GoPlain1 : RustResource → Prop
  | .vector _ schema .. => schema ≠ ""
  | .instance _ schema .. => schema ≠ ""
  | .rawData _ schema .. => schema ≠ ""
  | .multivector _ schema .. => schema ≠ ""
  | .archive name optional _ _ _ resources => optional = false ∧ name.toLower = name ∧ GoPlain resources
end

/-- The file consists of the size of the payload `p`, `p`, and eight more bytes. -/
def Framed (d p : Bytes) : Prop := ∃ tail : Bytes, tail.length = 8 ∧ d = toLE 8 p.length ++ p ++ tail

/-- The Go object is on the same data as the Rust object. -/
inductive SameInGo : List (String × Option RustOpened) → List (String × GoOpened) → Prop where
  | nil : SameInGo [] []
  | closed {name l m} (rest : SameInGo l m) : SameInGo ((name, none) :: l) ((name, .data none) :: m)
  | closedMulti {name l m} (rest : SameInGo l m) : SameInGo ((name, none) :: l) ((name, .multivector none) :: m)
  | vector {name v d l m} (h : Framed d v.mem) (rest : SameInGo l m) :
    SameInGo ((name, some (.vector v)) :: l) ((name, .data (some d)) :: m)
  | instance {name p d l m} (h : Framed d p) (rest : SameInGo l m) :
    SameInGo ((name, some (.instance p)) :: l) ((name, .data (some d)) :: m)
  | rawData {name p d l m} (h : Framed d p) (rest : SameInGo l m) :
    SameInGo ((name, some (.rawData p)) :: l) ((name, .data (some d)) :: m)
  | multivector {name} {r : RustMulti} {g : GoMulti} {l m} (h : Framed g.data r.data) (h' : Framed g.index r.index.mem) (rest : SameInGo l m) :
    SameInGo ((name, some (.multivector r)) :: l) ((name, .multivector (some g)) :: m)
  | archive {name a b l m} (inner : SameInGo a b) (rest : SameInGo l m) :
    SameInGo ((name, some (.archive a)) :: l) ((name, .archive true b) :: m)

theorem goFile_of_good {f : Files} {name schema : String} {p : Bytes} (hs : schema ≠ "") (h : GoodResource f name schema p) :
    ∃ d, Framed d p ∧ GoFile f name d (encodeUtf8 schema) := by
  obtain ⟨tail, h1, h2, h3⟩ := h
  refine ⟨_, ⟨tail, h2, rfl⟩, h1, ?_, h3, ?_⟩
  · simp [h2, Py.toLE_length]; omega
  · intro h
    have h1 := (decodeUtf8_iff (encodeUtf8 schema) schema).mpr rfl
    have h2 := (decodeUtf8_iff [] "").mpr (by decide +kernel)
    rw [h, h2] at h1
    cases h1; exact hs rfl

/-- **C88 (from Rust).** If an archive opens in Rust, and its sub-archives are not optional and have names in lower case, it opens in Go too,
every resource is there or closed as in Rust, and the object is on the same data. -/
theorem C88_rust_then_go (f : Files) (hs : SmallFiles f) (archiveName schema : String) (resources : List RustResource)
    (l : List (String × Option RustOpened)) (h : rustOpen f archiveName schema resources = .ok l) (hp : GoPlain resources) :
    ∃ m, goOpen f resources = .ok m ∧ SameInGo l m := by
  replace h := ((C84_rust_open f hs archiveName schema resources).1 l |>.mp h).2
  have key : ∃ m, GoOpensTo f resources m ∧ SameInGo l m := by
    clear hs
    induction h with
    | nil f => exact ⟨[], .nil f, .nil⟩
    | noVector h rest ih =>
      obtain ⟨m, h1, h2⟩ := ih (by unfold GoPlain at hp; exact hp.2)
      exact ⟨_, .vector (o := none) h h1, .closed h2⟩
    | noInstance h rest ih =>
      obtain ⟨m, h1, h2⟩ := ih (by unfold GoPlain at hp; exact hp.2)
      exact ⟨_, .instance (o := none) h h1, .closed h2⟩
    | noRawData h rest ih =>
      obtain ⟨m, h1, h2⟩ := ih (by unfold GoPlain at hp; exact hp.2)
      exact ⟨_, .rawData (o := none) h h1, .closed h2⟩
    | noMultivector h h' rest ih =>
      obtain ⟨m, h1, h2⟩ := ih (by unfold GoPlain at hp; exact hp.2)
      exact ⟨_, .multivector (o := none) (.inl ⟨h, .inl h'⟩) h1, .closedMulti h2⟩
    | noArchive h rest ih =>
      unfold GoPlain GoPlain1 at hp
      exact absurd hp.1.1 (by simp)
    | vector hg hn hd ho hm rest ih =>
      unfold GoPlain GoPlain1 at hp
      obtain ⟨m, h1, h2⟩ := ih hp.2
      obtain ⟨d, e1, e2⟩ := goFile_of_good hp.1 hg
      exact ⟨_, .vector (o := some d) e2 h1, .vector e1 h2⟩
    | «instance» hg hn rest ih =>
      unfold GoPlain GoPlain1 at hp
      obtain ⟨m, h1, h2⟩ := ih hp.2
      obtain ⟨d, e1, e2⟩ := goFile_of_good hp.1 hg
      exact ⟨_, .instance (o := some d) e2 h1, .instance e1 h2⟩
    | rawData hg hm rest ih =>
      unfold GoPlain GoPlain1 at hp
      obtain ⟨m, h1, h2⟩ := ih hp.2
      obtain ⟨d, e1, e2⟩ := goFile_of_good hp.1 hg
      exact ⟨_, .rawData (o := some d) e2 h1, .rawData e1 h2⟩
    | multivector hi hg hw hd ho hm rest ih =>
      unfold GoPlain GoPlain1 at hp
      obtain ⟨m, h1, h2⟩ := ih hp.2
      obtain ⟨d, e1, e2⟩ := goFile_of_good hp.1 hg
      obtain ⟨i, e3, e4⟩ := goFile_of_good (by intro h; simpa using congrArg String.length h) hi
      exact ⟨_, .multivector (o := some (goMultiNew d i)) ⟨e2, ⟨_, e4⟩, fun _ => rfl⟩ h1, .multivector e1 e3 h2⟩
    | archive hs inner rest ih1 ih2 =>
      unfold GoPlain GoPlain1 at hp
      obtain ⟨m1, h1, h2⟩ := ih1 hp.1.2.2
      obtain ⟨m2, h3, h4⟩ := ih2 hp.2
      refine ⟨_, .archive (l' := m1) (by rw [hp.1.2.1]; exact h1) h3, .archive h2 h4⟩
  obtain ⟨m, h1, h2⟩ := key
  exact ⟨m, (C88_go_open f resources m).mpr h1, h2⟩

/-! ## Concrete cases -/

/-- The archive of C84, with a mandatory sub-archive: it opens in Rust, the conditions are met, and so it opens in Go. -/
def goResources : List RustResource :=
  [.instance "head" "h" false none 2, .rawData "text" "t" false (some 3), .vector "v" "v" true none true 2,
   .archive "sub" false none "B" "b" [.multivector "m" "m" false (some 2) 8]]

theorem goResources_rust : ∃ l, rustOpen archiveFiles "A" "a" goResources = .ok l := by
  have good : ∀ {f : Files} {name schema : String} {p : Bytes}, f name = some (frame p) → f (name ++ ".schema") = some (encodeUtf8 schema) →
      GoodResource f name schema p := fun h1 h2 => ⟨List.replicate 8 0, h1, rfl, h2⟩
  refine ⟨_, ((C84_rust_open archiveFiles archiveFiles_small "A" "a" goResources).1 _).mpr ⟨⟨[], good (by decide +kernel) (by decide +kernel)⟩,
    .instance (p := [1, 2]) (good (by decide +kernel) (by decide +kernel)) (by decide)
      (.rawData (p := [65, 66, 0]) (good (by decide +kernel) (by decide +kernel)) (by intro n h; cases h; decide)
      (.noVector (by decide +kernel) (.archive (p := []) (good (by decide +kernel) (by decide +kernel))
        (.multivector (index := [0, 2, 4]) (data := [0, 7, 0, 9]) (good (by decide +kernel) (by decide +kernel))
          (good (by decide +kernel) (by decide +kernel)) (by decide) (by decide) (by decide) (by intro n h; cases h; decide) (.nil _)) (.nil _))))⟩⟩

theorem goResources_plain : GoPlain goResources := by
  simp only [GoPlain, GoPlain1, goResources]
  decide +kernel

example : ∃ l m, rustOpen archiveFiles "A" "a" goResources = .ok l ∧ goOpen archiveFiles goResources = .ok m ∧ SameInGo l m := by
  obtain ⟨l, h⟩ := goResources_rust
  obtain ⟨m, h1, h2⟩ := C88_rust_then_go archiveFiles archiveFiles_small "A" "a" goResources l h goResources_plain
  exact ⟨l, m, h, h1, h2⟩

/-- A finding (N15): the archive resource `Sub` has its files in the directory `Sub`, Go looks for them in `sub`. It reports an open archive
with a closed resource, although the mandatory resource `r` is there. -/
theorem C88_counterexample_upper_case :
    (fun n => List.lookup n [("Sub/r", frame [1]), ("Sub/r.schema", encodeUtf8 "r")] : Files) "Sub/r" = some (frame [1]) ∧
    goOpen (fun n => List.lookup n [("Sub/r", frame [1]), ("Sub/r.schema", encodeUtf8 "r")])
      [.archive "Sub" false none "B" "b" [.rawData "r" "r" false none]] = .ok [("Sub", .archive true [("r", .data none)])] := by
  refine ⟨by decide +kernel, ?_⟩
  rw [C88_go_open]
  refine .archive (.rawData (o := none) ?_ (.nil _)) (.nil _)
  unfold GoData
  decide +kernel

/-- A finding (N16): the size in the file is not checked, neither is the schema of the index of a multivector. -/
theorem C88_counterexample_unchecked :
    ∃ m, goOpen (fun n => List.lookup n [("m", toLE 8 1000 ++ List.replicate 8 0), ("m.schema", encodeUtf8 "m"),
        ("m_index", frame [0]), ("m_index.schema", encodeUtf8 "something else")])
      [.multivector "m" "m" false none 8] = .ok [("m", .multivector (some m))] := by
  refine ⟨goMultiNew (toLE 8 1000 ++ List.replicate 8 0) (frame [0]), ?_⟩
  rw [C88_go_open]
  exact .multivector (o := some _) ⟨⟨by decide +kernel, by decide +kernel, by decide +kernel, by decide +kernel⟩,
    ⟨encodeUtf8 "something else", by decide +kernel, by decide +kernel, by decide +kernel, by decide +kernel⟩, fun _ => rfl⟩ (.nil _)

end Props
