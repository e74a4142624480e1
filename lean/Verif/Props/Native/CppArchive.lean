import Verif.Model.Native.CppArchive
import Verif.Props.Native.RustArchive

/-!
# C85: opening an archive in C++, and the same archive in C++ and Rust
-/

namespace Props
open Py Spec Model Model.Native _root_.Native

/-- The files of a resource with the payload `p` and the bytes `tail` behind it are well-formed. C++ takes an empty schema file for a
missing one. -/
def GoodCpp (f : Files) (name schema : String) (p tail : Bytes) : Prop :=
  f name = some (toLE 8 p.length ++ p ++ tail) ∧ tail.length = 8 ∧ f (name ++ ".schema") = some (encodeUtf8 schema) ∧ schema ≠ ""

/-- The number of elements of a vector with a payload of `bytes` bytes, in structures of `n` bytes; if the structures have a range, the last
one only ends the range of the one before. -/
def elements (overlapping : Bool) (n bytes : Nat) : Nat := if overlapping then bytes / n - 1 else bytes / n

mutual
/-- Every resource that must be there is there, and no resource is too large. -/
def CppFine (f : Files) : List RustResource → Prop
  | [] => True
  | r :: rs => CppFine1 f r ∧ CppFine f rs

/-- The same for one resource. -/
def CppFine1 (f : Files) : RustResource → Prop
  | .vector name schema optional maxSize overlapping n =>
    (optional = false → ∃ p t, GoodCpp f name schema p t) ∧
    ∀ p t, GoodCpp f name schema p t → Within maxSize (elements overlapping n p.length)
  | .instance name schema optional _ _ => optional = false → ∃ p t, GoodCpp f name schema p t
  | .rawData name schema optional maxSize =>
    (optional = false → ∃ p t, GoodCpp f name schema p t) ∧ ∀ p t, GoodCpp f name schema p t → Within maxSize p.length
  | .multivector name schema optional maxSize w =>
    (optional = false → (∃ p t, GoodCpp f name schema p t) ∧ ∃ p t, GoodCpp f (name ++ "_index") ("index(" ++ schema ++ ")") p t) ∧
    ((∃ p t, GoodCpp f name schema p t) → ∀ p t, GoodCpp f (name ++ "_index") ("index(" ++ schema ++ ")") p t →
      Within maxSize (elements true ((w + 7) / 8) p.length))
  | .archive name optional _ archiveName archiveSchema resources =>
    optional = false →
      (∃ p t, GoodCpp (subdir f name) (archiveName ++ ".archive") archiveSchema p t) ∧ CppFine (subdir f name) resources
end

/-- The resources of an archive in C++: a resource whose files are well-formed is there, and then its size must be within the limit;
another one must be optional, and is absent then, whatever its files are. (The size of the payload need not be a multiple of the
size of the structure; remaining bytes are ignored.) -/
inductive CppOpensTo : Files → List RustResource → List (String × Option CppOpened) → Prop where
  | nil (f : Files) : CppOpensTo f [] []
  | noVector {f rs l name schema maxSize overlapping n} (h : ∀ p t, ¬ GoodCpp f name schema p t) (rest : CppOpensTo f rs l) :
    CppOpensTo f (.vector name schema true maxSize overlapping n :: rs) ((name, none) :: l)
  | noInstance {f rs l name schema maxSize n} (h : ∀ p t, ¬ GoodCpp f name schema p t) (rest : CppOpensTo f rs l) :
    CppOpensTo f (.instance name schema true maxSize n :: rs) ((name, none) :: l)
  | noRawData {f rs l name schema maxSize} (h : ∀ p t, ¬ GoodCpp f name schema p t) (rest : CppOpensTo f rs l) :
    CppOpensTo f (.rawData name schema true maxSize :: rs) ((name, none) :: l)
  | noMultivector {f rs l name schema maxSize w}
    (h : (∀ p t, ¬ GoodCpp f name schema p t) ∨ ∀ p t, ¬ GoodCpp f (name ++ "_index") ("index(" ++ schema ++ ")") p t)
    (rest : CppOpensTo f rs l) : CppOpensTo f (.multivector name schema true maxSize w :: rs) ((name, none) :: l)
  | noSignature {f rs l name maxSize archiveName archiveSchema resources}
    (h : ∀ p t, ¬ GoodCpp (subdir f name) (archiveName ++ ".archive") archiveSchema p t) (rest : CppOpensTo f rs l) :
    CppOpensTo f (.archive name true maxSize archiveName archiveSchema resources :: rs) ((name, none) :: l)
  | noContents {f rs l name maxSize archiveName archiveSchema resources} (h : ¬ CppFine (subdir f name) resources)
    (rest : CppOpensTo f rs l) : CppOpensTo f (.archive name true maxSize archiveName archiveSchema resources :: rs) ((name, none) :: l)
  | vector {f rs l name schema optional maxSize overlapping n p t} (hg : GoodCpp f name schema p t)
    (hm : Within maxSize (elements overlapping n p.length)) (rest : CppOpensTo f rs l) :
    CppOpensTo f (.vector name schema optional maxSize overlapping n :: rs)
      ((name, some (.vector ⟨p ++ t, elements overlapping n p.length⟩)) :: l)
  | instance {f rs l name schema optional maxSize n p t} (hg : GoodCpp f name schema p t) (rest : CppOpensTo f rs l) :
    CppOpensTo f (.instance name schema optional maxSize n :: rs) ((name, some (.instance (p ++ t))) :: l)
  | rawData {f rs l name schema optional maxSize p t} (hg : GoodCpp f name schema p t) (hm : Within maxSize p.length)
    (rest : CppOpensTo f rs l) : CppOpensTo f (.rawData name schema optional maxSize :: rs) ((name, some (.rawData p)) :: l)
  | multivector {f rs l name schema optional maxSize w index t data t'}
    (hi : GoodCpp f (name ++ "_index") ("index(" ++ schema ++ ")") index t) (hg : GoodCpp f name schema data t')
    (hm : Within maxSize (elements true ((w + 7) / 8) index.length)) (rest : CppOpensTo f rs l) :
    CppOpensTo f (.multivector name schema optional maxSize w :: rs)
      ((name, some (.multivector ⟨⟨index ++ t, elements true ((w + 7) / 8) index.length⟩, data ++ t'⟩)) :: l)
  | archive {f rs l name optional maxSize archiveName archiveSchema resources p t l'}
    (hs : GoodCpp (subdir f name) (archiveName ++ ".archive") archiveSchema p t) (inner : CppOpensTo (subdir f name) resources l')
    (rest : CppOpensTo f rs l) :
    CppOpensTo f (.archive name optional maxSize archiveName archiveSchema resources :: rs) ((name, some (.archive l')) :: l)

theorem cppRead1_eq {α : Type} {optional : Bool} {size : α → Nat} {maxSize : Option Nat} {x : Option α} {y : Option α} :
    cppRead1 optional size maxSize x = some y ↔
      (y = none ∧ optional = true ∧ x = none) ∨ ∃ a, y = some a ∧ x = some a ∧ Within maxSize (size a) := by
  unfold cppRead1 Within
  cases x with
  | none => cases optional <;> simp [eq_comm]
  | some a =>
    cases maxSize with
    | none => simp [eq_comm]
    | some limit =>
      simp only [reduceCtorEq, and_false, false_or, Option.some.injEq, forall_eq']
      constructor
      · split
        · intro h; cases h; exact ⟨a, rfl, rfl, by assumption⟩
        · rintro ⟨⟩
      · rintro ⟨b, rfl, rfl, h⟩; rw [if_pos h]

theorem encode_ne_nil {s : String} : encodeUtf8 s ≠ [] ↔ s ≠ "" := by
  rw [not_iff_not]
  constructor
  · intro h
    have h1 := (decodeUtf8_iff (encodeUtf8 s) s).mpr rfl
    have h2 := (decodeUtf8_iff [] "").mpr (by decide +kernel)
    rw [h, h2] at h1
    cases h1; rfl
  · rintro rfl; decide +kernel

theorem cppRead_some {f : Files} (hs : SmallFiles f) {name schema : String} {m : Bytes × Nat} :
    readAndCheckSchema f name schema = some m ↔ ∃ p t, GoodCpp f name schema p t ∧ m = (p ++ t, p.length) := by
  rw [C79_cpp_accepts_iff f name schema m (hs name)]
  constructor
  · rintro ⟨p, t, h1, h2, h3, h4, h5⟩; exact ⟨p, t, ⟨h1, h2, h3, encode_ne_nil.mp h4⟩, h5⟩
  · rintro ⟨p, t, ⟨h1, h2, h3, h4⟩, h5⟩; exact ⟨p, t, h1, h2, h3, encode_ne_nil.mpr h4, h5⟩

theorem cppRead_none {f : Files} (hs : SmallFiles f) {name schema : String} :
    readAndCheckSchema f name schema = none ↔ ∀ p t, ¬ GoodCpp f name schema p t := by
  rw [Option.eq_none_iff_forall_ne_some]
  constructor
  · intro h p t hg; exact h _ ((cppRead_some hs).mpr ⟨p, t, hg, rfl⟩)
  · intro h m hm
    obtain ⟨p, t, hg, -⟩ := (cppRead_some hs).mp hm
    exact h p t hg

/-- The payload is determined by the files. -/
theorem goodCpp_unique {f : Files} {name schema schema' : String} {p t p' t' : Bytes} (hs : SmallFiles f) (h : GoodCpp f name schema p t)
    (h' : GoodCpp f name schema' p' t') : p = p' ∧ t = t' := by
  have e := h.1.symm.trans h'.1
  have hl : ∀ {q u : Bytes}, f name = some (toLE 8 q.length ++ q ++ u) → q.length < 2 ^ 64 := by
    intro q u hq
    have := hs _ _ hq
    simp only [List.length_append] at this
    omega
  rw [Option.some.injEq, List.append_assoc, List.append_assoc] at e
  obtain ⟨e1, e2⟩ := List.append_inj e (by rw [Py.toLE_length, Py.toLE_length])
  have : p.length = p'.length := by
    have l := congrArg List.length e2
    rw [List.length_append, List.length_append, h.2.1, h'.2.1] at l
    omega
  exact List.append_inj e2 this

theorem viewSize_eq (overlapping : Bool) (n bytes : Nat) : viewSize overlapping n bytes = elements overlapping n bytes := by
  unfold viewSize elements
  cases overlapping with
  | false => simp
  | true =>
    simp only [true_and, if_true]
    split <;> omega

theorem cppVector_some {f : Files} (hs : SmallFiles f) {overlapping : Bool} {name schema : String} {n : Nat} {v : CppView} :
    cppOpenVector overlapping f name schema n = some v ↔
      ∃ p t, GoodCpp f name schema p t ∧ v = ⟨p ++ t, elements overlapping n p.length⟩ := by
  simp only [cppOpenVector, Option.map_eq_some_iff, cppRead_some hs, CppView.create]
  constructor
  · rintro ⟨m, ⟨p, t, hg, rfl⟩, rfl⟩; exact ⟨p, t, hg, by rw [viewSize_eq]⟩
  · rintro ⟨p, t, hg, rfl⟩; exact ⟨_, ⟨p, t, hg, rfl⟩, by rw [viewSize_eq]⟩

theorem cppMulti_some {f : Files} (hs : SmallFiles f) {name schema : String} {w : Nat} {m : CppMulti} :
    cppOpenMulti f name schema w = some m ↔ ∃ index t data t', GoodCpp f (name ++ "_index") ("index(" ++ schema ++ ")") index t ∧
      GoodCpp f name schema data t' ∧ m = ⟨⟨index ++ t, elements true ((w + 7) / 8) index.length⟩, data ++ t'⟩ := by
  simp only [cppOpenMulti, Option.bind_eq_bind, Option.bind_eq_some_iff, cppVector_some hs, cppRead_some hs, Option.some.injEq]
  constructor
  · rintro ⟨v, ⟨p, t, hg, rfl⟩, d, ⟨p', t', hg', rfl⟩, rfl⟩; exact ⟨p, t, p', t', hg, hg', rfl⟩
  · rintro ⟨p, t, p', t', hg, hg', rfl⟩; exact ⟨_, ⟨p, t, hg, rfl⟩, _, ⟨p', t', hg', rfl⟩, rfl⟩

theorem cppMulti_none {f : Files} (hs : SmallFiles f) {name schema : String} {w : Nat} :
    cppOpenMulti f name schema w = none ↔ (∀ p t, ¬ GoodCpp f name schema p t) ∨
      ∀ p t, ¬ GoodCpp f (name ++ "_index") ("index(" ++ schema ++ ")") p t := by
  rw [Option.eq_none_iff_forall_ne_some]
  constructor
  · intro h
    by_contra hc
    simp only [not_or, not_forall, not_not] at hc
    obtain ⟨⟨p', t', hg'⟩, p, t, hg⟩ := hc
    exact h _ ((cppMulti_some hs).mpr ⟨p, t, p', t', hg, hg', rfl⟩)
  · rintro h m hm
    obtain ⟨p, t, p', t', hg, hg', -⟩ := (cppMulti_some hs).mp hm
    rcases h with h | h
    · exact h _ _ hg'
    · exact h _ _ hg

theorem cppOpenAll_cons {f : Files} {r : RustResource} {rs : List RustResource} {l : List (String × Option CppOpened)} :
    cppOpenAll f (r :: rs) = some l ↔ ∃ x l', cppOpenResource f r = some x ∧ cppOpenAll f rs = some l' ∧ l = x :: l' := by
  rw [cppOpenAll]
  cases cppOpenResource f r <;> cases cppOpenAll f rs <;> simp [eq_comm]

theorem cppOpen_some {f : Files} (hs : SmallFiles f) {archiveName schema : String} {rs : List RustResource}
    {l : List (String × Option CppOpened)} : cppOpen f archiveName schema rs = some l ↔
      (∃ p t, GoodCpp f (archiveName ++ ".archive") schema p t) ∧ cppOpenAll f rs = some l := by
  rw [cppOpen]
  cases h : readAndCheckSchema f (archiveName ++ ".archive") schema with
  | none =>
    have := (cppRead_none hs).mp h
    simp [this]
  | some m =>
    obtain ⟨p, t, hg, -⟩ := (cppRead_some hs).mp h
    exact ⟨fun h => ⟨⟨p, t, hg⟩, h⟩, fun h => h.2⟩

theorem cppFine_iff (n : Nat) (f : Files) (hs : SmallFiles f) (rs : List RustResource) (hn : sizeOf rs < n) :
    (∃ l, cppOpenAll f rs = some l) ↔ CppFine f rs := by
  induction n generalizing f rs with
  | zero => omega
  | succ n ih =>
    cases rs with
    | nil => simp [cppOpenAll, CppFine]
    | cons r rs =>
      simp only [List.cons.sizeOf_spec] at hn
      have ihs := ih f hs rs (by omega)
      have : (∃ l, cppOpenAll f (r :: rs) = some l) ↔ (∃ x, cppOpenResource f r = some x) ∧ ∃ l, cppOpenAll f rs = some l := by
        simp only [cppOpenAll_cons]
        exact ⟨fun ⟨_, x, l', h, h', _⟩ => ⟨⟨x, h⟩, l', h'⟩, fun ⟨⟨x, h⟩, l', h'⟩ => ⟨_, x, l', h, h', rfl⟩⟩
      rw [this, ihs, CppFine]
      apply and_congr_left'
      clear this ihs
      cases r with
      | vector name schema optional maxSize overlapping k =>
        simp only [cppOpenResource, Option.map_eq_some_iff, cppRead1_eq, CppFine1]
        constructor
        · rintro ⟨_, _, (⟨rfl, rfl, h⟩ | ⟨v, rfl, h, hm⟩), rfl⟩
          · have := (cppRead_none hs).mp (by simpa [cppOpenVector] using h)
            exact ⟨by simp, fun p t hg => absurd hg (this p t)⟩
          · obtain ⟨p, t, hg, rfl⟩ := (cppVector_some hs).mp h
            exact ⟨fun _ => ⟨p, t, hg⟩, fun p' t' hg' => by obtain ⟨rfl, rfl⟩ := goodCpp_unique hs hg hg'; exact hm⟩
        · rintro ⟨h1, h2⟩
          by_cases hg : ∃ p t, GoodCpp f name schema p t
          · obtain ⟨p, t, hg⟩ := hg
            exact ⟨_, _, Or.inr ⟨_, rfl, (cppVector_some hs).mpr ⟨p, t, hg, rfl⟩, h2 p t hg⟩, rfl⟩
          · refine ⟨_, none, Or.inl ⟨rfl, ?_, ?_⟩, rfl⟩
            · cases optional with
              | true => rfl
              | false => exact absurd (h1 rfl) hg
            · simp only [not_exists] at hg
              rw [cppOpenVector, (cppRead_none hs).mpr hg]; rfl
      | «instance» name schema optional maxSize k =>
        simp only [cppOpenResource, Option.map_eq_some_iff, cppRead1_eq, CppFine1, cppOpenStruct]
        constructor
        · rintro ⟨_, _, (⟨rfl, rfl, h⟩ | ⟨v, rfl, ⟨m, h, -⟩, hm⟩), rfl⟩
          · simp
          · obtain ⟨p, t, hg, -⟩ := (cppRead_some hs).mp h
            exact fun _ => ⟨p, t, hg⟩
        · intro h1
          by_cases hg : ∃ p t, GoodCpp f name schema p t
          · obtain ⟨p, t, hg⟩ := hg
            exact ⟨_, _, Or.inr ⟨_, rfl, ⟨_, (cppRead_some hs).mpr ⟨p, t, hg, rfl⟩, rfl⟩, fun _ _ => Nat.zero_le _⟩, rfl⟩
          · refine ⟨_, none, Or.inl ⟨rfl, ?_, ?_⟩, rfl⟩
            · cases optional with
              | true => rfl
              | false => exact absurd (h1 rfl) hg
            · simp only [not_exists] at hg
              rw [(cppRead_none hs).mpr hg]; rfl
      | rawData name schema optional maxSize =>
        simp only [cppOpenResource, Option.map_eq_some_iff, cppRead1_eq, CppFine1, cppOpenRaw]
        constructor
        · rintro ⟨_, _, (⟨rfl, rfl, h⟩ | ⟨v, rfl, ⟨m, h, rfl⟩, hm⟩), rfl⟩
          · have := (cppRead_none hs).mp (by simpa using h)
            exact ⟨by simp, fun p t hg => absurd hg (this p t)⟩
          · obtain ⟨p, t, hg, rfl⟩ := (cppRead_some hs).mp h
            refine ⟨fun _ => ⟨p, t, hg⟩, fun p' t' hg' => ?_⟩
            obtain ⟨rfl, rfl⟩ := goodCpp_unique hs hg hg'
            simpa using hm
        · rintro ⟨h1, h2⟩
          by_cases hg : ∃ p t, GoodCpp f name schema p t
          · obtain ⟨p, t, hg⟩ := hg
            exact ⟨_, _, Or.inr ⟨_, rfl, ⟨_, (cppRead_some hs).mpr ⟨p, t, hg, rfl⟩, rfl⟩, by simpa using h2 p t hg⟩, rfl⟩
          · refine ⟨_, none, Or.inl ⟨rfl, ?_, ?_⟩, rfl⟩
            · cases optional with
              | true => rfl
              | false => exact absurd (h1 rfl) hg
            · simp only [not_exists] at hg
              rw [(cppRead_none hs).mpr hg]; rfl
      | multivector name schema optional maxSize w =>
        simp only [cppOpenResource, Option.map_eq_some_iff, cppRead1_eq, CppFine1]
        constructor
        · rintro ⟨_, _, (⟨rfl, rfl, h⟩ | ⟨v, rfl, h, hm⟩), rfl⟩
          · refine ⟨by simp, ?_⟩
            rintro ⟨p, t, hg⟩ p' t' hg'
            rcases (cppMulti_none hs).mp h with h | h
            · exact absurd hg (h _ _)
            · exact absurd hg' (h _ _)
          · obtain ⟨p, t, p', t', hg, hg', rfl⟩ := (cppMulti_some hs).mp h
            refine ⟨fun _ => ⟨⟨p', t', hg'⟩, p, t, hg⟩, fun _ q u hq => ?_⟩
            obtain ⟨rfl, rfl⟩ := goodCpp_unique hs hg hq; exact hm
        · rintro ⟨h1, h2⟩
          cases h : cppOpenMulti f name schema w with
          | some m =>
            obtain ⟨p, t, p', t', hg, hg', rfl⟩ := (cppMulti_some hs).mp h
            exact ⟨_, _, Or.inr ⟨_, rfl, rfl, h2 ⟨p', t', hg'⟩ p t hg⟩, rfl⟩
          | none =>
            refine ⟨_, none, Or.inl ⟨rfl, ?_, rfl⟩, rfl⟩
            cases optional with
            | true => rfl
            | false =>
              obtain ⟨⟨p', t', hg'⟩, p, t, hg⟩ := h1 rfl
              rcases (cppMulti_none hs).mp h with h | h
              · exact absurd hg' (h _ _)
              · exact absurd hg (h _ _)
      | archive name optional maxSize archiveName archiveSchema resources =>
        have hs' := smallFiles_subdir hs name
        simp only [RustResource.archive.sizeOf_spec] at hn
        have ihr := ih (subdir f name) hs' resources (by omega)
        simp only [cppOpenResource, Option.map_eq_some_iff, cppRead1_eq, CppFine1, ← ihr]
        constructor
        · rintro ⟨_, _, (⟨rfl, rfl, h⟩ | ⟨v, rfl, h, -⟩), rfl⟩
          · simp
          · have := (cppOpen_some hs').mp h
            exact fun _ => ⟨this.1, _, this.2⟩
        · intro h1
          cases h : cppOpen (subdir f name) archiveName archiveSchema resources with
          | some l => exact ⟨_, _, Or.inr ⟨_, rfl, rfl, fun _ _ => Nat.zero_le _⟩, rfl⟩
          | none =>
            refine ⟨_, none, Or.inl ⟨rfl, ?_, rfl⟩, rfl⟩
            cases optional with
            | true => rfl
            | false =>
              obtain ⟨hg, l, hl⟩ := h1 rfl
              rw [(cppOpen_some hs').mpr ⟨hg, hl⟩] at h
              cases h

theorem cppOpen_none {f : Files} (hs : SmallFiles f) {archiveName schema : String} {rs : List RustResource} :
    cppOpen f archiveName schema rs = none ↔
      (∀ p t, ¬ GoodCpp f (archiveName ++ ".archive") schema p t) ∨ ¬ CppFine f rs := by
  rw [← cppFine_iff _ f hs rs (Nat.lt_succ_self _), Option.eq_none_iff_forall_ne_some]
  simp only [ne_eq, cppOpen_some hs]
  constructor
  · intro h
    by_contra hc
    simp only [not_or, not_forall, not_not] at hc
    obtain ⟨hc, l, hl⟩ := hc
    exact h l ⟨hc, hl⟩
  · rintro (h | h) l ⟨⟨p, t, hg⟩, hl⟩
    · exact h p t hg
    · exact h ⟨l, hl⟩

theorem cppOpenAll_iff (n : Nat) (f : Files) (hs : SmallFiles f) (rs : List RustResource) (hn : sizeOf rs < n)
    (l : List (String × Option CppOpened)) : cppOpenAll f rs = some l ↔ CppOpensTo f rs l := by
  induction n generalizing f rs l with
  | zero => omega
  | succ n ih =>
    cases rs with
    | nil =>
      rw [cppOpenAll, Option.some.injEq]
      constructor
      · rintro rfl; exact .nil f
      · intro h; cases h; rfl
    | cons r rs =>
      simp only [List.cons.sizeOf_spec] at hn
      have ihs := fun l => ih f hs rs (by omega) l
      simp only [cppOpenAll_cons, ihs]
      cases r with
      | vector name schema optional maxSize overlapping k =>
        simp only [cppOpenResource, Option.map_eq_some_iff, cppRead1_eq]
        constructor
        · rintro ⟨_, l', ⟨_, (⟨rfl, rfl, h⟩ | ⟨v, rfl, h, hm⟩), rfl⟩, hl, rfl⟩
          · exact .noVector ((cppRead_none hs).mp (by simpa [cppOpenVector] using h)) hl
          · obtain ⟨p, t, hg, rfl⟩ := (cppVector_some hs).mp h
            exact .vector hg hm hl
        · intro h
          cases h with
          | noVector h rest => exact ⟨_, _, ⟨none, Or.inl ⟨rfl, rfl, by rw [cppOpenVector, (cppRead_none hs).mpr h]; rfl⟩, rfl⟩, rest, rfl⟩
          | vector hg hm rest => exact ⟨_, _, ⟨_, Or.inr ⟨_, rfl, (cppVector_some hs).mpr ⟨_, _, hg, rfl⟩, hm⟩, rfl⟩, rest, rfl⟩
      | «instance» name schema optional maxSize k =>
        simp only [cppOpenResource, Option.map_eq_some_iff, cppRead1_eq, cppOpenStruct]
        constructor
        · rintro ⟨_, l', ⟨_, (⟨rfl, rfl, h⟩ | ⟨v, rfl, ⟨m, h, rfl⟩, hm⟩), rfl⟩, hl, rfl⟩
          · exact .noInstance ((cppRead_none hs).mp (by simpa using h)) hl
          · obtain ⟨p, t, hg, rfl⟩ := (cppRead_some hs).mp h
            exact .instance hg hl
        · intro h
          cases h with
          | noInstance h rest => exact ⟨_, _, ⟨none, Or.inl ⟨rfl, rfl, by rw [(cppRead_none hs).mpr h]; rfl⟩, rfl⟩, rest, rfl⟩
          | «instance» hg rest =>
            exact ⟨_, _, ⟨_, Or.inr ⟨_, rfl, ⟨_, (cppRead_some hs).mpr ⟨_, _, hg, rfl⟩, rfl⟩, fun _ _ => Nat.zero_le _⟩, rfl⟩, rest, rfl⟩
      | rawData name schema optional maxSize =>
        simp only [cppOpenResource, Option.map_eq_some_iff, cppRead1_eq, cppOpenRaw]
        constructor
        · rintro ⟨_, l', ⟨_, (⟨rfl, rfl, h⟩ | ⟨v, rfl, ⟨m, h, rfl⟩, hm⟩), rfl⟩, hl, rfl⟩
          · exact .noRawData ((cppRead_none hs).mp (by simpa using h)) hl
          · obtain ⟨p, t, hg, rfl⟩ := (cppRead_some hs).mp h
            simp only [List.take_left] at hm ⊢
            exact .rawData hg hm hl
        · intro h
          cases h with
          | noRawData h rest => exact ⟨_, _, ⟨none, Or.inl ⟨rfl, rfl, by rw [(cppRead_none hs).mpr h]; rfl⟩, rfl⟩, rest, rfl⟩
          | rawData hg hm rest =>
            exact ⟨_, _, ⟨_, Or.inr ⟨_, rfl, ⟨_, (cppRead_some hs).mpr ⟨_, _, hg, rfl⟩, List.take_left⟩, hm⟩, rfl⟩, rest, rfl⟩
      | multivector name schema optional maxSize w =>
        simp only [cppOpenResource, Option.map_eq_some_iff, cppRead1_eq]
        constructor
        · rintro ⟨_, l', ⟨_, (⟨rfl, rfl, h⟩ | ⟨v, rfl, h, hm⟩), rfl⟩, hl, rfl⟩
          · exact .noMultivector ((cppMulti_none hs).mp h) hl
          · obtain ⟨p, t, p', t', hg, hg', rfl⟩ := (cppMulti_some hs).mp h
            exact .multivector hg hg' hm hl
        · intro h
          cases h with
          | noMultivector h rest => exact ⟨_, _, ⟨none, Or.inl ⟨rfl, rfl, (cppMulti_none hs).mpr h⟩, rfl⟩, rest, rfl⟩
          | multivector hi hg hm rest =>
            exact ⟨_, _, ⟨_, Or.inr ⟨_, rfl, (cppMulti_some hs).mpr ⟨_, _, _, _, hi, hg, rfl⟩, hm⟩, rfl⟩, rest, rfl⟩
      | archive name optional maxSize archiveName archiveSchema resources =>
        have hs' := smallFiles_subdir hs name
        simp only [RustResource.archive.sizeOf_spec] at hn
        have ihr := fun l => ih (subdir f name) hs' resources (by omega) l
        simp only [cppOpenResource, Option.map_eq_some_iff, cppRead1_eq]
        constructor
        · rintro ⟨_, l', ⟨_, (⟨rfl, rfl, h⟩ | ⟨v, rfl, h, hm⟩), rfl⟩, hl, rfl⟩
          · rcases (cppOpen_none hs').mp h with h | h
            · exact .noSignature h hl
            · exact .noContents h hl
          · obtain ⟨⟨p, t, hg⟩, h⟩ := (cppOpen_some hs').mp h
            exact .archive hg ((ihr _).mp h) hl
        · intro h
          cases h with
          | noSignature h rest => exact ⟨_, _, ⟨none, Or.inl ⟨rfl, rfl, (cppOpen_none hs').mpr (Or.inl h)⟩, rfl⟩, rest, rfl⟩
          | noContents h rest => exact ⟨_, _, ⟨none, Or.inl ⟨rfl, rfl, (cppOpen_none hs').mpr (Or.inr h)⟩, rfl⟩, rest, rfl⟩
          | archive hg h rest =>
            exact ⟨_, _, ⟨_, Or.inr ⟨_, rfl, (cppOpen_some hs').mpr ⟨⟨_, _, hg⟩, (ihr _).mpr h⟩, fun _ _ => Nat.zero_le _⟩, rfl⟩, rest, rfl⟩

/-- **C85.** An archive is open in C++ if and only if its signature is good, every mandatory resource is there and no resource is too
large; this is what its members hold then. -/
theorem C85_cpp_open (f : Files) (hs : SmallFiles f) (archiveName schema : String) (resources : List RustResource) :
    ((cppOpen f archiveName schema resources).isSome ↔
      (∃ p t, GoodCpp f (archiveName ++ ".archive") schema p t) ∧ CppFine f resources) ∧
    ∀ l, cppOpen f archiveName schema resources = some l ↔
      (∃ p t, GoodCpp f (archiveName ++ ".archive") schema p t) ∧ CppOpensTo f resources l := by
  constructor
  · rw [Option.isSome_iff_exists, ← cppFine_iff _ f hs resources (Nat.lt_succ_self _)]
    simp only [cppOpen_some hs]
    exact ⟨fun ⟨l, h, hl⟩ => ⟨h, l, hl⟩, fun ⟨h, l, hl⟩ => ⟨l, h, hl⟩⟩
  · intro l
    rw [cppOpen_some hs, cppOpenAll_iff _ f hs resources (Nat.lt_succ_self _)]

end Props
