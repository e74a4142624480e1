import Verif.Spec.Json
import Verif.Props.Native.GoArchive
import Verif.Lemmas.GenText

/-!
# C109: sizes, closing and texts in Go
-/

namespace Props
open Py Spec Gen Model Model.Native _root_.Native

/-! ## JSON -/

theorem jsonDigits_natText (n : Nat) : JsonDigits n (natText n) := by
  refine ⟨natText_digits n, natText_ne_nil n, fun h => ?_, digitsVal_natText n⟩
  rw [(natText_head n).mp h]
  unfold natText; decide

theorem json_nat (n : Nat) : IsJson (.number n) (natText n) := .natural (jsonDigits_natText n)

theorem json_int (n : Int) : IsJson (.number n) (intText n) := by
  unfold intText
  split
  · have : n = -(n.natAbs : Int) := by omega
    rw [this]
    simp only [Int.natAbs_neg, Int.natAbs_natCast]
    exact .negative (jsonDigits_natText _)
  · have : n = (n.natAbs : Int) := by omega
    rw [this]
    simp only [Int.natAbs_natCast]
    exact .natural (jsonDigits_natText _)

theorem json_bool (b : Bool) : IsJson (.bool b) (jBool b) := by
  cases b
  · exact .false
  · exact .true

theorem json_string {x : Text} (h : PlainText x) : IsJson (.string x) (jString x) := .string h

theorem space_nil : JsonSpace [] := by intro c h; cases h

/-- A value with whitespace before it. -/
def JsonAfter (v : Json) (t : Text) : Prop := ∃ w u, JsonSpace w ∧ t = w ++ u ∧ IsJson v u

theorem _root_.Spec.IsJson.after {v : Json} {t : Text} (h : IsJson v t) : JsonAfter v t := ⟨[], t, space_nil, rfl, h⟩

theorem JsonAfter.space {v : Json} {w t : Text} (hw : JsonSpace w) (h : JsonAfter v t) : JsonAfter v (w ++ t) := by
  obtain ⟨w', u, h1, rfl, h2⟩ := h
  refine ⟨w ++ w', u, ?_, by simp, h2⟩
  intro c hc
  rcases List.mem_append.mp hc with hc | hc
  exacts [hw c hc, h1 c hc]

theorem json_items {sp : Text} (hsp : JsonSpace sp) : ∀ {l : List Json} {ts : List Text}, List.Forall₂ JsonAfter l ts → l ≠ [] →
    JsonItems l (joinTexts (',' :: sp) ts)
  | _, _, .nil, h => absurd rfl h
  | _, _, .cons (a := v) (b := t) h .nil, _ => by
    obtain ⟨w, u, h1, rfl, h2⟩ := h
    have := JsonItems.one h2 h1 space_nil
    rw [List.append_nil] at this
    exact this
  | _, _, .cons (a := v) (b := t) h (.cons (a := v') (b := t') (l₁ := l) (l₂ := ts) h' hr), _ => by
    obtain ⟨w, u, h1, rfl, h2⟩ := h
    have ih := json_items hsp (.cons (h'.space hsp) hr) (by simp)
    have := JsonItems.more h2 h1 space_nil ih
    have e : joinTexts (',' :: sp) ((w ++ u) :: t' :: ts) = w ++ (u ++ ([] ++ ',' :: joinTexts (',' :: sp) ((sp ++ t') :: ts))) := by
      cases ts with
      | nil => simp [joinTexts]
      | cons a ts => simp [joinTexts]
    rw [e]
    exact this

theorem json_array {sp : String} {sp' : Text} (he : sp.toList = ',' :: sp') (hsp : JsonSpace sp') {l : List Json} {ts : List Text} (h : List.Forall₂ JsonAfter l ts) :
    IsJson (.array l) (jArray sp ts) := by
  unfold jArray
  cases h with
  | nil =>
    have := IsJson.emptyArray space_nil
    exact this
  | cons h hr =>
    rw [he]
    exact .array (json_items hsp (.cons h hr) (by simp))

/-- A member with whitespace before it. -/
def MemberAfter (kv : Text × Json) (t : Text) : Prop :=
  ∃ w u, JsonSpace w ∧ PlainText kv.1 ∧ IsJson kv.2 u ∧ t = w ++ '"' :: (kv.1 ++ '"' :: ([] ++ ':' :: ([' '] ++ (u ++ []))))

theorem MemberAfter.space {v : Text × Json} {w t : Text} (hw : JsonSpace w) (h : MemberAfter v t) : MemberAfter v (w ++ t) := by
  obtain ⟨w', u, h1, h2, h3, rfl⟩ := h
  refine ⟨w ++ w', u, ?_, h2, h3, by simp⟩
  intro c hc
  rcases List.mem_append.mp hc with hc | hc
  exacts [hw c hc, h1 c hc]

theorem member_after {k : String} {v : Json} {u : Text} (hk : PlainText k.toList) (h : IsJson v u) : MemberAfter (k.toList, v) (jMember k u) := by
  refine ⟨[], u, space_nil, hk, h, ?_⟩
  simp [jMember, jString]

theorem space_one : JsonSpace [' '] := by intro c hc; left; simpa using hc

theorem json_members {sp : Text} (hsp : JsonSpace sp) : ∀ {l : List (Text × Json)} {ts : List Text}, List.Forall₂ MemberAfter l ts → l ≠ [] →
    JsonMembers l (joinTexts (',' :: sp) ts)
  | _, _, .nil, h => absurd rfl h
  | _, _, .cons (a := (k, v)) (b := t) h .nil, _ => by
    obtain ⟨w, u, h1, h2, h3, rfl⟩ := h
    exact JsonMembers.one h2 h3 h1 space_nil space_one space_nil
  | _, _, .cons (a := (k, v)) (b := t) h (.cons (a := v') (b := t') (l₁ := l) (l₂ := ts) h' hr), _ => by
    obtain ⟨w, u, h1, h2, h3, rfl⟩ := h
    have ih := json_members hsp (.cons (h'.space hsp) hr) (by simp)
    have := JsonMembers.more h2 h3 h1 space_nil space_one space_nil ih
    have e : joinTexts (',' :: sp) ((w ++ '"' :: (k ++ '"' :: ([] ++ ':' :: ([' '] ++ (u ++ []))))) :: t' :: ts) =
        w ++ '"' :: (k ++ '"' :: ([] ++ ':' :: ([' '] ++ (u ++ ([] ++ ',' :: joinTexts (',' :: sp) ((sp ++ t') :: ts)))))) := by
      cases ts with
      | nil => simp [joinTexts]
      | cons a ts => simp [joinTexts]
    rw [e]
    exact this

theorem json_object {sp : String} {sp' : Text} (he : sp.toList = ',' :: sp') (hsp : JsonSpace sp') {l : List (Text × Json)} {ts : List Text} (h : List.Forall₂ MemberAfter l ts) :
    IsJson (.object l) (jObject sp ts) := by
  unfold jObject
  cases h with
  | nil =>
    have := IsJson.emptyObject space_nil
    exact this
  | cons h hr =>
    rw [he]
    exact .object (json_members hsp (.cons h hr) (by simp))

theorem comma_space : ", ".toList = ',' :: [' '] := by decide
theorem comma_only : ",".toList = ',' :: [] := by decide

instance (x : Text) : Decidable (PlainText x) := by unfold PlainText; infer_instance

theorem json_field {f : GoMember} (h : PlainText f.name) : IsJson (fieldJson f) (goFieldText f) := by
  unfold fieldJson goFieldText
  refine json_object comma_space space_one (.cons ?_ (.cons ?_ (.cons ?_ (.cons ?_ .nil))))
  · exact member_after (by decide) (json_string h)
  · exact member_after (by decide) (json_nat _)
  · exact member_after (by decide) (json_nat _)
  · exact member_after (by decide) (json_bool _)

theorem json_element {e : GoElement} (h : ElementNames e) {sp : Text} (hsp : JsonSpace sp) : IsJson (elementJson e) (goElementText sp e) := by
  unfold elementJson goElementText
  refine json_object comma_space space_one (.cons ?_ (.cons ?_ .nil))
  · exact (member_after (by decide) (json_string h.1)).space hsp
  · refine member_after (by decide) (json_array comma_only space_nil ?_)
    rw [List.forall₂_map_left_iff, List.forall₂_map_right_iff, List.forall₂_same]
    exact fun f hf => (json_field (h.2 f hf)).after

theorem size_payload {d : GoMemory} {n : Int} (h : d.size = some n) : n = payloadSize (memoryBytes d) := by
  cases d with
  | nil => cases h
  | closed => cases h; rfl
  | mapped d =>
    cases h
    unfold goSize payloadSize goReadAt memoryBytes
    by_cases hd : d.length < 8
    · rw [if_neg (by omega), if_pos hd]
    · rw [if_pos (by omega), if_neg hd]; rfl

theorem len_bytes {d : GoMemory} {n : Nat} (h : d.len = some n) : n = (memoryBytes d).length := by
  cases d <;> cases h <;> rfl

mutual
theorem sizes_mapped1 : ∀ (m : GoObject) {n : Nat}, m.isOpen = true → m.sizeInBytes = some n → n = mappedBytes1 m
  | .vector e d o, n, ho, h => by simp only [GoObject.isOpen] at ho; subst ho; exact len_bytes h
  | .instance e d o, n, ho, h => by simp only [GoObject.isOpen] at ho; subst ho; exact len_bytes h
  | .rawData d o, n, ho, h => by simp only [GoObject.isOpen] at ho; subst ho; exact len_bytes h
  | .multivector es ix d i o, n, ho, h => by simp only [GoObject.isOpen] at ho; subst ho; exact len_bytes h
  | .archive a o ms, n, ho, h => by
    simp only [GoObject.isOpen] at ho; subst ho
    unfold GoObject.sizeInBytes at h
    unfold mappedBytes1
    exact sizes_mapped ms h
theorem sizes_mapped : ∀ (ms : List GoObject) {n : Nat}, goSizes ms = some n → n = mappedBytes ms
  | [], n, h => by unfold goSizes at h; cases h; rfl
  | m :: ms, n, h => by
    unfold goSizes at h
    unfold mappedBytes
    cases h1 : (if m.isOpen then m.sizeInBytes else some 0) with
    | none => rw [h1] at h; cases h
    | some x =>
      cases h2 : goSizes ms with
      | none => rw [h1, h2] at h; cases h
      | some y =>
        rw [h1, h2] at h
        cases h
        rw [← sizes_mapped ms h2]
        show x + y = mappedBytes1 m + y
        congr 1
        cases ho : m.isOpen with
        | true => rw [ho, if_pos rfl] at h1; exact sizes_mapped1 m ho h1
        | false =>
          rw [ho] at h1
          cases h1
          cases m <;> simp only [GoObject.isOpen] at ho <;> subst ho <;> rfl
end

mutual
/-- Whatever is written is JSON. -/
theorem text_json1 : ∀ (m : GoObject) {t : Text}, JsonNames1 m → m.text = some t → IsJson (objectJson m) t
  | .vector e d o, t, hp, h => by
    unfold GoObject.text at h
    cases h1 : d.size with
    | none => rw [h1] at h; cases h
    | some n =>
      cases h2 : d.len with
      | none => rw [h1, h2] at h; cases h
      | some k =>
        rw [h1, h2] at h
        cases h
        rw [size_payload h1, len_bytes h2]
        unfold objectJson
        refine json_object comma_space space_one (.cons ?_ (.cons ?_ (.cons ?_ (.cons ?_ .nil))))
        · exact member_after (by decide) (json_string (by decide))
        · exact member_after (by decide) (json_int _)
        · exact member_after (by decide) (json_nat _)
        · exact member_after (by decide) (json_array comma_only space_nil (.cons (json_element hp space_one).after .nil))
  | .instance e d o, t, hp, h => by
    unfold GoObject.text at h
    cases h2 : d.len with
    | none => rw [h2] at h; cases h
    | some k =>
      rw [h2] at h
      cases h
      rw [len_bytes h2]
      unfold objectJson
      refine json_object comma_space space_one (.cons ?_ (.cons ?_ (.cons ?_ (.cons ?_ .nil))))
      · exact member_after (by decide) (json_string (by decide))
      · exact member_after (by decide) (json_nat 1)
      · exact member_after (by decide) (json_nat _)
      · exact member_after (by decide) (json_array comma_only space_nil (.cons (json_element hp space_one).after .nil))
  | .rawData d o, t, hp, h => by
    unfold GoObject.text at h
    cases h1 : d.size with
    | none => rw [h1] at h; cases h
    | some n =>
      cases h2 : d.len with
      | none => rw [h1, h2] at h; cases h
      | some k =>
        rw [h1, h2] at h
        cases h
        rw [size_payload h1, len_bytes h2]
        unfold objectJson
        refine json_object comma_space space_one (.cons ?_ (.cons ?_ (.cons ?_ (.cons ?_ .nil))))
        · exact member_after (by decide) (json_string (by decide))
        · exact member_after (by decide) (json_int _)
        · exact member_after (by decide) (json_nat _)
        · exact member_after (by decide) (json_array comma_only space_nil .nil)
  | .multivector es ix d i o, t, hp, h => by
    unfold GoObject.text at h
    cases h1 : i.size with
    | none => rw [h1] at h; cases h
    | some n =>
      cases h2 : d.len with
      | none => rw [h1, h2] at h; cases h
      | some k =>
        rw [h1, h2] at h
        cases h
        rw [size_payload h1, len_bytes h2]
        unfold objectJson
        refine json_object comma_space space_one (.cons ?_ (.cons ?_ (.cons ?_ (.cons ?_ (.cons ?_ .nil)))))
        · exact member_after (by decide) (json_string (by decide))
        · exact member_after (by decide) (json_int _)
        · exact member_after (by decide) (json_nat _)
        · refine member_after (by decide) (json_array comma_only space_nil ?_)
          rw [List.forall₂_map_left_iff, List.forall₂_map_right_iff, List.forall₂_same]
          exact fun e he => (json_element (hp.1 e he) space_nil).after
        · exact member_after (by decide) (json_element hp.2 space_nil)
  | .archive n o ms, t, hp, h => by
    unfold GoObject.text at h
    cases h1 : goSizes ms with
    | none => rw [h1] at h; cases h
    | some k =>
      cases h2 : goTexts ms with
      | none => rw [h1, h2] at h; cases h
      | some ts =>
        rw [h1, h2] at h
        cases h
        rw [sizes_mapped ms h1]
        unfold objectJson
        unfold JsonNames1 at hp
        refine json_object comma_space space_one (.cons ?_ (.cons ?_ (.cons ?_ (.cons ?_ .nil))))
        · exact member_after (by decide) (json_string hp.1)
        · exact member_after (by decide) (json_string (by decide))
        · exact member_after (by decide) (json_nat _)
        · exact member_after (by decide) (json_array comma_only space_nil (text_json ms hp.2 h2))
theorem text_json : ∀ (ms : List GoObject) {ts : List Text}, JsonNames ms → goTexts ms = some ts → List.Forall₂ JsonAfter (objectsJson ms) ts
  | [], ts, _, h => by unfold goTexts at h; cases h; exact .nil
  | m :: ms, ts, hp, h => by
    unfold goTexts at h
    unfold JsonNames at hp
    cases h1 : m.text with
    | none => rw [h1] at h; cases h
    | some t =>
      cases h2 : goTexts ms with
      | none => rw [h1, h2] at h; cases h
      | some us =>
        rw [h1, h2] at h
        cases h
        exact .cons (text_json1 m hp.1 h1).after (text_json ms hp.2 h2)
end

/-! ## Loaded objects -/

theorem loaded_sizes {l : List (String × GoOpened)} {ms : List GoObject} (h : GoLoaded l ms) : ∃ n, goSizes ms = some n := by
  induction h with
  | nil => exact ⟨0, rfl⟩
  | @vector name d e l ms _ ih => obtain ⟨n, hn⟩ := ih; cases d <;> exact ⟨_, by unfold goSizes; rw [hn]; rfl⟩
  | @«instance» name d e l ms _ ih => obtain ⟨n, hn⟩ := ih; cases d <;> exact ⟨_, by unfold goSizes; rw [hn]; rfl⟩
  | @rawData name d l ms _ ih => obtain ⟨n, hn⟩ := ih; cases d <;> exact ⟨_, by unfold goSizes; rw [hn]; rfl⟩
  | multivector _ ih => obtain ⟨n, hn⟩ := ih; exact ⟨_, by unfold goSizes; rw [hn]; rfl⟩
  | closed _ _ ih => obtain ⟨n, hn⟩ := ih; exact ⟨_, by unfold goSizes; rw [hn]; rfl⟩
  | @archive name o n l l' ms ms' _ _ _ ih1 ih2 =>
    obtain ⟨a, ha⟩ := ih1
    obtain ⟨b, hb⟩ := ih2
    cases o
    · exact ⟨_, by unfold goSizes; rw [hb]; rfl⟩
    · exact ⟨_, by unfold goSizes GoObject.sizeInBytes; rw [hb, ha]; rfl⟩

theorem sizes_cons {m : GoObject} {ms : List GoObject} {a b : Nat} (h1 : (if m.isOpen then m.sizeInBytes else some 0) = some a) (h2 : goSizes ms = some b) :
    goSizes (m :: ms) = some (a + b) := by
  unfold goSizes
  rw [h1, h2]
  rfl

theorem sizes_files {f : Files} {rs : List RustResource} {l : List (String × GoOpened)} (h : GoOpensTo f rs l) : ∀ {ms : List GoObject}, GoLoaded l ms →
    goSizes ms = some (dataBytes f rs) := by
  have data : ∀ {f : Files} {name schema : String} {o : Option Bytes}, GoData f name schema o →
      (if o.isSome then (goMemoryOf o).len else some 0) = some ((f name).getD []).length := by
    intro f name schema o ho
    cases o with
    | none => unfold GoData at ho; rw [ho]; rfl
    | some d => rw [ho.1]; rfl
  induction h with
  | nil => intro ms hl; cases hl; rfl
  | vector h _ ih => intro ms hl; unfold dataBytes; cases hl <;> (rename_i hl; exact sizes_cons (data h) (ih hl))
  | «instance» h _ ih => intro ms hl; unfold dataBytes; cases hl <;> (rename_i hl; exact sizes_cons (data h) (ih hl))
  | rawData h _ ih => intro ms hl; unfold dataBytes; cases hl <;> (rename_i hl; exact sizes_cons (data h) (ih hl))
  | @multivector f rs l name schema optional maxSize w o h _ ih =>
    intro ms hl
    unfold dataBytes
    cases hl with
    | multivector hl =>
      obtain ⟨h1, ⟨i, h2⟩, _⟩ := h
      refine sizes_cons ?_ (ih hl)
      unfold dataBytes1
      rw [h1.1, h2.1]
      rfl
    | closed _ hl =>
      refine sizes_cons ?_ (ih hl)
      unfold dataBytes1
      rcases h with ⟨h, _⟩ | ⟨h, _⟩
      · rw [h]; simp [GoObject.isOpen]
      · rw [if_pos h]; rfl
  | archive _ _ ih1 ih2 =>
    intro ms hl
    unfold dataBytes
    cases hl with
    | archive _ hl1 hl2 =>
      refine sizes_cons ?_ (ih2 hl2)
      unfold dataBytes1 GoObject.sizeInBytes
      exact ih1 hl1

theorem texts_cons {m : GoObject} {ms : List GoObject} : (goTexts (m :: ms)).isSome = true ↔ m.text.isSome = true ∧ (goTexts ms).isSome = true := by
  simp only [goTexts]
  cases m.text with
  | none => simp
  | some t => cases goTexts ms <;> simp

theorem texts_open {l : List (String × GoOpened)} {ms : List GoObject} (h : GoLoaded l ms) : (goTexts ms).isSome = true ↔ AllOpen l := by
  induction h with
  | nil => simp [goTexts, AllOpen]
  | @vector name d e l ms _ ih => rw [texts_cons, ih]; simp only [AllOpen, Found, GoObject.text]; cases d <;> simp [goMemoryOf, GoMemory.size, GoMemory.len]
  | @«instance» name d e l ms _ ih => rw [texts_cons, ih]; simp only [AllOpen, Found, GoObject.text]; cases d <;> simp [goMemoryOf, GoMemory.size, GoMemory.len]
  | @rawData name d l ms _ ih => rw [texts_cons, ih]; simp only [AllOpen, Found, GoObject.text]; cases d <;> simp [goMemoryOf, GoMemory.size, GoMemory.len]
  | multivector _ ih => rw [texts_cons, ih]; simp only [AllOpen, Found, GoObject.text]; simp [GoMemory.size, GoMemory.len]
  | @closed name es ix d i l ms h _ ih =>
    rw [texts_cons, ih]; simp only [AllOpen, Found, GoObject.text]
    rcases h with rfl | rfl
    · cases i <;> simp [GoMemory.size, GoMemory.len]
    · simp [GoMemory.size]
  | @archive name o n l l' ms ms' _ hl _ ih1 ih2 =>
    rw [texts_cons, ih2]
    simp only [AllOpen, Found, GoObject.text]
    obtain ⟨k, hk⟩ := loaded_sizes hl
    rw [hk, ← ih1]
    cases goTexts ms' <;> simp

theorem closes_cons {m m' : GoObject} {ms ms' : List GoObject} (h1 : (if m.isOpen then m.close else some m) = some m') (h2 : goCloses ms = some ms') :
    goCloses (m :: ms) = some (m' :: ms') := by
  unfold goCloses
  rw [h1, h2]
  rfl

theorem closes_loaded {l : List (String × GoOpened)} {ms : List GoObject} (h : GoLoaded l ms) : ∃ ms', goCloses ms = some ms' ∧ ClosedFrom ms ms' ∧
    goSizes ms' = some 0 ∧ goCloses ms' = some ms' := by
  induction h with
  | nil => exact ⟨[], rfl, .nil, rfl, rfl⟩
  | @vector name d e l ms _ ih =>
    obtain ⟨ms', a, b, c, d'⟩ := ih
    cases d with
    | none => exact ⟨_, closes_cons rfl a, .cons (.vector (by simp [goMemoryOf])) b, sizes_cons rfl c, closes_cons rfl d'⟩
    | some x => exact ⟨_, closes_cons rfl a, .cons (.vector (d' := .closed) (by simp)) b, sizes_cons rfl c, closes_cons rfl d'⟩
  | @«instance» name d e l ms _ ih =>
    obtain ⟨ms', a, b, c, d'⟩ := ih
    cases d with
    | none => exact ⟨_, closes_cons rfl a, .cons (.instance (by simp [goMemoryOf])) b, sizes_cons rfl c, closes_cons rfl d'⟩
    | some x => exact ⟨_, closes_cons rfl a, .cons (.instance (d' := .closed) (by simp)) b, sizes_cons rfl c, closes_cons rfl d'⟩
  | @rawData name d l ms _ ih =>
    obtain ⟨ms', a, b, c, d'⟩ := ih
    cases d with
    | none => exact ⟨_, closes_cons rfl a, .cons (.rawData (by simp [goMemoryOf])) b, sizes_cons rfl c, closes_cons rfl d'⟩
    | some x => exact ⟨_, closes_cons rfl a, .cons (.rawData (d' := .closed) (by simp)) b, sizes_cons rfl c, closes_cons rfl d'⟩
  | multivector _ ih =>
    obtain ⟨ms', a, b, c, d'⟩ := ih
    exact ⟨_, closes_cons rfl a, .cons (.multivector (d' := .closed) (by simp) (by simp)) b, sizes_cons rfl c, closes_cons rfl d'⟩
  | closed _ _ ih =>
    obtain ⟨ms', a, b, c, d'⟩ := ih
    exact ⟨_, closes_cons rfl a, .cons (.multivector (by simp) (by simp)) b, sizes_cons rfl c, closes_cons rfl d'⟩
  | @archive name o n l l' ms ms' ho hl _ ih1 ih2 =>
    obtain ⟨ns', a', b', c', e'⟩ := ih1
    obtain ⟨ns, a, b, c, e⟩ := ih2
    cases o with
    | false =>
      have := ho rfl
      subst this
      cases hl
      cases a'
      exact ⟨_, closes_cons rfl a, .cons (.archive .nil) b, sizes_cons rfl c, closes_cons rfl e⟩
    | true =>
      have k1 : (GoObject.archive n true ms').close = some (.archive n true ns') := by unfold GoObject.close; rw [a']; rfl
      have k2 : (GoObject.archive n true ns').close = some (.archive n true ns') := by unfold GoObject.close; rw [e']; rfl
      have k3 : (GoObject.archive n true ns').sizeInBytes = some 0 := by unfold GoObject.sizeInBytes; exact c'
      exact ⟨_, closes_cons k1 a, .cons (.archive b') b, sizes_cons (m := .archive n true ns') k3 c, closes_cons k2 e⟩

/-- C109 (size). `GetSizeInBytes` of an archive that has been opened is the size of the data files of its resources and sub-archives. -/
theorem C109_size {f : Files} {rs : List RustResource} {l : List (String × GoOpened)} (h : goOpen f rs = .ok l) {ms : List GoObject} (hl : GoLoaded l ms)
    (name : Text) : (GoObject.archive name true ms).sizeInBytes = some (dataBytes f rs) := by
  unfold GoObject.sizeInBytes
  exact sizes_files ((C88_go_open f rs l).mp h) hl

/-- C109 (text). `ToString` of an archive that has been opened panics if a resource has not been found, in the archive or in one of its
sub-archives. Otherwise the text is JSON and describes the archive. -/
theorem C109_text {f : Files} {rs : List RustResource} {l : List (String × GoOpened)} (_h : goOpen f rs = .ok l) {ms : List GoObject} (hl : GoLoaded l ms)
    {name : Text} (hn : PlainText name) (hp : JsonNames ms) :
    (¬ AllOpen l → (GoObject.archive name true ms).text = none) ∧
    (AllOpen l → ∃ t, (GoObject.archive name true ms).text = some t ∧ IsJson (objectJson (.archive name true ms)) t) := by
  obtain ⟨k, hk⟩ := loaded_sizes hl
  have ht := texts_open hl
  constructor
  · intro h
    rw [← ht] at h
    unfold GoObject.text
    rw [hk]
    cases h1 : goTexts ms with
    | none => rfl
    | some ts => rw [h1] at h; exact absurd rfl h
  · intro h
    rw [← ht, Option.isSome_iff_exists] at h
    obtain ⟨ts, h1⟩ := h
    have h2 : ∃ t, (GoObject.archive name true ms).text = some t := by
      unfold GoObject.text
      rw [hk, h1]
      exact ⟨_, rfl⟩
    obtain ⟨t, h2⟩ := h2
    exact ⟨t, h2, text_json1 _ (by unfold JsonNames1; exact ⟨hn, hp⟩) h2⟩

/-- C109 (close). `Close` of an archive that has been opened does not panic. No data of open resources stays mapped (but indices of
multivectors do), the size is 0, and closing again changes nothing. -/
theorem C109_close {f : Files} {rs : List RustResource} {l : List (String × GoOpened)} (_h : goOpen f rs = .ok l) {ms : List GoObject} (hl : GoLoaded l ms)
    (name : Text) : ∃ ms', (GoObject.archive name true ms).close = some (.archive name true ms') ∧ ClosedFrom ms ms' ∧
      (GoObject.archive name true ms').sizeInBytes = some 0 ∧ (GoObject.archive name true ms').close = some (.archive name true ms') := by
  obtain ⟨ms', a, b, c, d⟩ := closes_loaded hl
  refine ⟨ms', ?_, b, ?_, ?_⟩
  · unfold GoObject.close; rw [a]; rfl
  · unfold GoObject.sizeInBytes; exact c
  · unfold GoObject.close; rw [d]; rfl

/-! ## Structures -/

/-- The value of a field. -/
def valueJson (t : GoType) (v : Int) : Json :=
  match t with
  | .bool => .bool (v = 1)
  | .int _ _ => .number v

theorem fieldTexts_json {ty : String → GoType} {fs : List FieldDecl} {d : Bytes} {position : Int} : ∀ {l : List FieldDecl} {ts : List Text},
    (∀ f ∈ l, PlainText f.name.toList) → goFieldTexts ty fs d position l = some ts →
    ∃ vs, List.Forall₂ (fun f v => goField ty fs d position f.name = some v) l vs ∧
      List.Forall₂ MemberAfter (List.zipWith (fun (f : FieldDecl) v => (f.name.toList, valueJson (ty f.name) v)) l vs) ts
  | [], ts, _, h => by unfold goFieldTexts at h; cases h; exact ⟨[], .nil, .nil⟩
  | f :: l, ts, hp, h => by
    unfold goFieldTexts at h
    cases h1 : goField ty fs d position f.name with
    | none => rw [h1] at h; cases h
    | some v =>
      cases h2 : goFieldTexts ty fs d position l with
      | none => rw [h1, h2] at h; cases h
      | some us =>
        rw [h1, h2] at h
        cases h
        obtain ⟨vs, e1, e2⟩ := fieldTexts_json (fun f hf => hp f (List.mem_cons_of_mem _ hf)) h2
        refine ⟨v :: vs, .cons h1 e1, .cons (member_after (hp f List.mem_cons_self) ?_) e2⟩
        unfold valueJson goValueText
        cases ty f.name
        · exact json_bool _
        · exact json_int _

theorem fieldTexts_some {ty : String → GoType} {fs : List FieldDecl} {d : Bytes} {position : Int} : ∀ {l : List FieldDecl} {vs : List Int},
    List.Forall₂ (fun f v => goField ty fs d position f.name = some v) l vs → ∃ ts, goFieldTexts ty fs d position l = some ts
  | _, _, .nil => ⟨[], rfl⟩
  | _, _, .cons h hr => by
    obtain ⟨ts, h2⟩ := fieldTexts_some hr
    exact ⟨_, by unfold goFieldTexts; rw [h, h2]; rfl⟩

theorem forall2_values {α β : Type} {g : α → Option β} {l : List α} : ∀ {a b : List β}, List.Forall₂ (fun x v => g x = some v) l a →
    List.Forall₂ (fun x v => g x = some v) l b → b = a := by
  induction l with
  | nil => intro a b h h'; cases h; cases h'; rfl
  | cons x l ih =>
    intro a b h h'
    cases h with
    | cons h1 h2 => cases h' with
      | cons h1' h2' => rw [h1] at h1'; cases h1'; rw [ih h2 h2']

/-- C109 (structures). If the fields of a structure have values, `ToString` writes these values as JSON. -/
theorem C109_structure {name : String} {ty : String → GoType} {fs : List FieldDecl} {d : Bytes} {position : Int} (hn : PlainText name.toList)
    (hp : ∀ f ∈ fs, PlainText f.name.toList) {vs : List Int} (h : List.Forall₂ (fun f v => goField ty fs d position f.name = some v) fs vs) :
    ∃ t, goStructText name ty fs d position = some t ∧ IsJson (.object [("name".toList, .string name.toList), ("position".toList, .number position),
      ("attributes".toList, .object (List.zipWith (fun (f : FieldDecl) v => (f.name.toList, valueJson (ty f.name) v)) fs vs))]) t := by
  obtain ⟨ts, h1⟩ := fieldTexts_some h
  obtain ⟨vs', e1, e2⟩ := fieldTexts_json hp h1
  have : vs' = vs := forall2_values h e1
  subst this
  unfold goStructText
  rw [h1]
  refine ⟨_, rfl, ?_⟩
  refine json_object comma_space space_one (.cons ?_ (.cons ?_ (.cons ?_ .nil)))
  · exact member_after (by decide) (json_string hn)
  · exact member_after (by decide) (json_int _)
  · exact member_after (by decide) (json_object comma_only space_nil e2)

end Props
