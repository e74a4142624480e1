import Verif.Props.Native.GoText

/-!
# C109: names, samples
-/

namespace Props
open Py Spec Gen Model Model.Native _root_.Native

/-! ## Names in Go's case -/

theorem small_char (P : Char → Prop) (h : ∀ n : Fin 128, P (Char.ofNat n)) {c : Char} (hc : c.toNat < 128) : P c := by
  have := h ⟨c.toNat, hc⟩
  rwa [Char.ofNat_toNat] at this

theorem idChar_small {c : Char} (h : IdChar c) : c.toNat < 128 := by
  unfold IdChar IdStart at h
  rcases h with (h | h | rfl) | h
  · omega
  · omega
  · decide
  · omega

/-- An identifier character, in upper or lower case. -/
theorem plain_cases {c : Char} (h : IdChar c) : ∀ d, d = c ∨ d = c.toUpper ∨ d = c.toLower → IdChar d ∧ d ≠ '"' ∧ d ≠ '\\' ∧ 32 ≤ d.toNat := by
  have key := small_char (fun c => IdChar c → (IdChar c ∧ c ≠ '"' ∧ c ≠ '\\' ∧ 32 ≤ c.toNat) ∧
    (IdChar c.toUpper ∧ c.toUpper ≠ '"' ∧ c.toUpper ≠ '\\' ∧ 32 ≤ c.toUpper.toNat) ∧
    (IdChar c.toLower ∧ c.toLower ≠ '"' ∧ c.toLower ≠ '\\' ∧ 32 ≤ c.toLower.toNat)) (by decide +kernel) (idChar_small h) h
  rintro d (rfl | rfl | rfl)
  exacts [key.1, key.2.1, key.2.2]

theorem title_ids : ∀ {t : Text} {b : Bool}, (∀ c ∈ t, IdChar c) → ∀ c ∈ titleText b t, IdChar c
  | [], _, _, c, hc => by simp only [titleText] at hc; cases hc
  | a :: t, b, h, c, hc => by
    simp only [titleText, List.mem_cons] at hc
    rcases hc with rfl | hc
    · have := plain_cases (h a List.mem_cons_self)
      split
      · exact (this _ (.inr (.inr rfl))).1
      · exact (this _ (.inr (.inl rfl))).1
    · exact title_ids (fun c hc => h c (List.mem_cons_of_mem _ hc)) c hc

theorem split_ids : ∀ {t : Text}, (∀ c ∈ t, IdChar c) → ∀ w ∈ splitUnderscore t, ∀ c ∈ w, IdChar c
  | [], _, w, hw, c, hc => by simp only [splitUnderscore, List.mem_singleton] at hw; subst hw; cases hc
  | a :: t, h, w, hw, c, hc => by
    have ih := split_ids fun c hc => h c (List.mem_cons_of_mem _ hc)
    simp only [splitUnderscore] at hw
    split at hw
    · rcases List.mem_cons.mp hw with rfl | hw
      · cases hc
      · exact ih w hw c hc
    · split at hw
      · simp only [List.mem_singleton] at hw; subst hw
        simp only [List.mem_singleton] at hc; subst hc
        exact h c List.mem_cons_self
      · rename_i v vs he
        rcases List.mem_cons.mp hw with rfl | hw
        · rcases List.mem_cons.mp hc with rfl | hc
          · exact h c List.mem_cons_self
          · exact ih v (by rw [he]; exact List.mem_cons_self) c hc
        · exact ih w (by rw [he]; exact List.mem_cons_of_mem _ hw) c hc

/-- The names in Go's case of identifiers are plain texts. -/
theorem goCase_plain {n x : Text} (hn : ∀ c ∈ n, IdChar c) (h : goCase n = some x) : PlainText x := by
  have key : ∀ m : Text, (∀ c ∈ m, IdChar c) → (match m with
      | [] => none
      | c :: t => some (c.toUpper :: t)) = some x → PlainText x := by
    intro m hm hx
    cases m with
    | nil => cases hx
    | cons a t =>
      cases hx
      intro c hc
      rcases List.mem_cons.mp hc with rfl | hc
      · exact (plain_cases (hm a List.mem_cons_self) _ (.inr (.inl rfl))).2
      · exact (plain_cases (hm c (List.mem_cons_of_mem _ hc)) _ (.inl rfl)).2
  unfold goCase at h
  refine key _ ?_ h
  intro c hc
  split at hc
  · obtain ⟨w, h1, h2⟩ := List.mem_flatMap.mp hc
    exact title_ids (split_ids hn w h1) c h2
  · exact hn c hc

/-- Identifiers are plain texts. -/
theorem ident_plain {n : Text} (hn : ∀ c ∈ n, IdChar c) : PlainText n := fun c hc => (plain_cases (hn c hc) c (.inl rfl)).2

/-- The Go generator fails for the name `_`, which the grammar allows, and makes equal names of different ones. -/
theorem C109_counterexample_names : Ident "_".toList ∧ goCase "_".toList = none ∧ goCase "a_bC".toList = some "ABc".toList ∧
    goCase "aBc".toList = goCase "a_bc".toList := by decide +kernel

/-! ## An archive -/

def textElement : GoElement := ⟨"S".toList, 4, [⟨"f".toList, "uint32".toList, 0, 32, false⟩]⟩
def textIndex : GoElement := ⟨"IndexType8".toList, 1, [⟨"value".toList, "uint64".toList, 0, 8, false⟩]⟩

/-- A vector of two structures, an absent resource, a multivector. -/
def textFiles : Files := fun n => List.lookup n [("v", frame [1, 0, 0, 0, 2, 0, 0, 0]), ("v.schema", encodeUtf8 "v"), ("m", frame []), ("m.schema", encodeUtf8 "m"),
  ("m_index", frame [0]), ("m_index.schema", encodeUtf8 "i")]

def textResources : List RustResource := [.vector "v" "v" false none false 4, .multivector "m" "m" false none 8]

def textOpened : List (String × GoOpened) := [("v", .data (some (frame [1, 0, 0, 0, 2, 0, 0, 0]))), ("m", .multivector (some (goMultiNew (frame []) (frame [0]))))]

def textObjects : List GoObject := [.vector textElement (.mapped (frame [1, 0, 0, 0, 2, 0, 0, 0])) true,
  .multivector [textElement] textIndex (.mapped (frame [])) (.mapped (frame [0])) true]

theorem textOpens : goOpen textFiles textResources = .ok textOpened := by
  rw [C88_go_open]
  refine .vector (o := some _) ?_ (.multivector (o := some _) ⟨?_, ⟨encodeUtf8 "i", ?_⟩, fun _ => rfl⟩ (.nil _))
  · unfold GoData GoFile textFiles; decide +kernel
  · unfold GoFile textFiles goMultiNew; decide +kernel
  · unfold GoFile textFiles goMultiNew; decide +kernel

theorem textLoaded : GoLoaded textOpened textObjects :=
  .vector (d := some _) (.multivector (m := goMultiNew _ _) .nil)

theorem textFound (d : Bytes) (m : GoMulti) : AllOpen [("v", .data (some d)), ("m", .multivector (some m))] := by simp [AllOpen, Found]

theorem textNames (a b c : GoMemory) : JsonNames [.vector textElement a true, .multivector [textElement] textIndex b c true] := by
  have h1 : ElementNames textElement := by unfold ElementNames; decide +kernel
  have h2 : ElementNames textIndex := by unfold ElementNames; decide +kernel
  simp only [JsonNames, JsonNames1, List.mem_singleton, forall_eq, and_true]
  exact ⟨h1, h1, h2⟩

/-- C109 (witness). The text of an archive. -/
theorem C109_witness : goOpen textFiles textResources = .ok textOpened ∧ GoLoaded textOpened textObjects ∧ AllOpen textOpened ∧ JsonNames textObjects ∧
    (GoObject.archive "A".toList true textObjects).text = some ("{\"name\": \"A\", \"container_type\": \"Archive\", \"size_in_bytes\": 40, \"resources\": [" ++
      "{\"container_type\": \"Vector\", \"size\": 2, \"size_in_bytes\": 24, \"element_types\": [{ \"name\": \"S\", \"attributes\": [" ++
        "{\"name\": \"f\", \"offset\": 0, \"width\": 32, \"is_signed\": false}]}]}," ++
      "{\"container_type\": \"Multivector\", \"size\": 1, \"size_in_bytes\": 16, \"element_types\": [{\"name\": \"S\", \"attributes\": [" ++
        "{\"name\": \"f\", \"offset\": 0, \"width\": 32, \"is_signed\": false}]}], \"index_type\": {\"name\": \"IndexType8\", \"attributes\": [" ++
        "{\"name\": \"value\", \"offset\": 0, \"width\": 8, \"is_signed\": false}]}}]}").toList := by
  refine ⟨textOpens, textLoaded, ?_, ?_, by decide +kernel⟩
  · exact textFound _ _
  · exact textNames _ _ _

/-- A finding (N54): after `Close` the index of a multivector is still mapped. -/
theorem C109_counterexample_index : (GoObject.archive "A".toList true textObjects).close = some (.archive "A".toList true
    [.vector textElement .closed false, .multivector [textElement] textIndex .closed (.mapped (frame [0])) false]) := rfl

/-- A finding (N54): an archive with an absent optional resource can be opened, but `ToString` panics. -/
theorem C109_counterexample_absent : ∃ l ms, goOpen (fun _ => none) [.rawData "r" "r" true none] = .ok l ∧ GoLoaded l ms ∧
    (GoObject.archive "A".toList true ms).text = none :=
  ⟨[("r", .data none)], [.rawData .nil false], rfl, .rawData (d := none) .nil, rfl⟩

/-- C109 (witness). The text of a structure. -/
theorem C109_witness_structure : goStructText "S" (fun n => if n = "b" then .bool else .int 8 true) [⟨"a", 9, true⟩, ⟨"b", 1, false⟩] [255, 3] 0 =
    some "{\"name\": \"S\", \"position\": 0, \"attributes\": {\"a\": -1,\"b\": true}}".toList := by decide +kernel

end Props
