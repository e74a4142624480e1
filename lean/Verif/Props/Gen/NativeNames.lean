import Verif.Spec.NativeNames
import Verif.Props.Gen.NativeArchives

/-!
# C99: names in generated Rust code
-/

namespace Props
open Py Gen Spec Model Model.Native _root_.Native

/-! ## Letters -/

theorem upper_cases {c : Char} (h : isUpperChar c = true) : ∃ v : Fin 26, c = Char.ofNat (65 + v) := by
  have hr : 65 ≤ c.toNat ∧ c.toNat ≤ 90 := by simpa [isUpperChar] using h
  refine ⟨⟨c.toNat - 65, by omega⟩, ?_⟩
  have : 65 + (c.toNat - 65) = c.toNat := by omega
  simp only [this, Char.ofNat_toNat]

theorem lower_cases {c : Char} (h : isLowerChar c = true) : ∃ v : Fin 26, c = Char.ofNat (97 + v) := by
  have hr : 97 ≤ c.toNat ∧ c.toNat ≤ 122 := by simpa [isLowerChar] using h
  refine ⟨⟨c.toNat - 97, by omega⟩, ?_⟩
  have : 97 + (c.toNat - 97) = c.toNat := by omega
  simp only [this, Char.ofNat_toNat]

theorem idChar_char {c : Char} : IdChar c ↔ isUpperChar c = true ∨ isLowerChar c = true ∨ c = '_' ∨ (48 ≤ c.toNat ∧ c.toNat ≤ 57) := by
  unfold IdChar IdStart isUpperChar isLowerChar
  simp only [decide_eq_true_eq]
  tauto

theorem idStart_char {c : Char} : IdStart c ↔ isUpperChar c = true ∨ isLowerChar c = true ∨ c = '_' := by
  unfold IdStart isUpperChar isLowerChar
  simp only [decide_eq_true_eq]
  tauto

theorem lower_upper (c : Char) : lowerChar (upperChar c) = lowerChar c := by
  by_cases h : isLowerChar c = true
  · obtain ⟨v, rfl⟩ := lower_cases h
    revert v; decide
  · rw [upperChar, if_neg h]

theorem lower_lower (c : Char) : lowerChar (lowerChar c) = lowerChar c := by
  by_cases h : isUpperChar c = true
  · obtain ⟨v, rfl⟩ := upper_cases h
    revert v; decide
  · have : lowerChar c = c := by rw [lowerChar, if_neg h]
    rw [this, this]

theorem lower_start {c : Char} (h : IdStart c) : IdStart (lowerChar c) := by
  by_cases hu : isUpperChar c = true
  · obtain ⟨v, rfl⟩ := upper_cases hu
    revert v; decide
  · rwa [lowerChar, if_neg hu]

theorem upper_start {c : Char} (h : IdStart c) : IdStart (upperChar c) := by
  by_cases hu : isLowerChar c = true
  · obtain ⟨v, rfl⟩ := lower_cases hu
    revert v; decide
  · rwa [upperChar, if_neg hu]

theorem lower_id {c : Char} (h : IdChar c) : IdChar (lowerChar c) := by
  by_cases hu : isUpperChar c = true
  · obtain ⟨v, rfl⟩ := upper_cases hu
    revert v; decide
  · rwa [lowerChar, if_neg hu]

theorem upper_id {c : Char} (h : IdChar c) : IdChar (upperChar c) := by
  by_cases hu : isLowerChar c = true
  · obtain ⟨v, rfl⟩ := lower_cases hu
    revert v; decide
  · rwa [upperChar, if_neg hu]

theorem lower_underscore (c : Char) : lowerChar c = '_' ↔ c = '_' := by
  by_cases hu : isUpperChar c = true
  · obtain ⟨v, rfl⟩ := upper_cases hu
    revert v; decide
  · rw [lowerChar, if_neg hu]

/-! ## Names in upper camel case -/

theorem title_lower (b : Bool) (w : Text) : (titleFrom b w).map lowerChar = w.map lowerChar := by
  induction w generalizing b with
  | nil => rfl
  | cons c w ih =>
    unfold titleFrom
    split
    · rw [List.map_cons, List.map_cons, ih]
      split
      · rw [lower_upper]
      · rw [lower_lower]
    · rw [List.map_cons, List.map_cons, ih]

theorem split_letters (t : Text) : (splitUnderscores t).flatten = t.filter (· ≠ '_') := by
  induction t with
  | nil => rfl
  | cons c t ih =>
    unfold splitUnderscores
    split
    · rename_i h
      rw [List.flatten_cons, List.nil_append, ih, List.filter_cons_of_neg (by simp [h])]
    · rename_i h
      rw [List.filter_cons_of_pos (by simp [h]), ← ih]
      split
      · rename_i he
        rw [he]; rfl
      · rename_i he
        rw [he]; rfl

/-- The letters and digits of a name remain in upper camel case. -/
theorem upperCamel_letters (t : Text) : (upperCamel t).map lowerChar = plainLetters t := by
  unfold upperCamel plainLetters
  rw [← split_letters, List.map_flatMap, List.map_flatten, List.flatMap_def]
  congr 1
  exact List.map_congr_left fun w _ => title_lower true w

theorem title_id {b : Bool} {w : Text} (h : ∀ c ∈ w, IdChar c) : ∀ c ∈ titleFrom b w, IdChar c := by
  induction w generalizing b with
  | nil => simp [titleFrom]
  | cons c w ih =>
    unfold titleFrom
    have hc := h c (by simp)
    have hw := fun b => ih (b := b) fun d hd => h d (by simp [hd])
    split
    · intro d hd
      rcases List.mem_cons.mp hd with rfl | hd
      · split
        · exact upper_id hc
        · exact lower_id hc
      · exact hw _ d hd
    · intro d hd
      rcases List.mem_cons.mp hd with rfl | hd
      · exact hc
      · exact hw _ d hd

/-- A name that begins with a letter begins with an upper case letter in upper camel case. -/
theorem upperCamel_head {t : Text} (h : Ident t) (hu : t.head? ≠ some '_') : ∃ c u, upperCamel t = c :: u ∧ isUpperChar c = true := by
  obtain ⟨c, u, rfl, hc⟩ := ident_head h
  have hne : c ≠ '_' := fun e => hu (by simp [e])
  have hl : (isUpperChar c || isLowerChar c) = true := by
    rcases idStart_char.mp hc with h | h | h
    · simp [h]
    · simp [h]
    · exact absurd h hne
  have hup : isUpperChar (upperChar c) = true := by
    by_cases hlo : isLowerChar c = true
    · obtain ⟨v, hv⟩ := lower_cases hlo
      rw [hv]
      clear hv
      revert v; decide
    · rw [upperChar, if_neg hlo]
      simpa [hlo] using hl
  unfold upperCamel splitUnderscores
  rw [if_neg hne]
  cases hs : splitUnderscores u with
  | nil => exact ⟨_, _, by simp only [List.flatMap_cons, titleFrom, hl, if_true, List.cons_append]; rfl, hup⟩
  | cons w ws => exact ⟨_, _, by simp only [List.flatMap_cons, titleFrom, hl, if_true, List.cons_append]; rfl, hup⟩

theorem upperCamel_ident {t : Text} (h : Ident t) (hu : t.head? ≠ some '_') : Ident (upperCamel t) := by
  obtain ⟨c, u, he, hc⟩ := upperCamel_head h hu
  refine ⟨⟨c, by rw [he]; rfl, idStart_char.mpr (.inl hc)⟩, ?_⟩
  unfold upperCamel
  intro d hd
  obtain ⟨w, hw, hd⟩ := List.mem_flatMap.mp hd
  refine title_id (fun x hx => h.2 x ?_) d hd
  have : x ∈ (splitUnderscores t).flatten := List.mem_flatten.mpr ⟨w, hw, hx⟩
  rw [split_letters] at this
  exact (List.mem_filter.mp this).1

/-- Of the keywords only `Self` begins with an upper case letter. -/
theorem keyword_upper : ∀ k ∈ rustKeywords, k.head?.any isUpperChar = true → k = "Self".toList := by decide

theorem upperCamel_rust {t : Text} (h : Ident t) (hu : t.head? ≠ some '_') (hs : plainLetters t ≠ "self".toList) : RustIdent (upperCamel t) := by
  obtain ⟨c, u, he, hc⟩ := upperCamel_head h hu
  refine ⟨upperCamel_ident h hu, ?_, fun hk => hs ?_⟩
  · rw [he]
    intro e
    have e := (List.cons.inj (show c :: u = '_' :: [] from e)).1
    rw [e] at hc
    revert hc; decide
  · have := keyword_upper _ hk (by rw [he]; exact hc)
    rw [← upperCamel_letters, this]
    rfl

/-! ## Names in snake case and in upper case -/

theorem splitCamel_head {b : Bool} {c : Char} {t : Text} : ∃ u, splitCamel b (c :: t) = c :: u := by
  rw [splitCamel.eq_def]
  simp only
  split
  · exact ⟨_, rfl⟩
  · split
    · split
      · exact ⟨_, rfl⟩
      · exact ⟨_, rfl⟩
    · exact ⟨_, rfl⟩
    · exact ⟨_, rfl⟩

theorem camelToSnake_ident {t : Text} (h : Ident t) : Ident (camelToSnake t) := by
  obtain ⟨c, u, rfl, hc⟩ := ident_head h
  obtain ⟨v, hv⟩ := splitCamel_head (b := false) (c := c) (t := u)
  constructor
  · refine ⟨lowerChar c, ?_, lower_start hc⟩
    unfold camelToSnake
    rw [hv]; rfl
  · intro d hd
    obtain ⟨x, hx, rfl⟩ := List.mem_map.mp hd
    rcases splitCamel_mem hx with rfl | hx
    · decide
    · exact lower_id (h.2 x hx)

theorem upper_ident {t : Text} (h : Ident t) : Ident (t.map upperChar) := by
  obtain ⟨c, u, rfl, hc⟩ := ident_head h
  refine ⟨⟨upperChar c, rfl, upper_start hc⟩, fun d hd => ?_⟩
  obtain ⟨x, hx, rfl⟩ := List.mem_map.mp hd
  exact upper_id (h.2 x hx)

theorem keyword_lower : ∀ k ∈ rustKeywords, k.any isLowerChar = true := by decide

theorem shouting_keyword {t : Text} (h : Shouting t) : t ∉ rustKeywords := fun hk => by
  obtain ⟨c, hc, hl⟩ := List.any_eq_true.mp (keyword_lower t hk)
  rw [h c hc] at hl; cases hl

theorem upper_shouts (t : Text) : Shouting (t.map upperChar) := by
  intro c hc
  obtain ⟨d, _, rfl⟩ := List.mem_map.mp hc
  exact upper_not_lower d

theorem upper_only {t : Text} (h : t.map upperChar = "_".toList) : t = "_".toList := by
  match t, h with
  | [c], h =>
    have : upperChar c = '_' := by simpa using h
    rw [(upper_underscore c).mp this]; rfl
  | _ :: _ :: _, h => exact absurd (congrArg List.length h) (by simp)

theorem camelToSnake_only {t : Text} (h : camelToSnake t = "_".toList) : t = "_".toList := by
  unfold camelToSnake at h
  match t, h with
  | [c], h =>
    have : lowerChar c = '_' := by simpa [splitCamel] using h
    rw [(lower_underscore c).mp this]; rfl
  | c :: d :: u, h =>
    have h1 := congrArg List.length h
    simp only [List.length_map] at h1
    have h2 : (splitCamel false (c :: d :: u)).length ≥ 2 := by
      rw [splitCamel.eq_def]
      simp only [Bool.false_and, Bool.false_eq_true, if_false]
      match u with
      | [] => simp
      | y :: u =>
        simp only
        split
        · simp
        · obtain ⟨v, hv⟩ := splitCamel_head (b := false) (c := d) (t := y :: u)
          rw [hv]; simp
    simp at h1; omega

theorem upperName_rust {t : Text} (h : Ident t) (hu : t ≠ "_".toList) : RustIdent (upperName t) :=
  ⟨upper_ident h, fun e => hu (upper_only e), shouting_keyword (upper_shouts t)⟩

theorem rustConstName_rust {t : Text} (h : Ident t) (hu : t ≠ "_".toList) : RustIdent (rustConstName t) :=
  ⟨upper_ident (camelToSnake_ident h), fun e => hu (camelToSnake_only (upper_only e)), shouting_keyword (rustConstName_shouts t)⟩

/-! ## Escaped names -/

/-- **C99** (escaping). A name is escaped to a name of Rust, except for keywords that the generator does not know. -/
theorem C99_escaped {t : Text} (h : Ident t) : RustIdent (escapeRust t) ↔ t ∉ ["async", "await", "dyn", "try", "Self", "_"].map String.toList := by
  have h1 : ∀ k ∈ rustKeywords, k ∈ rustReserved ∨ k ∈ ["async", "await", "dyn", "try", "Self", "_"].map String.toList := by decide
  have h2 : ∀ k ∈ rustReserved, RustIdent (k ++ ['_']) ∧ k ∉ ["async", "await", "dyn", "try", "Self", "_"].map String.toList := by decide
  have h3 : ∀ k ∈ ["async", "await", "dyn", "try", "Self", "_"].map String.toList, ¬ RustIdent k ∧ k ∉ rustReserved := by decide
  unfold escapeRust
  split
  · rename_i hr
    exact iff_of_true (h2 t hr).1 (h2 t hr).2
  · rename_i hr
    constructor
    · exact fun hi hm => (h3 t hm).1 hi
    · intro hm
      refine ⟨h, fun e => hm (by rw [e]; decide), fun hk => ?_⟩
      rcases h1 t hk with h | h
      · exact hr h
      · exact hm h

/-- **C99** (escaping). Two names are escaped to the same name if one of them is a keyword and the other one is this keyword with an underscore, and not
otherwise. -/
theorem C99_escape_clash {a b : Text} (hne : a ≠ b) : escapeRust a = escapeRust b ↔ (a ∈ rustReserved ∧ b = a ++ ['_']) ∨ (b ∈ rustReserved ∧ a = b ++ ['_']) := by
  have h2 : ∀ k ∈ rustReserved, k ++ ['_'] ∉ rustReserved := by decide
  unfold escapeRust
  constructor
  · intro h
    split at h <;> split at h
    · exact absurd (List.append_inj_left' h rfl) hne
    · exact .inl ⟨by assumption, h.symm⟩
    · exact .inr ⟨by assumption, h⟩
    · exact absurd h hne
  · rintro (⟨h, rfl⟩ | ⟨h, rfl⟩)
    · rw [if_pos h, if_neg (h2 a h)]
    · rw [if_pos h, if_neg (h2 b h)]

/-! ## Structures -/

/-- Functions that every struct has. -/
def structFixed : List Text := ["new_unchecked", "new", "from_bytes", "from_bytes_mut", "from_bytes_slice", "from_bytes_slice_mut", "as_bytes", "fill_from"].map String.toList

theorem prefix_ne {u x : Text} (h : ¬ u <+: x) (y : Text) : u ++ y ≠ x := fun e => h ⟨y, e⟩

/-- Where the name of a getter comes from. -/
theorem getters_eq {t : Tree} (hc : Compiled t) {p : Path} {n : Tree} (hn : t.descend p = some n) : n.fields.flatMap rustGetters = (memberNames n).map escapeRust := by
  unfold Tree.fields Tree.childrenLike memberNames
  have hr : ∀ f ∈ n.children, RangeOk f.kind := fun f hf => hc.range _ _ (hc.child hn hf)
  generalize n.children = l at hr
  induction l with
  | nil => rfl
  | cons f l ih =>
    have ih := ih fun f hf => hr f (by simp [hf])
    have hf := hr f (by simp)
    rw [List.filter_cons, List.flatMap_cons, List.map_append, ← ih]
    cases hk : f.kind with
    | field ty rg o =>
      rw [if_pos (show (Kind.field ty rg o).isField = true from rfl), List.flatMap_cons]
      congr 1
      unfold rustGetters
      rw [hk]
      cases rg with
      | none => rfl
      | some r =>
        rw [hk] at hf
        obtain ⟨c, u, rfl, _⟩ := ident_head (show Ident r from hf)
        rfl
    | _ => rw [if_neg (by simp [Kind.isField])]; rfl

theorem memberNames_ident {t : Tree} (hc : Compiled t) {p : Path} {n : Tree} (hn : t.descend p = some n) : ∀ x ∈ memberNames n, Ident x := by
  intro x hx
  obtain ⟨f, hf, hx⟩ := List.mem_flatMap.mp hx
  have hfd := hc.child hn hf
  have hr := hc.range _ _ hfd
  cases hk : f.kind with
  | field ty rg o =>
    have hi : Ident f.name := hc.ident hfd (by simp [hk]) (by simp [hk]) (by simp [hk])
    rw [hk] at hx hr
    cases rg with
    | none =>
      simp only [List.mem_singleton] at hx
      rw [hx]; exact hi
    | some r =>
      simp only [List.mem_cons, List.not_mem_nil, or_false] at hx
      rcases hx with rfl | rfl
      · exact hi
      · exact hr
  | _ => rw [hk] at hx; cases hx

theorem field_member {n f : Tree} (hf : f ∈ n.fields) : f.name ∈ memberNames n := by
  obtain ⟨h1, h2⟩ := List.mem_filter.mp hf
  refine List.mem_flatMap.mpr ⟨f, h1, ?_⟩
  cases hk : f.kind with
  | field ty rg o => cases rg <;> simp
  | _ => rw [hk] at h2; cases h2

theorem escape_inj {a b : Text} (ha : ¬ ['_'] <:+ a) (hb : ¬ ['_'] <:+ b) (h : escapeRust a = escapeRust b) : a = b := by
  by_contra hne
  rcases (C99_escape_clash hne).mp h with ⟨_, rfl⟩ | ⟨_, rfl⟩
  · exact hb (List.suffix_append _ _)
  · exact ha (List.suffix_append _ _)

theorem escape_fixed {a x : Text} (hx : x ∈ structFixed) (ha : a ∉ rustTaken) : escapeRust a ≠ x := by
  have h1 : ∀ k ∈ rustReserved, k ++ ['_'] ∉ structFixed := by decide
  have h2 : ∀ k ∈ structFixed, k ∈ rustTaken := by decide
  unfold escapeRust
  split
  · rename_i hr
    exact fun e => h1 a hr (e ▸ hx)
  · exact fun e => ha (e ▸ h2 x hx)

theorem escape_set {a : Text} (ha : ¬ "set_".toList <+: a) (y : Text) : escapeRust a ≠ "set_".toList ++ y := by
  have h1 : ∀ k ∈ rustReserved, ¬ "set_".toList <+: k ++ ['_'] := by decide
  unfold escapeRust
  split
  · rename_i hr
    exact fun e => h1 a hr ⟨y, e.symm⟩
  · exact fun e => ha ⟨y, e.symm⟩

theorem ident_append {a b : Text} (ha : Ident a) (hb : ∀ c ∈ b, IdChar c) : Ident (a ++ b) := by
  obtain ⟨c, u, rfl, hc⟩ := ident_head ha
  refine ⟨⟨c, rfl, hc⟩, fun d hd => ?_⟩
  rcases List.mem_append.mp hd with h | h
  · exact ha.2 d h
  · exact hb d h

/-- Something behind a prefix is a name of Rust, if it consists of the right characters. -/
theorem prefixed_rust {u y : Text} (hu : Ident u) (h1 : u ≠ "_".toList) (hk : ∀ k ∈ rustKeywords, ¬ u <+: k) (hy : ∀ c ∈ y, IdChar c) : RustIdent (u ++ y) := by
  refine ⟨ident_append hu hy, ?_, fun h => hk _ h (List.prefix_append _ _)⟩
  intro e
  obtain ⟨c, v, rfl, _⟩ := ident_head hu
  have := congrArg List.length e
  simp only [List.cons_append, List.length_cons, List.length_append] at this
  cases v with
  | nil =>
    cases y with
    | nil => exact h1 (by simpa using e)
    | cons => simp at this
  | cons => simp at this

theorem struct_names {s : Text} {t : Tree} (h : Compile s (.ok t)) (hr : RustMembersNameable t) {p : Path} {n : Tree} {sz : Option Nat}
    (hn : t.descend p = some n) (hk : n.kind = .structure sz) : RustItemOk (rustStructNames p n) := by
  have hc := compile_compiled h
  obtain ⟨hnd, hok⟩ := hr.fields p n sz hn hk
  have hid := memberNames_ident hc hn
  have hname : Ident n.name := hc.ident hn (by simp [hk]) (by simp [hk]) (by simp [hk])
  obtain ⟨t1, t2, _⟩ := hr.types p n hn (.inl ⟨sz, hk⟩)
  have hg := getters_eq hc hn
  have hesc : ∀ x ∈ memberNames n, RustIdent (escapeRust x) := by
    intro x hx
    refine (C99_escaped (hid x hx)).mpr fun hm => (hok x hx).1 ?_
    have : ∀ y ∈ ["async", "await", "dyn", "try", "Self", "_"].map String.toList, y ∈ rustTaken := by decide
    exact this x hm
  have hset : ∀ x ∈ memberNames n, RustIdent ("set_".toList ++ escapeRust x) := fun x hx =>
    prefixed_rust (by decide) (by decide) (by decide) (hesc x hx).1.2
  have hfixed : ∀ b : Bool, ∀ x ∈ "new_unchecked".toList :: (if b then [] else
      ["new", "from_bytes", "from_bytes_mut", "from_bytes_slice", "from_bytes_slice_mut", "as_bytes"].map String.toList), x ∈ structFixed ∧ x ≠ "fill_from".toList := by
    intro b; cases b <;> decide
  refine ⟨⟨hname, t1, t2⟩, ?_, ?_, ?_, ?_, ?_⟩
  · have f1 : ∀ x ∈ structFixed, RustIdent x := by decide
    intro y hy
    unfold rustStructNames at hy
    simp only [List.append_nil, List.cons_append, List.nil_append, List.mem_cons, List.mem_append, List.mem_map, hg, List.not_mem_nil, or_false] at hy
    rcases hy with rfl | rfl | ((hy | ⟨x, hx, rfl⟩) | ⟨f, hf, rfl⟩) | rfl
    · decide
    · decide
    · exact f1 y (hfixed (n.fields.any fieldHasRange) y (List.mem_cons_of_mem _ hy)).1
    · exact hesc x hx
    · exact hset _ (field_member hf)
    · decide
  · exact List.nodup_singleton _
  · unfold rustStructNames
    simp only [hg]
    have n1 : ("new_unchecked".toList :: (if n.fields.any fieldHasRange then [] else
      ["new", "from_bytes", "from_bytes_mut", "from_bytes_slice", "from_bytes_slice_mut", "as_bytes"].map String.toList)).Nodup := by
      cases n.fields.any fieldHasRange <;> decide
    have n2 : ((memberNames n).map escapeRust).Nodup := List.Nodup.map_on (fun a ha b hb e => escape_inj (hok a ha).2.1 (hok b hb).2.1 e) hnd
    have n3 : (n.fields.map fun f => "set_".toList ++ escapeRust f.name).Nodup := by
      have hch : (n.children.map Tree.name).Nodup := (descend_good hc.lk.good hn).nodup
      refine List.Nodup.map_on (fun a ha b hb e => ?_) (List.Nodup.filter _ (List.Nodup.of_map _ hch))
      have := escape_inj (hok _ (field_member ha)).2.1 (hok _ (field_member hb)).2.1 (List.append_cancel_left e)
      exact List.inj_on_of_nodup_map hch (List.mem_filter.mp ha).1 (List.mem_filter.mp hb).1 this
    rw [List.nodup_append, List.nodup_append, List.nodup_append]
    refine ⟨⟨⟨n1, n2, ?_⟩, n3, ?_⟩, List.nodup_singleton _, ?_⟩
    · intro a ha b hb e
      obtain ⟨x, hx, rfl⟩ := List.mem_map.mp hb
      exact escape_fixed (hfixed _ a ha).1 (hok x hx).1 e.symm
    · intro a ha b hb e
      obtain ⟨f, hf, rfl⟩ := List.mem_map.mp hb
      rcases List.mem_append.mp ha with ha | ha
      · have f2 : ∀ x ∈ structFixed, ¬ "set_".toList <+: x := by decide
        exact prefix_ne (f2 a (hfixed _ a ha).1) _ e.symm
      · obtain ⟨x, hx, rfl⟩ := List.mem_map.mp ha
        exact escape_set (hok x hx).2.2 _ e
    · intro a ha b hb e
      rw [List.mem_singleton] at hb
      subst hb
      rcases List.mem_append.mp ha with ha | ha
      · rcases List.mem_append.mp ha with ha | ha
        · exact (hfixed _ a ha).2 e
        · obtain ⟨x, hx, rfl⟩ := List.mem_map.mp ha
          exact escape_fixed (by decide) (hok x hx).1 e
      · obtain ⟨f, hf, rfl⟩ := List.mem_map.mp ha
        exact prefix_ne (by decide) _ e
  · exact List.nodup_nil
  · intro ty hty
    obtain ⟨f, hf, hty⟩ := List.mem_flatMap.mp (show ty ∈ n.fields.flatMap rustRangeType from hty)
    have hfd := hc.child hn (List.mem_filter.mp hf).1
    have b1 : ∀ b : BasicName, (rustBuiltin b.text).isSome := by intro b; cases b <;> decide
    unfold rustRangeType at hty
    split at hty
    · rw [List.mem_singleton] at hty
      rw [hty]; exact b1 _
    · rename_i hk
      exact absurd hk (hr.ranges _ _ _ _ _ _ hfd)
    · cases hty

/-! ## Enumerations -/

theorem enum_names {s : Text} {t : Tree} (h : Compile s (.ok t)) (hr : RustMembersNameable t) {p : Path} {n : Tree} {b : BasicType}
    (hn : t.descend p = some n) (hk : n.kind = .enumeration b) : RustItemOk (rustEnumNames p n) := by
  have hc := compile_compiled h
  obtain ⟨hinj, hok⟩ := hr.values p n b hn hk
  have hname : Ident n.name := hc.ident hn (by simp [hk]) (by simp [hk]) (by simp [hk])
  obtain ⟨t1, t2, _⟩ := hr.types p n hn (.inr (.inl ⟨b, hk⟩))
  have he : (rustEnumNames p n).fields = (n.children.filter fun c => c.kind.enumeratorValue.isSome).map fun c => upperCamel c.name := by
    unfold rustEnumNames
    simp only
    induction n.children with
    | nil => rfl
    | cons c l ih =>
      rw [List.filterMap_cons, List.filter_cons]
      split <;> rename_i h1
      · split at h1
        · cases h1
        · rename_i h2
          rw [if_neg h2, ih]
      · split at h1
        · rename_i h2
          cases h1
          rw [if_pos h2, ih]; rfl
        · cases h1
  refine ⟨⟨hname, t1, t2⟩, ?_, ?_, List.nodup_nil, List.nodup_nil, fun ty hty => absurd hty (by simp [rustEnumNames])⟩
  · intro y hy
    rw [show (rustEnumNames p n).functions = [] from rfl, show (rustEnumNames p n).locals = [] from rfl, List.append_nil, List.append_nil, he] at hy
    obtain ⟨c, hcm, rfl⟩ := List.mem_map.mp hy
    obtain ⟨hm, hv⟩ := List.mem_filter.mp hcm
    obtain ⟨v1, v2⟩ := hok c hm
    refine upperCamel_rust (hc.ident (hc.child hn hm) ?_ ?_ ?_) v1 v2
    · intro rk e; rw [e] at hv; cases hv
    · intro e; rw [e] at hv; cases hv
    · intro e; rw [e] at hv; cases hv
  · rw [he]
    have hch : (n.children.map Tree.name).Nodup := (descend_good hc.lk.good hn).nodup
    refine List.Nodup.map_on (fun a ha b hb e => ?_) (List.Nodup.filter _ (List.Nodup.of_map _ hch))
    refine hinj a (List.mem_filter.mp ha).1 b (List.mem_filter.mp hb).1 ?_
    rw [← upperCamel_letters, ← upperCamel_letters, e]

/-! ## Archives -/

theorem suffixed_rust {x y : Text} (hx : Ident x) (hy : ∀ c ∈ y, IdChar c) (h1 : ¬ y <:+ "_".toList) (hk : ∀ k ∈ rustKeywords, ¬ y <:+ k) : RustIdent (x ++ y) :=
  ⟨ident_append hx hy, fun e => h1 (e ▸ List.suffix_append _ _), fun h => hk _ h (List.suffix_append _ _)⟩

theorem simple_ok {x : RustNames} (h : RustIdent x.name) (h1 : x.fields = []) (h2 : x.functions = []) (h3 : x.locals = []) (h4 : x.readTypes = []) : RustItemOk x :=
  ⟨h, by simp [h1, h2, h3], by simp [h1], by simp [h2], by simp [h3], by simp [h4]⟩

section
variable {source : Text} {blocks : List PBlock} {t : Tree} (hs : parseSource source = .ok blocks) (h : Compile source (.ok t)) (hf : Flat t) (hb : NoBuiltin t)
  (hno : ∀ b ∈ blocks, NoBuiltinEnd (splitDot b.name))
include hs h hf hb hno

theorem rustElements_eq {q : Path} {r : Tree} {w : Nat} {o : Bool} {m : Option Nat} (hr : t.descend q = some r) (hrk : r.kind = .resource (.multivector w) o m) :
    rustElements t r = childrenOf r (.ref .structure) := by
  obtain ⟨_, h2, _, h4⟩ := resource_refs h hr hrk
  obtain ⟨ref, e1, e3, e4⟩ := h2 w rfl
  unfold rustElements referencedStructures
  rw [childrenLike_eq, childrenLike_eq, e1, List.filter_append]
  have hi : isIndexPath t ref.targetPath = true := by
    obtain ⟨_, _, _, _, x, h8, sz, h9⟩ := h4 .builtinStructure ref (by rw [e1]; simp)
    rcases index_iff hs h hf hno h8 (by rw [h9]; rfl) with ⟨h0, _⟩ | ⟨_, h0⟩
    · exact h0
    · rw [e4] at h0
      refine absurd ?_ h0
      have : indexTypePath q w = (q.dropLast.dropLast ++ ["_builtin".toList, "multivector".toList]) ++ ["IndexType".toList ++ natText w] := by
        simp only [indexTypePath, List.append_assoc, List.cons_append, List.nil_append]
      rw [this, List.dropLast_concat]
      simp
  rw [List.filter_cons_of_neg (by simp [hi]), List.filter_nil, List.nil_append, List.filter_eq_self]
  intro ref' hm
  rw [element_not_index hs h hf hb hno hr hrk hm]; rfl

theorem variadic_names (hr : RustArchivesNameable t) (hm : RustMembersNameable t) {p q : Path} {r : Tree} (hrd : t.descend q = some r) :
    ∀ x ∈ rustVariadicNames t p r, RustItemOk x := by
  have hc := compile_compiled h
  unfold rustVariadicNames
  split
  · rename_i w o m hk
    obtain ⟨v1, _, v2⟩ := hm.multivectors q r w o m hrd hk
    have hi : Ident r.name := hc.ident hrd (by simp [hk]) (by simp [hk]) (by simp [hk])
    have hv := upperCamel_rust hi v1 v2
    have hel := rustElements_eq hs h hf hb hno hrd hk
    obtain ⟨_, _, _, h4⟩ := resource_refs h hrd hk
    have hnd := hr.elements q r w o m hrd hk
    have hnames : ∀ ref ∈ childrenOf r (.ref .structure), ∃ x sz, t.descend ref.targetPath = some x ∧ x.kind = .structure sz ∧ ref.targetPath.getLastD [] = x.name := by
      intro ref href
      obtain ⟨_, _, _, _, x, h8, sz, h9⟩ := h4 .structure ref href
      obtain ⟨ns, k, e1, e2, _⟩ := hc.namespaces hf h8 (by rw [h9]; rfl)
      exact ⟨x, sz, h8, h9, by rw [e1, e2, List.getLastD_concat]⟩
    have hid : ∀ ref ∈ childrenOf r (.ref .structure), RustIdent (ref.targetPath.getLastD []) := by
      intro ref href
      obtain ⟨x, sz, h8, h9, he⟩ := hnames ref href
      obtain ⟨t1, t2, _⟩ := hm.types _ x h8 (.inl ⟨sz, h9⟩)
      rw [he]
      exact ⟨hc.ident h8 (by simp [h9]) (by simp [h9]) (by simp [h9]), t1, t2⟩
    have hndm : ((childrenOf r (.ref .structure)).map fun ref => ref.targetPath.getLastD []).Nodup := by
      have : (((childrenOf r (.ref .structure)).map fun ref => ref.targetPath.getLastD []).map camelToSnake).Nodup := by
        rw [List.map_map]; exact hnd
      exact List.Nodup.of_map _ this
    intro x hx
    simp only [hel, List.mem_cons, List.not_mem_nil, or_false] at hx
    rcases hx with rfl | rfl | rfl
    · exact simple_ok hv rfl rfl rfl rfl
    · refine ⟨suffixed_rust hv.1 (by decide) (by decide) (by decide), ?_, hndm, List.nodup_nil, List.nodup_nil, by simp⟩
      intro y hy
      simp only [List.append_nil, List.mem_map] at hy
      obtain ⟨ref, href, rfl⟩ := hy
      exact hid ref href
    · refine ⟨suffixed_rust hv.1 (by decide) (by decide) (by decide), ?_, List.nodup_singleton _, ?_, List.nodup_nil, by simp⟩
      · intro y hy
        simp only [List.append_nil, List.singleton_append, List.mem_cons, List.mem_map] at hy
        rcases hy with rfl | ⟨_, ⟨ref, href, rfl⟩, rfl⟩
        · decide
        · exact prefixed_rust (by decide) (by decide) (by decide) (camelToSnake_ident (hid ref href).1).2
      · simp only [List.map_map]
        refine List.Nodup.map_on (fun a ha b hb e => ?_) (List.Nodup.of_map _ hnd)
        exact List.inj_on_of_nodup_map hnd ha hb (List.append_cancel_left e)
  · simp

/-- The functions of builders have different names. -/
theorem builder_nodup {l : List Tree} (hl : (l.map Tree.name).Nodup) (hk : ∀ r ∈ l, ∀ o m, r.kind = .resource .archive o m →
    r.name ≠ "new".toList ∧ ¬ "set_".toList <+: r.name ∧ ¬ "start_".toList <+: r.name) : (l.flatMap rustBuilderFunctions ++ ["new".toList]).Nodup := by
  have key : ∀ r x, x ∈ rustBuilderFunctions r → x = "set_".toList ++ r.name ∨ x = "start_".toList ++ r.name ∨ (x = r.name ∧ ∃ o m, r.kind = .resource .archive o m) := by
    intro r x hx
    unfold rustBuilderFunctions at hx
    split at hx
    all_goals first | cases hx; done | skip
    · exact .inl (by simpa using hx)
    · exact .inl (by simpa using hx)
    · simp only [List.mem_cons, List.not_mem_nil, or_false] at hx
      rcases hx with rfl | rfl
      · exact .inl rfl
      · exact .inr (.inl rfl)
    · exact .inr (.inl (by simpa using hx))
    · rename_i hk
      exact .inr (.inr ⟨by simpa using hx, _, _, hk⟩)
  have hst : ∀ a b : Text, "set_".toList ++ a ≠ "start_".toList ++ b := by
    intro a b e
    have := (List.cons.inj (List.cons.inj e).2).1
    revert this; decide
  rw [List.nodup_append]
  refine ⟨?_, List.nodup_singleton _, ?_⟩
  · induction l with
    | nil => exact List.nodup_nil
    | cons r l ih =>
      rw [List.map_cons, List.nodup_cons] at hl
      rw [List.flatMap_cons, List.nodup_append]
      refine ⟨?_, ih hl.2 fun r hr => hk r (by simp [hr]), ?_⟩
      · unfold rustBuilderFunctions
        split
        all_goals first | exact List.nodup_nil | exact List.nodup_singleton _ | skip
        rw [List.nodup_cons]
        exact ⟨by simpa using hst _ _, List.nodup_singleton _⟩
      · intro a ha b hb e
        subst e
        obtain ⟨r', hr', hb⟩ := List.mem_flatMap.mp hb
        have hne : r.name ≠ r'.name := fun e => hl.1 (List.mem_map.mpr ⟨r', hr', e.symm⟩)
        have hka := fun o m (e : r.kind = .resource .archive o m) => hk r (by simp) o m e
        have hkb := fun o m (e : r'.kind = .resource .archive o m) => hk r' (by simp [hr']) o m e
        rcases key r a ha with h1 | h1 | ⟨h1, o, m, h1'⟩ <;> rcases key r' a hb with h2 | h2 | ⟨h2, o', m', h2'⟩ <;> rw [h1] at h2
        · exact hne (List.append_cancel_left h2)
        · exact hst _ _ h2
        · exact (hkb _ _ h2').2.1 ⟨_, h2⟩
        · exact hst _ _ h2.symm
        · exact hne (List.append_cancel_left h2)
        · exact (hkb _ _ h2').2.2 ⟨_, h2⟩
        · exact (hka _ _ h1').2.1 ⟨_, h2.symm⟩
        · exact (hka _ _ h1').2.2 ⟨_, h2.symm⟩
        · exact hne h2
  · intro a ha b hb e
    rw [List.mem_singleton] at hb
    subst hb
    obtain ⟨r, hr, ha⟩ := List.mem_flatMap.mp ha
    rcases key r a ha with h1 | h1 | ⟨h1, o, m, h1'⟩
    · exact prefix_ne (by decide) _ (h1.symm.trans e)
    · exact prefix_ne (by decide) _ (h1.symm.trans e)
    · exact (hk r hr o m h1').1 (h1.symm.trans e)

theorem archive_names (hr : RustArchivesNameable t) (hm : RustMembersNameable t) {p : Path} {n : Tree} (hn : t.descend p = some n) (hk : n.kind = .archive) :
    ∀ x ∈ rustArchiveNames t p n, RustItemOk x := by
  have hc := compile_compiled h
  have hname : Ident n.name := hc.ident hn (by simp [hk]) (by simp [hk]) (by simp [hk])
  obtain ⟨t1, t2, _⟩ := hm.types p n hn (.inr (.inr hk))
  have hch : (n.children.map Tree.name).Nodup := (descend_good hc.lk.good hn).nodup
  have hres : (n.plainResources.map Tree.name).Nodup := by
    refine List.Nodup.map_on (fun a ha b hb e => ?_) (List.Nodup.filter _ (List.Nodup.of_map _ hch))
    exact List.inj_on_of_nodup_map hch (List.mem_filter.mp ha).1 (List.mem_filter.mp hb).1 e
  have hid : ∀ r ∈ n.plainResources, Ident r.name ∧ r.name ∉ rustKeywords ∧ r.name ∉ ["_", "_storage", "signature_name", "open", "storage", "extend"].map String.toList := by
    intro r hrm
    obtain ⟨hrc, k, o, m, hrk, _⟩ := plain_resource hrm
    refine ⟨hc.ident (hc.child hn hrc) (by simp [hrk]) (by simp [hrk]) (by simp [hrk]), ?_⟩
    rw [show n.plainResources = resourcesOf n from plainResources_eq n] at hrm
    exact hm.resources p n hn hk r hrm
  have hri : ∀ r ∈ n.plainResources, RustIdent r.name := fun r hrm =>
    ⟨(hid r hrm).1, fun e => (hid r hrm).2.2 (by rw [e]; decide), (hid r hrm).2.1⟩
  have hnot : ∀ x ∈ ["_", "_storage", "signature_name", "open", "storage", "extend"].map String.toList, x ∉ n.plainResources.map Tree.name := by
    intro x hx hxm
    obtain ⟨r, hrm, rfl⟩ := List.mem_map.mp hxm
    exact (hid r hrm).2.2 hx
  intro x hx
  unfold rustArchiveNames at hx
  simp only [List.cons_append, List.mem_cons, List.mem_append, List.mem_map, List.mem_flatMap] at hx
  rcases hx with rfl | rfl | rfl | rfl | rfl | ⟨r, hrm, rfl⟩ | ⟨r, hrm, hx⟩
  · refine ⟨⟨hname, t1, t2⟩, ?_, ?_, ?_, ?_, by simp⟩
    · intro y hy
      simp only [List.cons_append, List.append_assoc, List.mem_cons, List.mem_append, List.mem_map, List.nil_append] at hy
      have : (∃ r ∈ n.plainResources, r.name = y) ∨ y ∈ ["_storage", "signature_name", "open", "storage", "extend"].map String.toList := by
        simp only [List.map_cons, List.map_nil, List.mem_cons, List.not_mem_nil, or_false] at hy ⊢
        rcases hy with hy | hy | hy | hy | hy | hy | hy | hy <;> simp only [hy, true_or, or_true]
      rcases this with ⟨r, hrm, rfl⟩ | hy
      · exact hri r hrm
      · have : ∀ y ∈ ["_storage", "signature_name", "open", "storage", "extend"].map String.toList, RustIdent y := by decide
        exact this y hy
    · exact List.nodup_cons.mpr ⟨hnot _ (by decide), hres⟩
    · show ("signature_name".toList :: n.plainResources.map (·.name) ++ ["open".toList]).Nodup
      rw [List.nodup_append]
      refine ⟨List.nodup_cons.mpr ⟨hnot _ (by decide), hres⟩, List.nodup_singleton _, ?_⟩
      intro a ha b hb e
      rw [List.mem_singleton] at hb
      subst hb; subst e
      rcases List.mem_cons.mp ha with ha | ha
      · revert ha; decide
      · exact hnot _ (by decide) ha
    · refine List.nodup_cons.mpr ⟨?_, List.nodup_cons.mpr ⟨hnot _ (by decide), hres⟩⟩
      rw [List.mem_cons]
      rintro (he | he)
      · revert he; decide
      · exact hnot _ (by decide) he
  · refine ⟨suffixed_rust hname (by decide) (by decide) (by decide), ?_, List.nodup_singleton _, ?_, List.nodup_nil, by simp⟩
    · intro y hy
      simp only [List.append_nil, List.singleton_append, List.mem_cons, List.mem_append, List.mem_flatMap, List.not_mem_nil, or_false] at hy
      rcases hy with rfl | ⟨r, hrm, hy⟩ | rfl
      · decide
      · unfold rustBuilderFunctions at hy
        have hset := prefixed_rust (u := "set_".toList) (by decide) (by decide) (by decide) (hid r hrm).1.2
        have hstart := prefixed_rust (u := "start_".toList) (by decide) (by decide) (by decide) (hid r hrm).1.2
        split at hy
        all_goals simp only [List.mem_cons, List.not_mem_nil, or_false] at hy
        · rw [hy]; exact hset
        · rw [hy]; exact hset
        · rcases hy with rfl | rfl
          · exact hset
          · exact hstart
        · rw [hy]; exact hstart
        · rw [hy]; exact hri r hrm
      · decide
    · refine builder_nodup hs h hf hb hno hres fun r hrm o m hrk => ?_
      exact hm.subarchives _ r o m (hc.child hn (plain_resource hrm).1) hrk
  · exact simple_ok ⟨camelToSnake_ident hname, fun e => t1 (camelToSnake_only e), hm.archives p n hn hk⟩ rfl rfl rfl rfl
  · exact simple_ok (rustConstName_rust hname t1) rfl rfl rfl rfl
  · exact simple_ok (by show RustIdent "resources".toList; decide) rfl rfl rfl rfl
  · exact simple_ok (upperName_rust (hid r hrm).1 (hri r hrm).2.1) rfl rfl rfl rfl
  · exact variadic_names hs h hf hb hno hr hm (hc.child hn (plain_resource hrm).1) x hx

omit hs hb hno hf in
theorem names_mem {x : RustNames} : x ∈ rustAllNames t → ∃ p n, t.descend p = some n ∧ x ∈ rustNames t (p, n) := by
  have hc := compile_compiled h
  unfold rustAllNames rustNodes
  simp only [List.mem_flatMap, List.mem_filter, Prod.exists]
  rintro ⟨p, n, ⟨h1, h2⟩, h3⟩
  exact ⟨p, n, (iter_descend hc.lk.good).mp h1, h3⟩

theorem names_items (hr : RustArchivesNameable t) (hm : RustMembersNameable t) : ∀ x ∈ rustAllNames t, RustItemOk x := by
  have hc := compile_compiled h
  intro x hx
  obtain ⟨p, n, hn, hx⟩ := names_mem h hx
  unfold rustNames at hx
  cases hk : n.kind with
  | «namespace» =>
    simp only [hk, List.mem_cons, List.not_mem_nil, or_false] at hx
    rcases hx with rfl | rfl | rfl
    · exact simple_ok (hm.namespaces p n hn hk).1 rfl rfl rfl rfl
    · exact simple_ok (by show RustIdent "schema".toList; decide) rfl rfl rfl rfl
    · exact simple_ok (by show RustIdent "flatdata_read_bytes".toList; decide) rfl rfl rfl rfl
  | «structure» sz =>
    simp only [hk, List.mem_singleton] at hx
    rw [hx]; exact struct_names h hm hn hk
  | enumeration b =>
    simp only [hk, List.mem_singleton] at hx
    rw [hx]; exact enum_names h hm hn hk
  | archive =>
    simp only [hk] at hx
    exact archive_names hs h hf hb hno hr hm hn hk x hx
  | constant b v =>
    simp only [hk, List.mem_singleton] at hx
    rw [hx]
    exact simple_ok (rustConstName_rust (hc.ident hn (by simp [hk]) (by simp [hk]) (by simp [hk])) (hm.constants p n b v hn hk)) rfl rfl rfl rfl
  | _ => simp only [hk, List.not_mem_nil] at hx

omit hs hb hno in
theorem def_parent {p : Path} {n : Tree} (hn : t.descend p = some n) (hd : Spec.Kind.isDefinition n.kind = true) :
    ∃ m, t.descend p.dropLast = some m ∧ m.kind = .namespace ∧ n ∈ m.children := by
  have hc := compile_compiled h
  obtain ⟨ns, k, rfl, rfl, hne, _⟩ := hc.namespaces hf hn hd
  obtain ⟨m, h1, h2, h3⟩ := hc.parents ns n.name n hn
  rw [List.dropLast_concat]
  exact ⟨m, h1, h3.1 hd, h2⟩

omit hs hb hno in
/-- What uses bare names is in a namespace. -/
theorem names_uses {x : RustNames} (hx : x ∈ rustAllNames t) : x.uses = [] ∨ ((∀ u ∈ x.uses, u ∈ rustUsed) ∧ ∃ m, t.descend x.scope = some m ∧ m.kind = .namespace) := by
  obtain ⟨p, n, hn, hx⟩ := names_mem h hx
  have h1 : ∀ u ∈ rustBareNames, u ∈ rustUsed := by decide
  have h2 : ∀ u ∈ ["flatdata".toList], u ∈ rustUsed := by decide
  have hpar := fun hd => (def_parent h hf hn hd).imp fun m hm => And.intro hm.1 hm.2.1
  unfold rustNames at hx
  cases hk : n.kind with
  | «namespace» =>
    simp only [hk, List.mem_cons, List.not_mem_nil, or_false] at hx
    rcases hx with rfl | rfl | rfl
    · exact .inl rfl
    · exact .inl rfl
    · exact .inr ⟨h2, n, hn, hk⟩
  | «structure» sz =>
    simp only [hk, List.mem_singleton] at hx
    rw [hx]; exact .inr ⟨h1, hpar (by rw [hk]; rfl)⟩
  | enumeration b =>
    simp only [hk, List.mem_singleton] at hx
    rw [hx]; exact .inr ⟨h1, hpar (by rw [hk]; rfl)⟩
  | archive =>
    simp only [hk] at hx
    have hpar := hpar (by rw [hk]; rfl)
    unfold rustArchiveNames at hx
    simp only [List.cons_append, List.mem_cons, List.mem_append, List.mem_map, List.mem_flatMap] at hx
    rcases hx with rfl | rfl | rfl | rfl | rfl | ⟨r, hrm, rfl⟩ | ⟨r, hrm, hx⟩
    · exact .inr ⟨h1, hpar⟩
    · exact .inr ⟨h1, hpar⟩
    · exact .inl rfl
    · exact .inl rfl
    · exact .inl rfl
    · exact .inl rfl
    · unfold rustVariadicNames at hx
      split at hx
      · simp only [List.mem_cons, List.not_mem_nil, or_false] at hx
        rcases hx with rfl | rfl | rfl <;> exact .inr ⟨h1, hpar⟩
      · cases hx
  | constant b v =>
    simp only [hk, List.mem_singleton] at hx
    rw [hx]; exact .inr ⟨h1, hpar (by rw [hk]; rfl)⟩
  | _ => simp only [hk, List.not_mem_nil] at hx

omit hs hb hno in
/-- Where names of items come from. -/
theorem names_hide (hm : RustMembersNameable t) {y : RustNames} (hy : y ∈ rustAllNames t) (hyc : y.isConstant = false) :
    y.name ∉ rustUsed ∨ y.scope = [] ∨ ∃ a m c, t.descend a = some m ∧ m.kind = .namespace ∧ y.scope = a ++ "schema".toList :: c := by
  have hc := compile_compiled h
  obtain ⟨p, n, hn, hy⟩ := names_mem h hy
  have hsuf : ∀ x : Text, x ++ "Builder".toList ∉ rustUsed ∧ x ++ "Ref".toList ∉ rustUsed := by
    have : ∀ u ∈ rustUsed, ¬ "Builder".toList <:+ u ∧ ¬ "Ref".toList <:+ u := by decide
    exact fun x => ⟨fun hx => (this _ hx).1 (List.suffix_append _ _), fun hx => (this _ hx).2 (List.suffix_append _ _)⟩
  have hpar := fun hd => def_parent h hf hn hd
  unfold rustNames at hy
  cases hk : n.kind with
  | «namespace» =>
    simp only [hk, List.mem_cons, List.not_mem_nil, or_false] at hy
    rcases hy with rfl | rfl | rfl
    · by_cases hp : p.dropLast = []
      · exact .inr (.inl hp)
      · exact .inl ((hm.namespaces p n hn hk).2 hp)
    · exact .inl (by show "schema".toList ∉ rustUsed; decide)
    · exact .inl (by show "flatdata_read_bytes".toList ∉ rustUsed; decide)
  | «structure» sz =>
    simp only [hk, List.mem_singleton] at hy
    rw [hy]; exact .inl (hm.types p n hn (.inl ⟨_, hk⟩)).2.2
  | enumeration b =>
    simp only [hk, List.mem_singleton] at hy
    rw [hy]; exact .inl (hm.types p n hn (.inr (.inl ⟨_, hk⟩))).2.2
  | archive =>
    simp only [hk] at hy
    obtain ⟨m, p1, p2, _⟩ := hpar (by rw [hk]; rfl)
    unfold rustArchiveNames at hy
    simp only [List.cons_append, List.mem_cons, List.mem_append, List.mem_map, List.mem_flatMap] at hy
    rcases hy with rfl | rfl | rfl | rfl | rfl | ⟨r, hrm, rfl⟩ | ⟨r, hrm, hy⟩
    · exact .inl (hm.types p n hn (.inr (.inr hk))).2.2
    · exact .inl (hsuf _).1
    · exact .inr (.inr ⟨_, m, [], p1, p2, rfl⟩)
    · cases hyc
    · exact .inr (.inr ⟨_, m, [rustSchemaModule n.name], p1, p2, by simp⟩)
    · cases hyc
    · unfold rustVariadicNames at hy
      split at hy
      · rename_i w o m' hrk
        simp only [List.mem_cons, List.not_mem_nil, or_false] at hy
        rcases hy with rfl | rfl | rfl
        · exact .inl (hm.multivectors _ r w o m' (hc.child hn (plain_resource hrm).1) hrk).2.1
        · exact .inl (hsuf _).2
        · exact .inl (hsuf _).1
      · cases hy
  | constant b v =>
    simp only [hk, List.mem_singleton] at hy
    rw [hy] at hyc; cases hyc
  | _ => simp only [hk, List.not_mem_nil] at hy

/-- **C99**. A Rust compiler accepts the names in the code that is generated for a schema: they are identifiers, no two members of a type have the same
name, nothing hides what the code uses. -/
theorem C99_rust (hr : RustArchivesNameable t) (hm : RustMembersNameable t) : RustNamesOk (rustAllNames t) := by
  have hc := compile_compiled h
  refine ⟨names_items hs h hf hb hno hr hm, ?_, ?_⟩
  · intro x hx y hy he hyc hmem
    rcases names_uses h hf hx with h0 | ⟨h1, m, h2, h3⟩
    · rw [h0] at hmem; cases hmem
    · rcases names_hide h hf hm hy hyc with h4 | h4 | ⟨a, m', c, h4, h5, h6⟩
      · exact h4 (h1 _ hmem)
      · rw [← he, h4] at h2
        cases h2
        rw [hc.rootKind] at h3; cases h3
      · exact no_schema_prefix h hf hr h4 h5 h2 h3 (he ▸ h6)
  · intro x hx c hcm hcc he hmem
    obtain ⟨p, n, hn, hx⟩ := names_mem h hx
    have key : x.locals = [] ∨ (n.kind = .archive ∧ x.scope = p.dropLast ∧ x.locals = "storage".toList :: "extend".toList :: n.plainResources.map (·.name)) := by
      unfold rustNames at hx
      cases hk : n.kind with
      | «namespace» =>
        simp only [hk, List.mem_cons, List.not_mem_nil, or_false] at hx
        rcases hx with rfl | rfl | rfl <;> exact .inl rfl
      | archive =>
        simp only [hk] at hx
        unfold rustArchiveNames at hx
        simp only [List.cons_append, List.mem_cons, List.mem_append, List.mem_map, List.mem_flatMap] at hx
        rcases hx with rfl | rfl | rfl | rfl | rfl | ⟨r, hrm, rfl⟩ | ⟨r, hrm, hx⟩
        · exact .inr ⟨rfl, rfl, rfl⟩
        · exact .inl rfl
        · exact .inl rfl
        · exact .inl rfl
        · exact .inl rfl
        · exact .inl rfl
        · unfold rustVariadicNames at hx
          split at hx
          · simp only [List.mem_cons, List.not_mem_nil, or_false] at hx
            rcases hx with rfl | rfl | rfl <;> exact .inl rfl
          · cases hx
      | «structure» sz =>
        simp only [hk, List.mem_singleton] at hx
        rw [hx]; exact .inl rfl
      | enumeration b =>
        simp only [hk, List.mem_singleton] at hx
        rw [hx]; exact .inl rfl
      | constant b v =>
        simp only [hk, List.mem_singleton] at hx
        rw [hx]; exact .inl rfl
      | _ => simp only [hk, List.not_mem_nil] at hx
    rcases key with h0 | ⟨hk, hsc, hl⟩
    · rw [h0] at hmem; cases hmem
    obtain ⟨m, p1, p2, p3⟩ := def_parent h hf hn (by rw [hk]; rfl)
    obtain ⟨q, k, hq, hcm⟩ := names_mem h hcm
    rw [hsc] at he
    unfold rustNames at hcm
    cases hkk : k.kind with
    | «namespace» =>
      simp only [hkk, List.mem_cons, List.not_mem_nil, or_false] at hcm
      rcases hcm with rfl | rfl | rfl <;> cases hcc
    | archive =>
      simp only [hkk] at hcm
      obtain ⟨m', q1, q2, _⟩ := def_parent h hf hq (by rw [hkk]; rfl)
      unfold rustArchiveNames at hcm
      simp only [List.cons_append, List.mem_cons, List.mem_append, List.mem_map, List.mem_flatMap] at hcm
      rcases hcm with rfl | rfl | rfl | rfl | rfl | ⟨r, hrm, rfl⟩ | ⟨r, hrm, hcm⟩
      · cases hcc
      · cases hcc
      · cases hcc
      · exact no_schema_prefix h hf hr q1 q2 p1 p2 (c := [rustSchemaModule k.name]) (he.symm.trans (by simp))
      · cases hcc
      · exact no_schema_prefix h hf hr q1 q2 p1 p2 (c := [rustSchemaModule k.name, "resources".toList]) (he.symm.trans (by simp))
      · unfold rustVariadicNames at hcm
        split at hcm
        · simp only [List.mem_cons, List.not_mem_nil, or_false] at hcm
          rcases hcm with rfl | rfl | rfl <;> cases hcc
        · cases hcm
    | «structure» sz =>
      simp only [hkk, List.mem_singleton] at hcm
      rw [hcm] at hcc; cases hcc
    | enumeration b =>
      simp only [hkk, List.mem_singleton] at hcm
      rw [hcm] at hcc; cases hcc
    | constant b v =>
      simp only [hkk, List.mem_singleton] at hcm
      subst hcm
      obtain ⟨m', q1, _, q3⟩ := def_parent h hf hq (by rw [hkk]; rfl)
      simp only at he
      rw [he, p1] at q1; cases q1
      rw [hl] at hmem
      simp only [List.mem_cons, List.mem_map] at hmem
      have hsh := rustConstName_shouts k.name
      rcases hmem with h1 | h1 | ⟨r, hrm, h1⟩
      · have := hsh 's' (by rw [h1]; decide)
        revert this; decide
      · have := hsh 'e' (by rw [h1]; decide)
        revert this; decide
      · rw [show n.plainResources = resourcesOf n from plainResources_eq n] at hrm
        exact hm.patterns _ m p1 p2 n p3 hk r hrm k q3 b v hkk h1.symm
    | _ => simp only [hkk, List.not_mem_nil] at hcm

end

end Props
