import Verif.Model.Gen.Literals
import Verif.Spec.Literal
import Verif.Lemmas.GenText

/-!
# C58, C59: texts and numbers in generated sources
-/

namespace Props
open Gen

/-! ## C59 -/

theorem isDigitChar_iff (c : Char) : isDigitChar c = true ↔ IsDigit c := by simp [isDigitChar, IsDigit]

theorem groupsAhead_iff : ∀ (t : Text), (∀ c ∈ t, IsDigit c) → (groupsAhead t = true ↔ t ≠ [] ∧ t.length % 3 = 0)
  | [], _ => by simp [groupsAhead]
  | [a], _ => by simp [groupsAhead]
  | [a, b], _ => by simp [groupsAhead]
  | a :: b :: c :: t, h => by
    have ih := groupsAhead_iff t fun x hx => h x (by simp [hx])
    have hd : ∀ x ∈ [a, b, c], isDigitChar x = true := fun x hx =>
      (isDigitChar_iff x).mpr (h x (by simp at hx; rcases hx with rfl | rfl | rfl <;> simp))
    rw [groupsAhead, hd a (by simp), hd b (by simp), hd c (by simp)]
    simp only [Bool.and_self, Bool.true_and, Bool.or_eq_true, ih]
    cases t with
    | nil => simp [noDigitAhead]
    | cons d t =>
      have : isDigitChar d = true := (isDigitChar_iff d).mpr (h d (by simp))
      simp [noDigitAhead, this]
      omega

/-- The digits of a number split into a first group and groups of three. -/
theorem insertUnderscores_digits : ∀ (t : Text), (∀ c ∈ t, IsDigit c) → t ≠ [] →
    ∃ (first : Text) (groups : List Text), (1 ≤ first.length ∧ first.length ≤ 3) ∧ (∀ g ∈ groups, g.length = 3) ∧ t = first ++ groups.flatten ∧
      insertUnderscores t = first ++ (groups.map fun x => '_' :: x).flatten
  | [], _, h => absurd rfl h
  | c :: t, h, _ => by
    have hc : isDigitChar c = true := (isDigitChar_iff c).mpr (h c (by simp))
    have ht : ∀ x ∈ t, IsDigit x := fun x hx => h x (by simp [hx])
    have hlook := groupsAhead_iff t ht
    rw [insertUnderscores, hc, Bool.true_and]
    by_cases hne : t = []
    · subst hne
      exact ⟨[c], [], by simp, by simp, by simp, by simp [groupsAhead, insertUnderscores]⟩
    · obtain ⟨first, groups, hl, hg, heq, hins⟩ := insertUnderscores_digits t ht hne
      have hlen : t.length % 3 = first.length % 3 := by
        have : groups.flatten.length = 3 * groups.length := by
          clear heq hins
          induction groups with
          | nil => rfl
          | cons g gs ih =>
            simp [hg g (by simp), ih fun x hx => hg x (by simp [hx])]
            omega
        rw [heq, List.length_append, this]; omega
      by_cases h3 : first.length = 3
      · rw [if_pos (hlook.mpr ⟨hne, by omega⟩)]
        refine ⟨[c], first :: groups, by simp, ?_, by simp [heq], by simp [hins]⟩
        intro g hg'
        rcases List.mem_cons.mp hg' with rfl | hg'
        · exact h3
        · exact hg g hg'
      · rw [if_neg (fun hh => by have := (hlook.mp hh).2; omega)]
        exact ⟨c :: first, groups, by simp; omega, hg, by simp [heq], by simp [hins]⟩

/-- **C59.** The Rust literal of a number is its decimal text with the digits grouped by threes from the right, and
nothing else. -/
theorem C59_grouped (n : Int) : ∃ g : Spec.Grouping, g.Valid ∧ g.plain = intText n ∧ g.text = formatNumericLiteral n := by
  obtain ⟨first, groups, hl, hg, heq, hins⟩ := insertUnderscores_digits (natText n.natAbs) (natText_digits _)
    (natText_ne_nil _)
  have hd : ∀ c ∈ first ++ groups.flatten, 48 ≤ c.toNat ∧ c.toNat ≤ 57 := heq ▸ natText_digits n.natAbs
  refine ⟨⟨decide (n < 0), first, groups⟩, ⟨hl, hg, hd⟩, ?_, ?_⟩
  · by_cases hn : n < 0 <;> simp [Spec.Grouping.plain, intText, hn, heq]
  · by_cases hn : n < 0
    · have : isDigitChar '-' = false := by decide
      simp [Spec.Grouping.text, formatNumericLiteral, intText, hn, insertUnderscores, this, hins]
    · simp [Spec.Grouping.text, formatNumericLiteral, intText, hn, hins]

theorem filter_underscore {t : Text} (h : '_' ∉ t) : t.filter (fun c => decide (c ≠ '_')) = t := by
  rw [List.filter_eq_self]
  intro c hc
  simp; rintro rfl; exact h hc

/-- **C59.** Without its underscores the literal is the decimal text, so no two numbers get the same literal. -/
theorem C59_value (n : Int) : (formatNumericLiteral n).filter (fun c => decide (c ≠ '_')) = intText n := by
  obtain ⟨⟨neg, first, groups⟩, ⟨h1, h2, hd⟩, hp, ht⟩ := C59_grouped n
  rw [← hp, ← ht]
  have hu : '_' ∉ first ++ groups.flatten := fun h => by
    have := hd '_' h
    revert this; decide
  have hf : '_' ∉ first := fun h => hu (by simp [h])
  have hgs : ∀ g ∈ groups, '_' ∉ g := fun g hg h => hu (by
    rw [List.mem_append, List.mem_flatten]; exact .inr ⟨g, hg, h⟩)
  clear hu hd hp ht h1 h2
  have key : ((groups.map fun x => '_' :: x).flatten).filter (fun c => decide (c ≠ '_')) = groups.flatten := by
    clear hf
    induction groups with
    | nil => rfl
    | cons g gs ih =>
      rw [List.map_cons, List.flatten_cons, List.filter_append, ih fun x hx => hgs x (by simp [hx]), List.flatten_cons,
        List.filter_cons_of_neg (by simp), filter_underscore (hgs g (by simp))]
  simp only [Spec.Grouping.text, Spec.Grouping.plain, List.filter_append, key, filter_underscore hf]
  cases neg <;> simp <;> decide

theorem C59_injective {m n : Int} (h : formatNumericLiteral m = formatNumericLiteral n) : m = n :=
  intText_inj (by rw [← C59_value m, ← C59_value n, h])

/-- Literals of several lengths and signs. -/
example : formatNumericLiteral 1234567 = "1_234_567".toList ∧ formatNumericLiteral (-4096) = "-4_096".toList ∧
    formatNumericLiteral 999 = "999".toList ∧ formatNumericLiteral 0 = "0".toList ∧
    formatNumericLiteral (-100000) = "-100_000".toList := by decide +kernel

/-! ## C58: Python -/

/-- Escaping one character at a time. -/
theorem safeString_cons (c : Char) (t : Text) :
    safeString (c :: t) = (if c = '\\' then ['\\', '\\'] else if c = '"' then ['\\', '"'] else [c]) ++ safeString t := by
  unfold safeString
  rw [List.flatMap_cons]
  split
  · simp
  · split <;> simp_all

theorem dropPrefix_append (p t : Text) : Spec.dropPrefix p (p ++ t) = some t := by
  induction p with
  | nil => rfl
  | cons c p ih => simp [Spec.dropPrefix, ih]

theorem pyTripleBody_safe (t rest : Text) (h : ∀ c ∈ t, c ≠ '\r' ∧ c ≠ '\x00') :
    Spec.pyTripleBody (safeString t ++ '"' :: '"' :: '"' :: rest) = some (t, rest) := by
  induction t with
  | nil =>
    show Spec.pyTripleBody ('"' :: '"' :: '"' :: rest) = _
    rw [Spec.pyTripleBody]
    · rfl
    · simp
  | cons c t ih =>
    have ih := ih fun x hx => h x (by simp [hx])
    rw [safeString_cons]
    split
    · rename_i hc; subst hc
      simp only [List.cons_append, List.nil_append, Spec.pyTripleBody, Spec.pyEscape, ih]
    · split
      · rename_i _ hc; subst hc
        simp only [List.cons_append, List.nil_append, Spec.pyTripleBody, Spec.pyEscape, ih]
      · rename_i h1 h2
        simp only [List.cons_append, List.nil_append]
        rw [Spec.pyTripleBody]
        · have hdrop : ∀ u, Spec.dropPrefix ['"', '"', '"'] (c :: u) = none := by
            intro u
            rw [Spec.dropPrefix, if_neg (Ne.symm h2)]
          have := h c (by simp)
          simp [hdrop, ih, this.1, this.2]
        · simpa using h1

/-- **C58.** The Python literal generated for the schema of an archive or resource evaluates to that schema, whatever
the text is (carriage returns and NULs excluded) and whatever follows it in the source. -/
theorem C58_python (t rest : Text) (h : ∀ c ∈ t, c ≠ '\r' ∧ c ≠ '\x00') :
    Spec.pyTriple (pyLiteral t ++ rest) = some (t, rest) := by
  unfold Spec.pyTriple pyLiteral
  rw [List.append_assoc, List.append_assoc]
  show (Spec.dropPrefix ['"', '"', '"'] (['"', '"', '"'] ++ _)).bind _ = _
  rw [dropPrefix_append]
  exact pyTripleBody_safe t rest h

/-- **C58.** The schemas of structures are not escaped; that is correct for texts without quotes and backslashes (C58_schema
shows that schemas have none). -/
theorem C58_python_raw (t rest : Text) (h : ∀ c ∈ t, c ≠ '\r' ∧ c ≠ '\x00' ∧ c ≠ '"' ∧ c ≠ '\\') :
    Spec.pyTriple (pyRawLiteral t ++ rest) = some (t, rest) := by
  have : safeString t = t := by
    clear rest
    induction t with
    | nil => rfl
    | cons c t ih =>
      have hc := h c (by simp)
      rw [safeString_cons, if_neg hc.2.2.2, if_neg hc.2.2.1, ih fun x hx => h x (by simp [hx])]
      rfl
  have key := C58_python t rest fun c hc => ⟨(h c hc).1, (h c hc).2.1⟩
  unfold pyLiteral at key
  rw [this] at key
  exact key

/-- A text with quotes and backslashes in the worst places. -/
example : Spec.pyTriple (pyLiteral "a\"\"\"\\\"\n\\n\"".toList ++ " # rest".toList) =
    some ("a\"\"\"\\\"\n\\n\"".toList, " # rest".toList) := by decide +kernel

/-- Without escaping such a text is cut off. -/
example : Spec.pyTriple (pyRawLiteral "a\"\"\"b".toList) ≠ some ("a\"\"\"b".toList, []) := by decide +kernel

/-! ## C58: C++ -/

theorem cppStrings_safe (t u v rest : Text) (h : '\n' ∉ t) (hu : Spec.cppStrings true u = some (v, rest)) :
    Spec.cppStrings true (safeString t ++ u) = some (t ++ v, rest) := by
  induction t with
  | nil => exact hu
  | cons c t ih =>
    have ih := ih fun hx => h (by simp [hx])
    have hn : c ≠ '\n' := fun hc => h (by simp [hc])
    rw [safeString_cons]
    split
    · rename_i hc; subst hc
      simp only [List.cons_append, List.nil_append, Spec.cppStrings, Spec.cppEscape, ih]
    · split
      · rename_i _ hc; subst hc
        simp only [List.cons_append, List.nil_append, Spec.cppStrings, Spec.cppEscape, ih]
      · rename_i h1 h2
        simp only [List.cons_append, List.nil_append]
        rw [Spec.cppStrings]
        · simp [h2, hn, ih]
        · simpa using h1

theorem splitLines_ne (t : Text) : splitLines t ≠ [] := by
  cases t with
  | nil => simp [splitLines]
  | cons c t =>
    simp only [splitLines]
    split
    · simp
    · split <;> simp

theorem splitLines_spec (t : Text) : (∀ l ∈ splitLines t, '\n' ∉ l) ∧ joinTexts ['\n'] (splitLines t) = t := by
  induction t with
  | nil => simp [splitLines, joinTexts]
  | cons c t ih =>
    simp only [splitLines]
    cases hs : splitLines t with
    | nil => exact absurd hs (splitLines_ne t)
    | cons w ws =>
      rw [hs] at ih
      by_cases hc : c = '\n'
      · rw [if_pos hc]
        refine ⟨?_, ?_⟩
        · intro l hl
          rcases List.mem_cons.mp hl with rfl | hl
          · simp
          · exact ih.1 l hl
        · rw [joinTexts, ih.2, hc]
          · rfl
          · simp
      · rw [if_neg hc]
        refine ⟨?_, ?_⟩
        · intro l hl
          rcases List.mem_cons.mp hl with rfl | hl
          · have := ih.1 w (by simp)
            simp [this, Ne.symm hc]
          · exact ih.1 l (by simp [hl])
        · rw [← ih.2]
          cases ws with
          | nil => rfl
          | cons x xs => simp [joinTexts]

/-- **C58.** The C++ literals generated for the schema of an archive or resource, one per line, together evaluate to that
schema, whatever the text is; they end before the semicolon. -/
theorem C58_cpp (t rest : Text) : Spec.cppStrings false (cppLiteral t ++ ';' :: rest) = some (t, ';' :: rest) := by
  have key : ∀ ls : List Text, ls ≠ [] → (∀ l ∈ ls, '\n' ∉ l) →
      Spec.cppStrings true (joinTexts "\\n\"\n    \"".toList (ls.map safeString) ++ '"' :: ';' :: rest) =
        some (joinTexts ['\n'] ls, ';' :: rest) := by
    intro ls hne hl
    induction ls with
    | nil => exact absurd rfl hne
    | cons w ws ih =>
      have hend : Spec.cppStrings true ('"' :: ';' :: rest) = some ([], ';' :: rest) := by
        rw [Spec.cppStrings]
        · simp [Spec.cppStrings]
        · simp
      cases ws with
      | nil =>
        have := cppStrings_safe w _ _ _ (hl w (by simp)) hend
        simpa [joinTexts] using this
      | cons x xs =>
        have ih := ih (by simp) fun l h => hl l (by simp [h])
        have hsep : ∀ u, Spec.cppStrings true ("\\n\"\n    \"".toList ++ u) =
            (Spec.cppStrings true u).map fun r => ('\n' :: r.1, r.2) := by
          intro u
          show Spec.cppStrings true ('\\' :: 'n' :: '"' :: '\n' :: ' ' :: ' ' :: ' ' :: ' ' :: '"' :: u) = _
          rw [Spec.cppStrings]
          simp only [Spec.cppEscape]
          rw [Spec.cppStrings]
          · simp [Spec.cppStrings]
            cases Spec.cppStrings true u with
            | none => rfl
            | some r => rfl
          · simp
        have h1 : Spec.cppStrings true ("\\n\"\n    \"".toList ++
            (joinTexts "\\n\"\n    \"".toList ((x :: xs).map safeString) ++ '"' :: ';' :: rest)) =
            some ('\n' :: joinTexts ['\n'] (x :: xs), ';' :: rest) := by
          rw [hsep, ih]; rfl
        have := cppStrings_safe w _ _ _ (hl w (by simp)) h1
        simpa [joinTexts] using this
  unfold cppLiteral
  show Spec.cppStrings false ('"' :: (_ ++ ['"'] ++ ';' :: rest)) = _
  rw [Spec.cppStrings, if_pos rfl, List.append_assoc]
  rw [show ['"'] ++ ';' :: rest = '"' :: ';' :: rest from rfl, key _ (splitLines_ne t) (splitLines_spec t).1,
    (splitLines_spec t).2]

example : Spec.cppStrings false (cppLiteral "struct \"A\"\n{ \\n\n}\n".toList ++ "; int x;".toList) =
    some ("struct \"A\"\n{ \\n\n}\n".toList, "; int x;".toList) := by decide +kernel

/-! ## C58: raw strings -/

/-- The closing text does not begin anywhere before the end of `t`. -/
theorem untilClosing_append (closing : Text) (q : Char) (cs : Text) (hc : closing = q :: cs) (t rest : Text) (h : q ∉ t) :
    Spec.untilClosing closing (t ++ (closing ++ rest)) = some (t, rest) := by
  induction t with
  | nil =>
    rw [List.nil_append]
    subst hc
    show Spec.untilClosing (q :: cs) (q :: (cs ++ rest)) = _
    rw [Spec.untilClosing]
    have := dropPrefix_append (q :: cs) rest
    rw [List.cons_append] at this
    rw [this]
  | cons c t ih =>
    rw [List.cons_append, Spec.untilClosing]
    have hne : q ≠ c := fun hh => h (by simp [hh])
    have : ∀ u, Spec.dropPrefix closing (c :: u) = none := by
      intro u; rw [hc]; simp [Spec.dropPrefix, hne]
    rw [this, ih fun hx => h (by simp [hx])]

/-- **C58.** The raw literals of C++ (structures), Rust and Go evaluate to the schema if it has no closing parenthesis
followed by `schema"`, no quotes, no backticks; here: if it has no quotes and no backticks. (Go also drops carriage
returns.) -/
theorem C58_raw (t rest : Text) (h : '"' ∉ t ∧ '`' ∉ t) :
    Spec.rawString "R\"schema(".toList ")schema\"".toList (cppRawLiteral t ++ rest) = some (t, rest) ∧
    Spec.rawString "r#\"".toList "\"#".toList (rustRawLiteral t ++ rest) = some (t, rest) ∧
    Spec.rawString "`".toList "`".toList (goRawLiteral t ++ rest) = some (t, rest) := by
  refine ⟨?_, ?_, ?_⟩
  · have key : ∀ t : Text, '"' ∉ t → Spec.untilClosing ")schema\"".toList (t ++ (")schema\"".toList ++ rest)) = some (t, rest) := by
      intro t ht
      induction t with
      | nil => rfl
      | cons c t ih =>
        rw [List.cons_append, Spec.untilClosing, ih fun hx => ht (by simp [hx])]
        have : Spec.dropPrefix ")schema\"".toList (c :: (t ++ (")schema\"".toList ++ rest))) = none := by
          by_contra hcon
          obtain ⟨r, hr⟩ := Option.ne_none_iff_exists'.mp hcon
          have pre : ∀ p u r, Spec.dropPrefix p u = some r → u = p ++ r := by
            intro p
            induction p with
            | nil => intro u r h; simp [Spec.dropPrefix] at h; simp [h]
            | cons a p ihp =>
              intro u r h
              cases u with
              | nil => simp [Spec.dropPrefix] at h
              | cons b u =>
                simp only [Spec.dropPrefix] at h
                split at h
                · rename_i hab; rw [hab, ihp u r h]; rfl
                · cases h
          have hu := pre _ _ _ hr
          have hlen : 7 ≤ t.length := by
            by_contra hlt
            -- the quote of the pattern is among the first eight characters, the quote of the text is later
            have h7 : (c :: (t ++ (")schema\"".toList ++ rest)))[7]? = some '"' := by rw [hu]; rfl
            have hi : ∃ k, t.length = k ∧ k < 7 := ⟨_, rfl, by omega⟩
            obtain ⟨k, hk, hk7⟩ := hi
            rw [List.getElem?_cons_succ, List.getElem?_append_right (by omega)] at h7
            have : ∀ k < 7, (")schema\"".toList ++ rest)[6 - k]? ≠ some '"' := by
              intro k hk
              rw [List.getElem?_append_left (by show 6 - k < 8; omega)]
              have : ∀ k : Fin 7, ")schema\"".toList[6 - (k : Nat)]? ≠ some '"' := by decide
              exact this ⟨k, hk⟩
            exact this t.length (by omega) h7
          have h7 : (c :: (t ++ (")schema\"".toList ++ rest)))[7]? = some '"' := by rw [hu]; rfl
          rw [List.getElem?_cons_succ, List.getElem?_append_left (by omega)] at h7
          exact ht (List.mem_cons_of_mem _ (List.mem_of_getElem? h7))
        rw [this]
    unfold Spec.rawString cppRawLiteral
    rw [List.append_assoc, List.append_assoc, dropPrefix_append]
    exact key t h.1
  · unfold Spec.rawString rustRawLiteral
    rw [List.append_assoc, List.append_assoc, dropPrefix_append]
    exact untilClosing_append _ '"' ['#'] rfl t rest h.1
  · unfold Spec.rawString goRawLiteral
    rw [List.append_assoc, List.append_assoc, dropPrefix_append]
    exact untilClosing_append _ '`' [] rfl t rest h.2

example : Spec.rawString "r#\"".toList "\"#".toList (rustRawLiteral "struct A\n{\n}\n".toList ++ ";".toList) =
    some ("struct A\n{\n}\n".toList, ";".toList) := by decide +kernel

end Props
