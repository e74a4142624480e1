import Verif.Lemmas.GenFormat
import Verif.Props.Gen.SchemaSamples

/-!
# C69: the layout of a schema text does not matter
-/

namespace Props
open Gen Spec Parser

/-! ## Every text has tokens, and only one sequence of them -/

theorem block_minimal : ∀ {body t : Text}, (∃ r, t = body ++ '*' :: '/' :: r) → ∃ body r, t = body ++ '*' :: '/' :: r ∧ ¬ ['*', '/'] <:+: body ++ ['*']
  | [], t, ⟨r, h⟩ => ⟨[], r, h, by
      intro h
      have := h.length_le
      simp at this⟩
  | c :: body, t, ⟨r, h⟩ => by
    by_cases hs : ∃ u, t = '*' :: '/' :: u
    · obtain ⟨u, hu⟩ := hs
      exact block_minimal (body := []) ⟨u, hu⟩
    · obtain ⟨b, r', e, hb⟩ := block_minimal (body := body) ⟨r, rfl⟩
      refine ⟨c :: b, r', by rw [h, List.cons_append, e]; rfl, ?_⟩
      rw [List.cons_append, List.infix_cons_iff]
      rintro (⟨v, hv⟩ | hi)
      · simp only [List.cons_append, List.nil_append, List.cons.injEq] at hv
        obtain ⟨rfl, hv⟩ := hv
        cases b with
        | nil => simp at hv
        | cons d b =>
          simp only [List.cons_append, List.cons.injEq] at hv
          obtain ⟨rfl, _⟩ := hv
          exact hs ⟨_, by rw [h, List.cons_append, e]; rfl⟩
      · exact hb hi

theorem line_split (t : Text) : ∃ body, t = body ++ lineCommentEnd t ∧ (∀ a b, body = a ++ '\n' :: b → a.getLast? = some '\\') ∧
    (lineCommentEnd t = [] ∨ (∃ r, lineCommentEnd t = '\n' :: r) ∧ body.getLast? ≠ some '\\') := by
  induction t using lineCommentEnd.induct with
  | case1 => exact ⟨[], rfl, fun a b h => by simp at h, .inl rfl⟩
  | case2 t ih =>
    obtain ⟨body, h1, h2, h3⟩ := ih
    have e : lineCommentEnd ('\\' :: '\n' :: t) = lineCommentEnd t := by rw [lineCommentEnd]
    rw [e]
    refine ⟨'\\' :: '\n' :: body, by rw [List.cons_append, List.cons_append, ← h1], ?_, ?_⟩
    · intro a b h
      cases a with
      | nil => simp at h
      | cons x a =>
        cases a with
        | nil => simp only [List.cons_append, List.cons.injEq] at h; rw [← h.1]; rfl
        | cons y a =>
          simp only [List.cons_append, List.cons.injEq] at h
          have := h2 a b h.2.2
          cases a with
          | nil => cases this
          | cons z a => simpa using this
    · rcases h3 with h | ⟨h, h'⟩
      · exact .inl h
      · right
        refine ⟨h, ?_⟩
        cases body with
        | nil => simp
        | cons x body => simpa using h'
  | case3 t h =>
    have e : lineCommentEnd ('\n' :: t) = '\n' :: t := by rw [lineCommentEnd]; simp; exact h
    rw [e]
    exact ⟨[], rfl, fun a b h => by simp at h, .inr ⟨⟨t, rfl⟩, by simp⟩⟩
  | case4 c t h hc ih =>
    obtain ⟨body, h1, h2, h3⟩ := ih
    have e : lineCommentEnd (c :: t) = lineCommentEnd t := by rw [lineCommentEnd]; rw [if_neg hc]; exact h
    rw [e]
    refine ⟨c :: body, by rw [List.cons_append, ← h1], ?_, ?_⟩
    · intro a b hab
      cases a with
      | nil => simp only [List.nil_append, List.cons.injEq] at hab; exact absurd hab.1 hc
      | cons x a =>
        simp only [List.cons_append, List.cons.injEq] at hab
        have := h2 a b hab.2
        cases a with
        | nil => cases this
        | cons z a => simpa using this
    · rcases h3 with h' | ⟨⟨r, hr⟩, h'⟩
      · exact .inl h'
      · right
        refine ⟨⟨r, hr⟩, ?_⟩
        cases body with
        | nil =>
          intro hl
          simp only [List.getLast?_singleton, Option.some.injEq] at hl
          rw [List.nil_append, hr] at h1
          exact h r hl h1
        | cons x body => simpa using h'

theorem word_split : ∀ {s : Text}, s ≠ [] → (∀ c ∈ s.head?, ¬ Space c ∧ ¬ Mark c) → ¬ CommentStart s → ∃ w r, s = w ++ r ∧ WordIn w r
  | [], h, _, _ => absurd rfl h
  | c :: t, _, h1, h2 => by
    have hc := h1 c rfl
    by_cases he : WordEnd t
    · refine ⟨[c], t, rfl, by simp, ?_, ?_, he⟩
      · intro d hd; simp only [List.mem_singleton] at hd; rw [hd]; exact hc
      · intro a b e hb
        cases a with
        | nil => simp only [List.nil_append] at e; rw [← e]; exact h2
        | cons x a =>
          simp only [List.cons_append, List.cons.injEq, List.nil_eq, List.append_eq_nil_iff] at e
          exact absurd e.2.2 hb
    · have ht : t ≠ [] := fun h => he (.inl h)
      have h1' : ∀ d ∈ t.head?, ¬ Space d ∧ ¬ Mark d := by
        intro d hd
        cases t with
        | nil => cases hd
        | cons x t =>
          cases hd
          exact ⟨fun h => he (.inr (.inl ⟨_, _, rfl, .inl h⟩)), fun h => he (.inr (.inl ⟨_, _, rfl, .inr h⟩))⟩
      obtain ⟨w, r, e, hw⟩ := word_split ht h1' (fun h => he (.inr (.inr h)))
      refine ⟨c :: w, r, by rw [e]; rfl, by simp, ?_, ?_, hw.ends⟩
      · intro d hd
        rcases List.mem_cons.mp hd with rfl | hd
        · exact hc
        · exact hw.chars d hd
      · intro a b e' hb
        cases a with
        | nil => simp only [List.nil_append] at e'; rw [← e', List.cons_append, ← e]; exact h2
        | cons x a =>
          simp only [List.cons_append, List.cons.injEq] at e'
          exact hw.noComment a b e'.2 hb

/-- Every text consists of tokens. -/
theorem tokens_total (s : Text) : ∃ ts, Tokens s ts := by
  have key : ∀ n (s : Text), s.length ≤ n → ∃ ts, Tokens s ts := by
    intro n
    induction n with
    | zero =>
      intro s hs
      have : s = [] := List.length_eq_zero_iff.mp (by omega)
      subst this
      exact ⟨[], .nil⟩
    | succ n ih =>
      intro s hs
      cases s with
      | nil => exact ⟨[], .nil⟩
      | cons c t =>
        simp only [List.length_cons] at hs
        by_cases h1 : Space c
        · obtain ⟨ts, h⟩ := ih t (by omega)
          exact ⟨ts, .space h1 h⟩
        by_cases h2 : Mark c
        · obtain ⟨ts, h⟩ := ih t (by omega)
          exact ⟨_, .mark h2 h⟩
        by_cases h3 : CommentStart (c :: t)
        · rcases h3 with ⟨r, h⟩ | ⟨body, r, h⟩
          · obtain ⟨b, e, p1, p2⟩ := line_split r
            simp only [List.cons.injEq] at h
            obtain ⟨rfl, rfl⟩ := h
            have hl := lineEnd_length r
            simp only [List.length_cons] at hs
            obtain ⟨ts, h⟩ := ih (lineCommentEnd r) (by omega)
            have := Tokens.line p1 p2 h
            rw [← e] at this
            exact ⟨_, this⟩
          · simp only [List.cons.injEq] at h
            obtain ⟨rfl, rfl⟩ := h
            obtain ⟨b, r', e, hb⟩ := block_minimal ⟨r, rfl⟩
            rw [e] at hs
            simp only [List.length_append, List.length_cons] at hs
            obtain ⟨ts, h⟩ := ih r' (by omega)
            have := Tokens.block hb h
            rw [← e] at this
            exact ⟨_, this⟩
        · obtain ⟨w, r, e, hw⟩ := word_split (s := c :: t) (by simp) (by intro d hd; cases hd; exact ⟨h1, h2⟩) h3
          have hl := congrArg List.length e
          have := List.length_pos_iff.mpr hw.nonempty
          simp only [List.length_append, List.length_cons] at hl
          obtain ⟨ts, h⟩ := ih r (by omega)
          rw [e]
          exact ⟨_, .word hw h⟩
  exact key _ s (Nat.le_refl _)

/-- A word ends in one place only. -/
theorem word_unique {w w' s s' : Text} (h : WordIn w s) (h' : WordIn w' s') (e : w ++ s = w' ++ s') : w = w' ∧ s = s' := by
  have key : ∀ {w w' s s' : Text}, WordIn w s → WordIn w' s' → ∀ b, w' = w ++ b → s = b ++ s' → b = [] := by
    intro w w' s s' h h' b e1 e2
    by_contra hb
    obtain ⟨c, b, rfl⟩ := List.exists_cons_of_ne_nil hb
    rcases h.ends with h0 | ⟨d, r, h0, h1⟩ | h0
    · rw [e2] at h0; cases h0
    · rw [e2] at h0
      simp only [List.cons_append, List.cons.injEq] at h0
      have := h'.chars c (by rw [e1]; simp)
      rw [h0.1] at this
      exact h1.elim this.1 this.2
    · rw [e2] at h0
      exact h'.noComment w _ e1 (by simp) h0
  rcases List.append_eq_append_iff.mp e with ⟨b, e1, e2⟩ | ⟨b, e1, e2⟩
  · have := key h h' b e1 e2
    subst this
    simp only [List.append_nil, List.nil_append] at e1 e2
    exact ⟨e1.symm, e2⟩
  · have := key h' h b e1 e2
    subst this
    simp only [List.append_nil, List.nil_append] at e1 e2
    exact ⟨e1, e2.symm⟩

theorem slash_notSpace : ¬ Space '/' := by unfold Space; decide
theorem slash_notMark : ¬ Mark '/' := by unfold Mark; decide
theorem space_notMark {c : Char} (h : Space c) (h' : Mark c) : False := by
  have := mark_notSpace h'
  rw [space_iff.mpr h] at this; cases this

theorem comment_begin {s : Text} {ts : List Token} (h : Tokens ('/' :: s) (.comment :: ts)) : CommentStart ('/' :: s) := by
  generalize hx : '/' :: s = x at h
  generalize hy : Token.comment :: ts = y at h
  cases h with
  | nil => cases hx
  | space hc => simp only [List.cons.injEq] at hx; rw [← hx.1] at hc; exact absurd hc slash_notSpace
  | mark hc => cases hy
  | word => cases hy
  | block => exact .inr ⟨_, _, rfl⟩
  | line => exact .inl ⟨_, rfl⟩

/-- A text consists of one sequence of tokens only. -/
theorem tokens_unique {s : Text} {ts : List Token} (h : Tokens s ts) : ∀ {ts' : List Token}, Tokens s ts' → ts = ts' := by
  have cmt : ∀ {s ts ts'}, Tokens ('/' :: s) (.comment :: ts) → Tokens ('/' :: s) ts' → (∀ r, comment ('/' :: s) = .ok () r → ∀ ts', Tokens r ts' → ts = ts') →
      Token.comment :: ts = ts' := by
    intro s ts ts' h h' ih
    have hs := comment_begin h
    generalize hx : '/' :: s = x at h'
    cases id h' with
    | nil => cases hx
    | space hc => simp only [List.cons.injEq] at hx; rw [← hx.1] at hc; exact absurd hc slash_notSpace
    | mark hc => simp only [List.cons.injEq] at hx; rw [← hx.1] at hc; exact absurd hc slash_notMark
    | word hw => rw [hx] at hs; exact absurd hs (hw.noComment [] _ rfl hw.nonempty)
    | block | line =>
      rw [← hx] at h'
      obtain ⟨r, e, t⟩ := comment_found h'
      rw [ih r e _ t]
  induction h with
  | nil =>
    intro ts' h'
    generalize hx : ([] : Text) = x at h'
    cases h' with
    | nil => rfl
    | word hw => exact absurd (List.append_eq_nil_iff.mp hx.symm).1 hw.nonempty
    | _ => cases hx
  | @space c s ts hc _ ih =>
    intro ts' h'
    generalize hx : c :: s = x at h'
    cases h' with
    | nil => cases hx
    | space _ h' => simp only [List.cons.injEq] at hx; rw [← hx.2] at h'; exact ih h'
    | mark hm => simp only [List.cons.injEq] at hx; rw [← hx.1] at hm; exact (space_notMark hc hm).elim
    | @word w _ _ hw =>
      obtain ⟨d, w, rfl⟩ := List.exists_cons_of_ne_nil hw.nonempty
      simp only [List.cons_append, List.cons.injEq] at hx
      rw [hx.1] at hc
      exact absurd hc (hw.chars d (by simp)).1
    | block | line => simp only [List.cons.injEq] at hx; rw [hx.1] at hc; exact absurd hc slash_notSpace
  | @mark c s ts hc _ ih =>
    intro ts' h'
    generalize hx : c :: s = x at h'
    cases h' with
    | nil => cases hx
    | space hm => simp only [List.cons.injEq] at hx; rw [← hx.1] at hm; exact (space_notMark hm hc).elim
    | mark hm h' => simp only [List.cons.injEq] at hx; obtain ⟨rfl, rfl⟩ := hx; rw [ih h']
    | @word w _ _ hw =>
      obtain ⟨d, w, rfl⟩ := List.exists_cons_of_ne_nil hw.nonempty
      simp only [List.cons_append, List.cons.injEq] at hx
      rw [hx.1] at hc
      exact absurd hc (hw.chars d (by simp)).2
    | block | line => simp only [List.cons.injEq] at hx; rw [hx.1] at hc; exact absurd hc slash_notMark
  | @word w s ts hw _ ih =>
    intro ts' h'
    have hns := hw.noComment [] w rfl hw.nonempty
    generalize hx : w ++ s = x at h'
    have hch : ∀ c r, w ++ s = c :: r → ¬ Space c ∧ ¬ Mark c := by
      intro c r e
      obtain ⟨d, w, rfl⟩ := List.exists_cons_of_ne_nil hw.nonempty
      simp only [List.cons_append, List.cons.injEq] at e
      rw [← e.1]
      exact hw.chars d (by simp)
    cases id h' with
    | nil => exact absurd (List.append_eq_nil_iff.mp hx).1 hw.nonempty
    | space hc => exact absurd hc (hch _ _ hx).1
    | mark hc => exact absurd hc (hch _ _ hx).2
    | word hw' h'' =>
      obtain ⟨rfl, rfl⟩ := word_unique hw hw' hx
      rw [ih h'']
    | block | line => rw [hx] at hns; exact absurd (comment_begin h') hns
  | @block body s ts hb h ih =>
    intro ts' h'
    refine cmt (.block hb h) h' ?_
    intro r e
    have : comment ('/' :: '*' :: (body ++ '*' :: '/' :: s)) = .ok () s := blockEnd_found hb s
    rw [this] at e
    cases e
    exact fun _ => ih
  | @line body s ts h1 h2 h ih =>
    intro ts' h'
    refine cmt (.line h1 h2 h) h' ?_
    intro r e
    have : comment ('/' :: '/' :: (body ++ s)) = .ok () s := by
      change Res.ok () (lineCommentEnd _) = _
      rw [lineEnd_found h1 h2]
    rw [this] at e
    cases e
    exact fun _ => ih

/-! ## The property -/

theorem rest_empty {s s' : Text} (h : SameTokens s s') : skipWs s = [] ↔ skipWs s' = [] := by
  obtain ⟨ts, h1, h2⟩ := h
  have key : ∀ {s : Text}, Tokens s ts → (skipWs s = [] ↔ ts = []) := by
    intro s h
    have b := tokens_begin h
    generalize skipWs s = u at *
    cases b with
    | nil => simp
    | mark => simp
    | word hw => simp [hw.nonempty]
    | comment => simp
  rw [key h1, key h2]

/-- **C69.** The generator treats schema texts of the same tokens alike: they define the same, or are rejected the same way. White
space only separates words, and the text of comments has no influence. -/
theorem C69_layout {s s' : Text} (h : SameTokens s s') (hs : s ≠ []) (hs' : s' ≠ []) : parseSource s = parseSource s' := by
  have := stable_grammar s s' h
  unfold parseSource
  rw [if_neg hs, if_neg hs']
  cases e : flatdataGrammar s <;> cases e' : flatdataGrammar s' <;> rw [e, e'] at this <;> simp only [AgreeRes] at this
  · obtain ⟨rfl, h2⟩ := this
    simp only [rest_empty h2]

/-- **C69** for the whole compiler. -/
theorem C69_compile {s s' : Text} (h : SameTokens s s') (hs : s ≠ []) (hs' : s' ≠ []) (out : M Tree) : Compile s out ↔ Compile s' out := by
  unfold Compile
  rw [C69_layout h hs hs']

/-- The exception: a text without any character is an empty schema, a text of white space is an error. -/
theorem C69_counterexample_empty : SameTokens [] ['\n'] ∧ parseSource [] = .ok [] ∧ parseSource ['\n'] = .error .parsingError :=
  ⟨⟨[], .nil, .space (by unfold Space; decide) .nil⟩, rfl, rfl⟩

/-! ## A schema in two layouts -/

/-- Not a character of words, or a slash. -/
def plainChar (c : Char) : Bool := !(c ∈ [' ', '\n', '\t', '\r', '{', '}', '(', ')', '<', '>', ':', ';', ',', '=', '/'])

/-- A slash after a word has to begin a comment. -/
def wordEnds : Text → Bool
  | '/' :: r => match comment ('/' :: r) with
    | .ok _ _ => true
    | _ => false
  | _ => true

/-- Tokens of texts in which slashes occur in comments only. -/
def lexN : Nat → Text → Option (List Token)
  | 0, _ => none
  | _ + 1, [] => some []
  | n + 1, c :: t =>
    if c ∈ [' ', '\n', '\t', '\r'] then lexN n t
    else if c ∈ ['{', '}', '(', ')', '<', '>', ':', ';', ',', '='] then (lexN n t).map (.mark c :: ·)
    else if c = '/' then match comment (c :: t) with
      | .ok _ r => (lexN n r).map (.comment :: ·)
      | _ => none
    else if wordEnds (t.dropWhile plainChar) then (lexN n (t.dropWhile plainChar)).map (.word (c :: t.takeWhile plainChar) :: ·) else none

theorem comment_tokens {t r : Text} {ts : List Token} (h : comment ('/' :: t) = .ok () r) (hr : Tokens r ts) : Tokens ('/' :: t) (.comment :: ts) := by
  by_cases hs : CommentStart ('/' :: t)
  · obtain ⟨ts', h'⟩ := tokens_total ('/' :: t)
    have : ∃ u, ts' = .comment :: u := by
      generalize hx : '/' :: t = x at h'
      cases h' with
      | nil => cases hx
      | space hc => simp only [List.cons.injEq] at hx; rw [← hx.1] at hc; exact absurd hc slash_notSpace
      | mark hc => simp only [List.cons.injEq] at hx; rw [← hx.1] at hc; exact absurd hc slash_notMark
      | word hw => rw [hx] at hs; exact absurd hs (hw.noComment [] _ rfl hw.nonempty)
      | block => exact ⟨_, rfl⟩
      | line => exact ⟨_, rfl⟩
    obtain ⟨u, rfl⟩ := this
    obtain ⟨r', e, t'⟩ := comment_found h'
    rw [h] at e
    cases e
    rw [tokens_unique hr t']
    exact h'
  · have hns : isWs '/' = false := rfl
    rw [comment_none (by rw [skip_id (by intro c hc; cases hc; exact hns)]; exact hs)] at h
    cases h

theorem comment_starts {r u : Text} (h : comment ('/' :: r) = .ok () u) : CommentStart ('/' :: r) := by
  by_contra hs
  have hns : isWs '/' = false := rfl
  rw [comment_none (by rw [skip_id (by intro c hc; cases hc; exact hns)]; exact hs)] at h
  cases h

theorem dropWhile_head {α : Type} {f : α → Bool} {t : List α} {c : α} (h : c ∈ (t.dropWhile f).head?) : f c = false := by
  induction t with
  | nil => cases h
  | cons d t ih =>
    rw [List.dropWhile_cons] at h
    split at h
    · exact ih h
    · rename_i hf; cases h; simpa using hf

theorem takeWhile_mem {α : Type} {f : α → Bool} {t : List α} {c : α} (h : c ∈ t.takeWhile f) : f c = true := by
  induction t with
  | nil => cases h
  | cons d t ih =>
    rw [List.takeWhile_cons] at h
    split at h
    · rcases List.mem_cons.mp h with rfl | h
      · assumption
      · exact ih h
    · cases h

theorem lex_sound : ∀ n s ts, lexN n s = some ts → Tokens s ts := by
  intro n
  induction n with
  | zero => intro s ts h; cases h
  | succ n ih =>
    intro s ts h
    cases s with
    | nil => cases h; exact .nil
    | cons c t =>
      rw [lexN] at h
      split at h
      · exact .space ‹_› (ih _ _ h)
      · split at h
        · obtain ⟨u, hu, rfl⟩ := Option.map_eq_some_iff.mp h
          exact .mark ‹_› (ih _ _ hu)
        · rename_i h1 h2
          split at h
          · rename_i hc
            subst hc
            split at h
            · obtain ⟨u, hu, rfl⟩ := Option.map_eq_some_iff.mp h
              exact comment_tokens ‹_› (ih _ _ hu)
            · cases h
          · rename_i hc
            split at h
            · rename_i he
              obtain ⟨u, hu, rfl⟩ := Option.map_eq_some_iff.mp h
              have e : c :: t = (c :: t.takeWhile plainChar) ++ t.dropWhile plainChar := by simp
              have hpl : ∀ d ∈ c :: t.takeWhile plainChar, plainChar d = true := by
                intro d hd
                rcases List.mem_cons.mp hd with rfl | hd
                · unfold plainChar
                  simp only [List.mem_cons, List.not_mem_nil, or_false] at h1 h2 ⊢
                  simp only [Bool.not_eq_true', decide_eq_false_iff_not]
                  tauto
                · exact takeWhile_mem hd
              have hnp : ∀ d, plainChar d = true → ¬ Space d ∧ ¬ Mark d ∧ d ≠ '/' := by
                intro d hd
                unfold plainChar at hd
                unfold Space Mark
                simp only [List.mem_cons, List.not_mem_nil, or_false, Bool.not_eq_true', decide_eq_false_iff_not] at hd ⊢
                tauto
              rw [e]
              refine .word ⟨by simp, fun d hd => ⟨(hnp d (hpl d hd)).1, (hnp d (hpl d hd)).2.1⟩, ?_, ?_⟩ (ih _ _ hu)
              · intro a b eab hb hcs
                obtain ⟨d, b, rfl⟩ := List.exists_cons_of_ne_nil hb
                have hd := (hnp d (hpl d (by rw [eab]; simp))).2.2
                rcases hcs with ⟨r, hr⟩ | ⟨x, r, hr⟩
                · simp only [List.cons_append, List.cons.injEq] at hr; exact hd hr.1
                · simp only [List.cons_append, List.cons.injEq] at hr; exact hd hr.1
              · generalize hr : t.dropWhile plainChar = r at he
                cases r with
                | nil => exact .inl rfl
                | cons d r =>
                  have hd : plainChar d = false := dropWhile_head (t := t) (by rw [hr]; rfl)
                  by_cases hsl : d = '/'
                  · subst hsl
                    unfold wordEnds at he
                    simp only at he
                    split at he
                    · exact .inr (.inr (comment_starts ‹_›))
                    · cases he
                  · refine .inr (.inl ⟨d, r, rfl, ?_⟩)
                    unfold plainChar at hd
                    unfold Space Mark
                    simp only [List.mem_cons, List.not_mem_nil, or_false, Bool.not_eq_false', decide_eq_true_eq] at hd ⊢
                    tauto
            · cases h

/-- A schema in two layouts, with different comments. -/
def layoutA : Text := "// free comment
namespace n {
// enumeration
enum E : u8 : 1 { A, B }
struct S { f : u8 : 5; g : E; }
archive R {
v : vector< S >;
@optional @explicit_reference(S.f, v) w : multivector< 33, S >;
} }".toList

def layoutB : Text := "
 /* say ** something / else * / */namespace   n{// continued \\
 here
enum\tE:u8:1{A,B}  struct
S
{ f : u8 : 5 ; g:E ; }
   archive R { v:vector<S>;@optional @explicit_reference( S.f,v )w : multivector< 33 , S > ; } } \r\n".toList

theorem lex_same {a b : Text} {n : Nat} (h1 : (lexN n a).isSome = true) (h2 : lexN n a = lexN n b) : SameTokens a b := by
  obtain ⟨ts, h⟩ := Option.isSome_iff_exists.mp h1
  exact ⟨ts, lex_sound _ _ _ h, lex_sound _ _ _ (by rw [← h2]; exact h)⟩

theorem layouts_lex : (lexN 500 layoutA).isSome = true ∧ lexN 500 layoutA = lexN 500 layoutB := by decide +kernel

theorem layouts_same : SameTokens layoutA layoutB := lex_same layouts_lex.1 layouts_lex.2

theorem layout_both {a b : Text} {bs : List PBlock} (h : SameTokens a b) (ha : a ≠ []) (hb : b ≠ []) (hp : parsesTo a bs = true) :
    parseSource a = .ok bs ∧ parseSource b = .ok bs := by
  have hp : parseSource a = .ok bs := by
    unfold parsesTo at hp
    cases h : parseSource a with
    | error e => rw [h] at hp; cases hp
    | ok b => rw [h] at hp; simp only [decide_eq_true_eq] at hp; rw [hp]
  exact ⟨hp, by rw [← C69_layout h ha hb]; exact hp⟩

theorem layouts_differ : layoutA ≠ layoutB ∧ layoutA ≠ [] ∧ layoutB ≠ [] ∧ parsesTo layoutA blocksA = true := by decide +kernel

attribute [local irreducible] layoutA layoutB blocksA in
/-- The hypotheses of C69 for two different texts, which are accepted. -/
theorem C69_witness : SameTokens layoutA layoutB ∧ layoutA ≠ layoutB ∧ parseSource layoutA = .ok blocksA ∧ parseSource layoutB = .ok blocksA :=
  have ⟨h1, h2, h3, h4⟩ := layouts_differ
  ⟨layouts_same, h1, layout_both layouts_same h2 h3 h4⟩

def textJoined : Text := "namespacen { }".toList
def textApart : Text := "namespace n { }".toList
def textContinued : Text := "// x \\\nnamespace n { }".toList
def textCommented : Text := "// x\nnamespace n { }".toList
def blocksEmpty : List PBlock := [blockOf "n".toList []]

/-- White space between words is needed, and a backslash at the end of a line belongs to the comment. -/
theorem layout_matters : (!parsesTo textJoined blocksEmpty && parsesTo textApart blocksEmpty && !parsesTo textContinued blocksEmpty &&
    parsesTo textCommented blocksEmpty) = true := by
  decide +kernel

def textAt (gap : String) : Text := ("namespace n { struct S { f : u8; } archive R { v : vector< S >; @optional" ++ gap ++ "@explicit_reference(S.f, v) w : vector< S >; } }").toList

def accepts (t : Text) : Bool := match parseSource t with
  | .ok _ => true
  | .error _ => false

/-- Two decorations need white space between them if the first one is `@optional`. -/
theorem rejected_at : accepts (textAt " ") = true ∧ accepts (textAt "") = false := by decide +kernel

end Props
