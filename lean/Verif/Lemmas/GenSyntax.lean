import Mathlib.Data.List.Induction
import Verif.Lemmas.GenFormat
import Verif.Spec.Syntax

/-!
# The grammar on lists of tokens
-/

namespace Gen.Syn
open Spec Spec.Syntax Parser

/-! ## Outcomes on tokens -/

/-- On texts with these tokens the expression matches with this value, and the rest has these tokens. -/
def Yields {α : Type} (p : Parser α) (ts : List Token) (a : α) (rest : List Token) : Prop := ∀ s, Tokens s ts → ∃ r, p s = .ok a r ∧ Tokens r rest

/-- On texts with these tokens the expression fails. -/
def Fails {α : Type} (p : Parser α) (ts : List Token) : Prop := ∀ s, Tokens s ts → p s = .fail

/-- If the expression matches, then like this. -/
def Only {α : Type} (p : Parser α) (R : α → List Token → List Token → Prop) : Prop :=
  ∀ s ts a r, Tokens s ts → p s = .ok a r → ∃ rest, Tokens r rest ∧ R a ts rest

theorem yields_pure {α : Type} (a : α) (ts : List Token) : Yields (pure a : Parser α) ts a ts := fun s h => ⟨s, rfl, h⟩

theorem yields_bind {α β : Type} {p : Parser α} {f : α → Parser β} {ts mid rest : List Token} {a : α} {b : β} (h : Yields p ts a mid) (h' : Yields (f a) mid b rest) :
    Yields (p >>= f) ts b rest := by
  intro s hs
  obtain ⟨r, e, hr⟩ := h s hs
  obtain ⟨r', e', hr'⟩ := h' r hr
  refine ⟨r', ?_, hr'⟩
  rw [bind_eq]
  unfold seq
  rw [e]
  exact e'

theorem fails_bind {α β : Type} {p : Parser α} {f : α → Parser β} {ts : List Token} (h : Fails p ts) : Fails (p >>= f) ts := by
  intro s hs
  rw [bind_eq]
  unfold seq
  rw [h s hs]

theorem fails_then {α β : Type} {p : Parser α} {f : α → Parser β} {ts mid : List Token} {a : α} (h : Yields p ts a mid) (h' : Fails (f a) mid) : Fails (p >>= f) ts := by
  intro s hs
  obtain ⟨r, e, hr⟩ := h s hs
  rw [bind_eq]
  unfold seq
  rw [e]
  exact h' r hr

theorem yields_left {α : Type} {p q : Parser α} {ts rest : List Token} {a : α} (h : Yields p ts a rest) : Yields (orElse p q) ts a rest := by
  intro s hs
  obtain ⟨r, e, hr⟩ := h s hs
  exact ⟨r, by unfold orElse; rw [e], hr⟩

theorem yields_right {α : Type} {p q : Parser α} {ts rest : List Token} {a : α} (h : Fails p ts) (h' : Yields q ts a rest) : Yields (orElse p q) ts a rest := by
  intro s hs
  obtain ⟨r, e, hr⟩ := h' s hs
  exact ⟨r, by unfold orElse; rw [h s hs]; exact e, hr⟩

theorem fails_orElse {α : Type} {p q : Parser α} {ts : List Token} (h : Fails p ts) (h' : Fails q ts) : Fails (orElse p q) ts := by
  intro s hs
  unfold orElse
  rw [h s hs]
  exact h' s hs

theorem yields_opt {α : Type} {p : Parser α} {ts rest : List Token} {a : α} (h : Yields p ts a rest) : Yields (opt p) ts (some a) rest := by
  intro s hs
  obtain ⟨r, e, hr⟩ := h s hs
  exact ⟨r, by unfold opt; rw [e], hr⟩

theorem yields_none {α : Type} {p : Parser α} {ts : List Token} (h : Fails p ts) : Yields (opt p) ts none ts :=
  fun s hs => ⟨s, by unfold opt; rw [h s hs], hs⟩

theorem yields_must {α : Type} {p : Parser α} {ts rest : List Token} {a : α} (h : Yields p ts a rest) : Yields (must p) ts a rest := by
  intro s hs
  obtain ⟨r, e, hr⟩ := h s hs
  exact ⟨r, by unfold must; rw [e], hr⟩

theorem yields_nil {α : Type} {p : Parser α} {ts : List Token} (h : Fails p ts) : Yields (many p) ts [] ts := by
  intro s hs
  refine ⟨s, ?_, hs⟩
  unfold many
  cases s.length with
  | zero => rfl
  | succ n => unfold manyN; rw [h s hs]


theorem yields_cons {α : Type} {p : Parser α} (hc : Consumes p) (h0 : p [] = .fail) {ts mid rest : List Token} {a : α} {as : List α} (h : Yields p ts a mid)
    (h' : Yields (many p) mid as rest) : Yields (many p) ts (a :: as) rest := by
  intro s hs
  obtain ⟨r, e, hr⟩ := h s hs
  obtain ⟨r', e', hr'⟩ := h' r hr
  refine ⟨r', ?_, hr'⟩
  have hl := hc _ _ _ e
  unfold many
  cases hn : s.length with
  | zero => omega
  | succ n =>
    unfold manyN
    rw [e]
    simp only
    rw [manyN_enough hc h0 n r (by omega), e']

theorem yields_many1 {α : Type} {p : Parser α} {ts mid rest : List Token} {a : α} {as : List α} (h : Yields p ts a mid)
    (h' : Yields (many p) mid as rest) : Yields (many1 p) ts (a :: as) rest :=
  yields_bind h (yields_bind h' (yields_pure _ _))

/-! ### Conversely -/

theorem only_pure {α : Type} (a : α) : Only (pure a : Parser α) fun b ts rest => b = a ∧ rest = ts := by
  intro s ts b r hs e
  cases e
  exact ⟨ts, hs, rfl, rfl⟩

theorem only_bind {α β : Type} {p : Parser α} {f : α → Parser β} {R : α → List Token → List Token → Prop} {R' : α → β → List Token → List Token → Prop}
    (h : Only p R) (h' : ∀ a, Only (f a) (R' a)) : Only (p >>= f) fun b ts rest => ∃ a mid, R a ts mid ∧ R' a b mid rest := by
  intro s ts b r hs e
  rw [bind_eq] at e
  unfold seq at e
  cases hp : p s with
  | ok a r1 =>
    rw [hp] at e
    obtain ⟨mid, h1, h2⟩ := h s ts a r1 hs hp
    obtain ⟨rest, h3, h4⟩ := h' a r1 mid b r h1 e
    exact ⟨rest, h3, a, mid, h2, h4⟩
  | fail => rw [hp] at e; cases e
  | fatal => rw [hp] at e; cases e

theorem only_orElse {α : Type} {p q : Parser α} {R R' : α → List Token → List Token → Prop} (h : Only p R) (h' : Only q R') :
    Only (orElse p q) fun a ts rest => R a ts rest ∨ R' a ts rest := by
  intro s ts a r hs e
  unfold orElse at e
  cases hp : p s with
  | ok b r1 =>
    rw [hp] at e
    cases e
    obtain ⟨rest, h1, h2⟩ := h s ts _ _ hs hp
    exact ⟨rest, h1, .inl h2⟩
  | fail =>
    rw [hp] at e
    obtain ⟨rest, h1, h2⟩ := h' s ts _ _ hs e
    exact ⟨rest, h1, .inr h2⟩
  | fatal => rw [hp] at e; cases e

theorem only_opt {α : Type} {p : Parser α} {R : α → List Token → List Token → Prop} (h : Only p R) :
    Only (opt p) fun o ts rest => (o = none ∧ rest = ts) ∨ ∃ a, o = some a ∧ R a ts rest := by
  intro s ts o r hs e
  unfold opt at e
  cases hp : p s with
  | ok b r1 =>
    rw [hp] at e
    cases e
    obtain ⟨rest, h1, h2⟩ := h s ts _ _ hs hp
    exact ⟨rest, h1, .inr ⟨_, rfl, h2⟩⟩
  | fail =>
    rw [hp] at e
    cases e
    exact ⟨ts, hs, .inl ⟨rfl, rfl⟩⟩
  | fatal => rw [hp] at e; cases e

theorem only_must {α : Type} {p : Parser α} {R : α → List Token → List Token → Prop} (h : Only p R) : Only (must p) R := by
  intro s ts a r hs e
  unfold must at e
  cases hp : p s with
  | ok b r1 => rw [hp] at e; cases e; exact h s ts _ _ hs hp
  | fail => rw [hp] at e; cases e
  | fatal => rw [hp] at e; cases e

/-- Repetition. -/
inductive Star {α : Type} (R : α → List Token → List Token → Prop) : List α → List Token → List Token → Prop
  | nil {ts} : Star R [] ts ts
  | cons {a as ts mid rest} : R a ts mid → Star R as mid rest → Star R (a :: as) ts rest

theorem only_many {α : Type} {p : Parser α} {R : α → List Token → List Token → Prop} (h : Only p R) : Only (many p) (Star R) := by
  have key : ∀ n s ts as r, Tokens s ts → manyN p n s = .ok as r → ∃ rest, Tokens r rest ∧ Star R as ts rest := by
    intro n
    induction n with
    | zero =>
      intro s ts as r hs e
      cases e
      exact ⟨ts, hs, .nil⟩
    | succ n ih =>
      intro s ts as r hs e
      unfold manyN at e
      cases hp : p s with
      | ok b r1 =>
        rw [hp] at e
        simp only at e
        obtain ⟨mid, h1, h2⟩ := h s ts _ _ hs hp
        cases hm : manyN p n r1 with
        | ok bs r2 =>
          rw [hm] at e
          cases e
          obtain ⟨rest, h3, h4⟩ := ih _ _ _ _ h1 hm
          exact ⟨rest, h3, .cons h2 h4⟩
        | fail => rw [hm] at e; cases e
        | fatal => rw [hm] at e; cases e
      | fail => rw [hp] at e; cases e; exact ⟨ts, hs, .nil⟩
      | fatal => rw [hp] at e; cases e
  intro s ts as r hs e
  exact key _ s ts as r hs e

theorem only_many1 {α : Type} {p : Parser α} {R : α → List Token → List Token → Prop} (h : Only p R) :
    Only (many1 p) fun as ts rest => as ≠ [] ∧ Star R as ts rest := by
  intro s ts as r hs e
  obtain ⟨rest, h1, a, mid, h2, as', mid', h3, rfl, rfl⟩ := only_bind h (fun a => only_bind (only_many h) fun as => only_pure _) s ts as r hs e
  exact ⟨_, h1, by simp, .cons h2 h3⟩

theorem Only.mono {α : Type} {p : Parser α} {R R' : α → List Token → List Token → Prop} (h : Only p R) (hr : ∀ a ts rest, R a ts rest → R' a ts rest) : Only p R' := by
  intro s ts a r hs e
  obtain ⟨rest, h1, h2⟩ := h s ts a r hs e
  exact ⟨rest, h1, hr _ _ _ h2⟩

/-! ## Tokens -/

/-- What is left of a word, if anything. -/
def left (y : Text) (l : List Token) : List Token := if y = [] then l else .word y :: l

theorem left_nil (l : List Token) : left [] l = l := if_pos rfl
theorem left_cons (c : Char) (y : Text) (l : List Token) : left (c :: y) l = .word (c :: y) :: l := if_neg (by simp)

theorem tokens_left {x y r : Text} {l : List Token} (h : WordIn (x ++ y) r) (hr : Tokens r l) : Tokens (y ++ r) (left y l) := by
  cases y with
  | nil => rw [left_nil]; exact hr
  | cons c y => rw [left_cons]; exact .word (h.suffix (by simp)) hr

theorem word_text {s w : Text} {l : List Token} (h : Tokens s (.word w :: l)) : ∃ r, skipWs s = w ++ r ∧ WordIn w r ∧ Tokens r l := by
  have := tokens_begin h
  generalize hu : skipWs s = u at this
  cases this with
  | word h1 h2 => exact ⟨_, rfl, h1, h2⟩

theorem edge_text {s : Text} {ts : List Token} (h : Tokens s ts) (hw : ∀ w l, ts ≠ .word w :: l) : Edge (skipWs s) := begins_edge (tokens_begin h) hw

theorem yields_mark {c : Char} (rest : List Token) : Yields (lit [c]) (.mark c :: rest) () rest := by
  intro s hs
  have := tokens_begin hs
  unfold lit
  generalize hu : skipWs s = u at this
  cases this with
  | mark h1 h2 => exact ⟨_, by simp [stripPrefix], h2⟩

theorem fails_mark {c : Char} (hc : Mark c) {ts : List Token} (h : ∀ l, ts ≠ .mark c :: l) : Fails (lit [c]) ts := by
  intro s hs
  have := tokens_begin hs
  have hne : c ≠ '/' := by rintro rfl; revert hc; unfold Mark; decide
  unfold lit
  generalize hu : skipWs s = u at this
  cases this with
  | nil => rfl
  | @mark d _ _ h1 h2 =>
    have : c ≠ d := by rintro rfl; exact h _ rfl
    simp [stripPrefix, this]
  | @word w _ _ h1 h2 =>
    obtain ⟨d, w, rfl⟩ := List.exists_cons_of_ne_nil h1.nonempty
    have : c ≠ d := by rintro rfl; exact (h1.chars _ (List.mem_cons_self ..)).2 hc
    simp [stripPrefix, this]
  | comment h1 => simp [stripPrefix, hne]

theorem only_mark {c : Char} (hc : Mark c) : Only (lit [c]) fun _ ts rest => ts = .mark c :: rest := by
  intro s ts a r hs e
  by_cases h : ∃ l, ts = .mark c :: l
  · obtain ⟨l, rfl⟩ := h
    obtain ⟨r', e', h'⟩ := yields_mark l s hs
    rw [e] at e'
    cases e'
    exact ⟨l, h', rfl⟩
  · rw [fails_mark hc (fun l hl => h ⟨l, hl⟩) s hs] at e
    cases e

theorem yields_comment (rest : List Token) : Yields comment (.comment :: rest) () rest := by
  intro s hs
  have := tokens_begin hs
  rw [comment_skip]
  generalize hu : skipWs s = u at this
  cases this with
  | comment h => exact comment_found h

theorem fails_comment {ts : List Token} (h : ∀ l, ts ≠ .comment :: l) : Fails comment ts := by
  intro s hs
  have hb := tokens_begin hs
  apply comment_none
  generalize hu : skipWs s = u at hb
  cases hb with
  | nil => rintro (⟨r, h⟩ | ⟨b, r, h⟩) <;> cases h
  | mark hc =>
    have : ¬ Mark '/' := by unfold Mark; decide
    rintro (⟨r, h⟩ | ⟨b, r, h⟩)
    · simp only [List.cons.injEq] at h; rw [h.1] at hc; exact this hc
    · simp only [List.cons.injEq] at h; rw [h.1] at hc; exact this hc
  | word hw => exact hw.noComment [] _ rfl hw.nonempty
  | comment => exact absurd rfl (h _)

theorem only_comment : Only comment fun _ ts rest => ts = .comment :: rest := by
  intro s ts a r hs e
  by_cases h : ∃ l, ts = .comment :: l
  · obtain ⟨l, rfl⟩ := h
    obtain ⟨r', e', h'⟩ := yields_comment l s hs
    rw [e] at e'
    cases e'
    exact ⟨l, h', rfl⟩
  · rw [fails_comment (fun l hl => h ⟨l, hl⟩) s hs] at e
    cases e

/-- The text without its first word has no keyword character at its beginning. -/
def Stops (f : Char → Bool) (y : Text) : Prop := ∀ c ∈ y.head?, f c = false

theorem keyword_text {k y s r : Text} (hk : Inner k) (hy : Stops isKeywordChar y) (e : skipWs s = (k ++ y) ++ r) (hw : WordIn (k ++ y) r) : keyword k s = .ok () (y ++ r) := by
  unfold keyword
  rw [e, strip_word hk hw.ends.edge, show stripPrefix k (k ++ y) = some y from by
    clear e hw hk
    induction k with
    | nil => rfl
    | cons c k ih => simp only [List.cons_append, stripPrefix, if_true, ih]]
  simp only [Option.map_some]
  cases y with
  | nil =>
    rw [List.nil_append]
    cases r with
    | nil => rfl
    | cons c r => simp only [outside_notKeyword (hw.ends.edge c rfl)]; rfl
  | cons c y =>
    have := hy c rfl
    simp only [List.cons_append, this]
    rfl

theorem yields_keyword {k y : Text} (hk : Inner k) (hy : Stops isKeywordChar y) (l : List Token) : Yields (keyword k) (.word (k ++ y) :: l) () (left y l) := by
  intro s hs
  obtain ⟨r, e, hw, hr⟩ := word_text hs
  exact ⟨y ++ r, keyword_text hk hy e hw, tokens_left hw hr⟩

theorem fails_keyword {k : Text} (hk : Inner k) (hne : k ≠ []) {ts : List Token} (h : ∀ y l, ts = .word (k ++ y) :: l → ¬ Stops isKeywordChar y) :
    Fails (keyword k) ts := by
  intro s hs
  unfold keyword
  by_cases hw : ∃ w l, ts = .word w :: l
  · obtain ⟨w, l, rfl⟩ := hw
    obtain ⟨r, e, hw, hr⟩ := word_text hs
    rw [e, strip_word hk hw.ends.edge]
    cases hsp : stripPrefix k w with
    | none => rfl
    | some y =>
      have := stripPrefix_some hsp
      subst this
      have := h y l rfl
      unfold Stops at this
      push Not at this
      obtain ⟨c, hc, hf⟩ := this
      cases y with
      | nil => cases hc
      | cons d y =>
        cases hc
        have hf : isKeywordChar c = true := by simpa using hf
        simp only [Option.map_some, List.cons_append, hf, if_true]
  · rw [strip_edge hk hne (edge_text hs fun w l e => hw ⟨w, l, e⟩)]

/-- A beginning of the first word is taken off. -/
def Cut (n : Text) (f : Char → Bool) (ts rest : List Token) : Prop := ∃ y l, ts = .word (n ++ y) :: l ∧ rest = left y l ∧ Stops f y

theorem only_keyword {k : Text} (hk : Inner k) (hne : k ≠ []) : Only (keyword k) fun _ ts rest => Cut k isKeywordChar ts rest := by
  intro s ts a r hs e
  by_cases h : ∃ y l, ts = .word (k ++ y) :: l ∧ Stops isKeywordChar y
  · obtain ⟨y, l, rfl, hy⟩ := h
    obtain ⟨r', e', h'⟩ := yields_keyword hk hy l s hs
    rw [e] at e'
    cases e'
    exact ⟨_, h', y, l, rfl, rfl, hy⟩
  · rw [fails_keyword hk hne (fun y l hl hy => h ⟨y, l, hl, hy⟩) s hs] at e
    cases e

/-- A beginning of a word that `Word` takes. -/
structure Taken (init body : Char → Bool) (n : Text) : Prop where
  head : ∃ c ∈ n.head?, init c = true
  tail : ∀ c ∈ n.tail, body c = true

theorem yields_word {init body : Char → Bool} (hb : InnerSet body) {n y : Text} (hn : Taken init body n) (hy : Stops body y) (l : List Token) :
    Yields (word init body) (.word (n ++ y) :: l) n (left y l) := by
  intro s hs
  obtain ⟨r, e, hw, hr⟩ := word_text hs
  have h2 := tokens_left hw hr
  obtain ⟨c, hc, hi⟩ := hn.head
  cases n with
  | nil => cases hc
  | cons d n =>
    cases hc
    refine ⟨y ++ r, ?_, h2⟩
    unfold word
    rw [e]
    have hend : ∀ c ∈ (y ++ r).head?, body c = false := by
      intro c hc
      cases y with
      | nil =>
        cases hbc : body c with
        | false => rfl
        | true => exact absurd (hw.ends.edge c hc) (hb c hbc)
      | cons d y => exact hy c hc
    have ht : (n ++ (y ++ r)).takeWhile body = n ∧ (n ++ (y ++ r)).dropWhile body = y ++ r := by
      have htl := hn.tail
      simp only [List.tail_cons] at htl
      clear e hw hs hn
      induction n with
      | nil =>
        cases hyr : y ++ r with
        | nil => exact ⟨rfl, rfl⟩
        | cons c z => have := hend c (by rw [hyr]; rfl); simp [this]
      | cons c n ih =>
        have hc := htl c (List.mem_cons_self ..)
        have := ih fun c hc => htl c (List.mem_cons_of_mem _ hc)
        simp only [List.cons_append, List.takeWhile_cons, List.dropWhile_cons, hc, if_true, this.1, this.2, and_self]
    simp only [List.append_assoc, List.cons_append, wordHere, hi, if_true, ht.1, ht.2]

theorem fails_word {init body : Char → Bool} (hi : InnerSet init) {ts : List Token} (h : ∀ c y l, ts = .word (c :: y) :: l → init c = false) : Fails (word init body) ts := by
  intro s hs
  unfold word
  by_cases hw : ∃ w l, ts = .word w :: l
  · obtain ⟨w, l, rfl⟩ := hw
    obtain ⟨r, e, hw, hr⟩ := word_text hs
    obtain ⟨c, w, rfl⟩ := List.exists_cons_of_ne_nil hw.nonempty
    rw [e]
    simp [wordHere, h c w l rfl]
  · have he := edge_text hs fun w l e => hw ⟨w, l, e⟩
    generalize skipWs s = u at he
    cases u with
    | nil => rfl
    | cons c u =>
      have : init c = false := by
        cases e : init c with
        | false => rfl
        | true => exact absurd (he c rfl) (hi c e)
      simp [wordHere, this]

theorem only_word {init body : Char → Bool} (hi : InnerSet init) (hb : InnerSet body) : Only (word init body) fun n ts rest => Taken init body n ∧ Cut n body ts rest := by
  intro s ts a r hs e
  by_cases h : ∃ c y l, ts = .word (c :: y) :: l ∧ init c = true
  · obtain ⟨c, y, l, rfl, hc⟩ := h
    have hn : Taken init body (c :: y.takeWhile body) := ⟨⟨c, rfl, hc⟩, fun d hd => by
      simp only [List.tail_cons] at hd
      exact List.all_eq_true.mp (List.all_takeWhile ..) d hd⟩
    have hy : Stops body (y.dropWhile body) := by
      intro d hd
      have := List.head?_dropWhile_not body y
      revert this
      cases hh : (y.dropWhile body).head? with
      | none => rw [hh] at hd; cases hd
      | some x => rw [hh] at hd; cases hd; simp
    have he : c :: y = (c :: y.takeWhile body) ++ y.dropWhile body := by simp
    rw [he] at hs
    obtain ⟨r', e', h'⟩ := yields_word hb hn hy l s hs
    rw [e] at e'
    cases e'
    exact ⟨_, h', hn, _, l, by rw [he], rfl, hy⟩
  · rw [fails_word hi (fun c y l hl => by
      cases hc : init c with
      | false => rfl
      | true => exact absurd ⟨c, y, l, hl, hc⟩ h) s hs] at e
    cases e


/-! ## Names and numbers -/

theorem idStart_iff {c : Char} : isIdStart c = true ↔ IdStart c := by
  unfold isIdStart isAlpha IdStart
  simp [or_assoc]

theorem idChar_iff {c : Char} : isIdChar c = true ↔ IdChar c := by
  unfold isIdChar isAlpha isNum IdChar IdStart
  simp
  tauto

theorem ident_iff {n : Text} : Taken isIdStart isIdChar n ↔ Ident n := by
  constructor
  · rintro ⟨⟨c, hc, h1⟩, h2⟩
    cases n with
    | nil => cases hc
    | cons d n =>
      cases hc
      have := idStart_iff.mp h1
      refine ⟨⟨_, rfl, this⟩, fun d hd => ?_⟩
      rcases List.mem_cons.mp hd with rfl | hd
      · exact .inl this
      · exact idChar_iff.mp (h2 d hd)
  · rintro ⟨⟨c, hc, h1⟩, h2⟩
    exact ⟨⟨c, hc, idStart_iff.mpr h1⟩, fun d hd => idChar_iff.mpr (h2 d (List.mem_of_mem_tail hd))⟩

theorem dotted_iff {n : Text} : Taken (fun c => isIdStart c || c = '.') (fun c => isIdChar c || c = '.') n ↔ Dotted n := by
  have k1 : ∀ c, (isIdStart c || decide (c = '.')) = true ↔ IdStart c ∨ c = '.' := fun c => by rw [Bool.or_eq_true, idStart_iff, decide_eq_true_eq]
  have k2 : ∀ c, (isIdChar c || decide (c = '.')) = true ↔ IdChar c ∨ c = '.' := fun c => by rw [Bool.or_eq_true, idChar_iff, decide_eq_true_eq]
  constructor
  · rintro ⟨⟨c, hc, h1⟩, h2⟩
    cases n with
    | nil => cases hc
    | cons d n =>
      cases hc
      have := (k1 _).mp h1
      refine ⟨⟨_, rfl, this⟩, fun d hd => ?_⟩
      rcases List.mem_cons.mp hd with rfl | hd
      · exact this.imp .inl id
      · exact (k2 _).mp (h2 d hd)
  · rintro ⟨⟨c, hc, h1⟩, h2⟩
    exact ⟨⟨c, hc, (k1 _).mpr h1⟩, fun d hd => (k2 _).mpr (h2 d (List.mem_of_mem_tail hd))⟩

theorem idChar_inner : InnerSet isIdChar := innerSet_of (by decide)
theorem idStart_inner : InnerSet isIdStart := innerSet_of (by decide)
theorem dotChar_inner : InnerSet (fun c => isIdChar c || c = '.') := innerSet_of (by decide)
theorem dotStart_inner : InnerSet (fun c => isIdStart c || c = '.') := innerSet_of (by decide)

theorem stops_nil (f : Char → Bool) : Stops f [] := fun _ h => by cases h

theorem yields_identifier {n : Text} (h : Ident n) (l : List Token) : Yields identifier (.word n :: l) n l := by
  have := yields_word idChar_inner (ident_iff.mpr h) (stops_nil _) l
  rwa [List.append_nil, left_nil] at this

theorem yields_qualified {n : Text} (h : Dotted n) (l : List Token) : Yields qualifiedIdentifier (.word n :: l) n l := by
  have := yields_word dotChar_inner (dotted_iff.mpr h) (stops_nil _) l
  rwa [List.append_nil, left_nil] at this

theorem only_identifier : Only identifier fun n ts rest => Ident n ∧ Cut n isIdChar ts rest :=
  (only_word idStart_inner idChar_inner).mono fun _ _ _ h => ⟨ident_iff.mp h.1, h.2⟩

theorem only_qualified : Only qualifiedIdentifier fun n ts rest => Dotted n ∧ Cut n (fun c => isIdChar c || c = '.') ts rest :=
  (only_word dotStart_inner dotChar_inner).mono fun _ _ _ h => ⟨dotted_iff.mp h.1, h.2⟩

theorem fails_identifier {ts : List Token} (h : ∀ c y l, ts = .word (c :: y) :: l → isIdStart c = false) : Fails identifier ts := fails_word idStart_inner h

theorem yields_key {k : Text} (hk : Inner k) (l : List Token) : Yields (keyword k) (.word k :: l) () l := by
  have := yields_keyword hk (stops_nil _) l
  rwa [List.append_nil, left_nil] at this

/-- The value of a digit, as it is computed. -/
def digitOf (c : Char) : Nat := if isNum c then c.toNat - 48 else if 97 ≤ c.toNat then c.toNat - 87 else c.toNat - 55

theorem numberOf_append (base : Nat) (t : Text) (c : Char) : numberOf base (t ++ [c]) = base * numberOf base t + digitOf c := by
  unfold numberOf digitOf
  rw [List.foldl_append]
  rfl

theorem digit_ten {c : Char} {d : Nat} : Digit 10 c d ↔ isNum c = true ∧ digitOf c = d := by
  unfold Digit digitOf isNum
  simp only [decide_eq_true_eq]
  constructor
  · rintro ⟨h1, ⟨h2, h3⟩ | ⟨h2, h3⟩⟩
    · refine ⟨by omega, ?_⟩
      rw [if_pos (by omega)]
      omega
    · omega
  · rintro ⟨h1, h2⟩
    rw [if_pos h1] at h2
    omega

theorem digit_sixteen {c : Char} {d : Nat} : Digit 16 c d ↔ isHexNum c = true ∧ digitOf c = d := by
  unfold Digit digitOf isHexNum isNum
  simp only [decide_eq_true_eq, Bool.or_eq_true]
  constructor
  · rintro ⟨h1, ⟨h2, h3⟩ | ⟨h2, h3⟩⟩
    · refine ⟨by omega, ?_⟩
      rw [if_pos (by omega)]
      omega
    · refine ⟨by omega, ?_⟩
      rw [if_neg (by omega)]
      split <;> omega
  · rintro ⟨h1, h2⟩
    split at h2
    · omega
    · split at h2 <;> omega

theorem numeral_iff {base : Nat} {f : Char → Bool} (hd : ∀ c d, Digit base c d ↔ f c = true ∧ digitOf c = d) {t : Text} {n : Nat} :
    Numeral base t n ↔ t ≠ [] ∧ (∀ c ∈ t, f c = true) ∧ numberOf base t = n := by
  constructor
  · intro h
    induction h with
    | one h =>
      have := (hd _ _).mp h
      refine ⟨by simp, by simpa using this.1, ?_⟩
      have e := numberOf_append base [] ‹Char›
      rw [List.nil_append] at e
      rw [e, this.2]
      simp [numberOf]
    | more _ h ih =>
      have := (hd _ _).mp h
      refine ⟨by simp, ?_, by rw [numberOf_append, ih.2.2, this.2]⟩
      intro c hc
      rcases List.mem_append.mp hc with hc | hc
      · exact ih.2.1 c hc
      · rw [List.mem_singleton.mp hc]; exact this.1
  · rintro ⟨h1, h2, rfl⟩
    induction t using List.reverseRecOn with
    | nil => exact absurd rfl h1
    | append_singleton t c ih =>
      have hc : Digit base c (digitOf c) := (hd _ _).mpr ⟨h2 c (by simp), rfl⟩
      rw [numberOf_append]
      by_cases ht : t = []
      · subst ht
        have : base * numberOf base [] + digitOf c = digitOf c := by simp [numberOf]
        rw [this]
        exact .one hc
      · exact .more (ih ht fun c hc => h2 c (List.mem_append_left _ hc)) hc

theorem decimal_iff {t : Text} {n : Nat} : Numeral 10 t n ↔ Taken isNum isNum t ∧ numberOf 10 t = n := by
  rw [numeral_iff (f := isNum) fun c d => digit_ten, ← and_assoc]
  refine and_congr_left fun _ => ?_
  constructor
  · rintro ⟨h1, h2⟩
    obtain ⟨c, t, rfl⟩ := List.exists_cons_of_ne_nil h1
    exact ⟨⟨c, rfl, h2 c (List.mem_cons_self ..)⟩, fun d hd => h2 d (List.mem_of_mem_tail hd)⟩
  · rintro ⟨⟨c, hc, h1⟩, h2⟩
    cases t with
    | nil => cases hc
    | cons d t =>
      cases hc
      refine ⟨by simp, fun d hd => ?_⟩
      rcases List.mem_cons.mp hd with rfl | hd
      · exact h1
      · exact h2 d hd

theorem hexadecimal_iff {t : Text} {n : Nat} : Numeral 16 t n ↔ Taken isHexNum isHexNum t ∧ numberOf 16 t = n := by
  rw [numeral_iff (f := isHexNum) fun c d => digit_sixteen, ← and_assoc]
  refine and_congr_left fun _ => ?_
  constructor
  · rintro ⟨h1, h2⟩
    obtain ⟨c, t, rfl⟩ := List.exists_cons_of_ne_nil h1
    exact ⟨⟨c, rfl, h2 c (List.mem_cons_self ..)⟩, fun d hd => h2 d (List.mem_of_mem_tail hd)⟩
  · rintro ⟨⟨c, hc, h1⟩, h2⟩
    cases t with
    | nil => cases hc
    | cons d t =>
      cases hc
      refine ⟨by simp, fun d hd => ?_⟩
      rcases List.mem_cons.mp hd with rfl | hd
      · exact h1
      · exact h2 d hd

theorem yields_bitWidth {t : Text} {n : Nat} (h : Numeral 10 t n) (l : List Token) : Yields bitWidth (.word t :: l) n l := by
  obtain ⟨h1, rfl⟩ := decimal_iff.mp h
  have := yields_word inner_num h1 (stops_nil _) l
  rw [List.append_nil, left_nil] at this
  exact yields_bind this (yields_pure _ _)

theorem only_bitWidth : Only bitWidth fun n ts rest => ∃ t, Numeral 10 t n ∧ Cut t isNum ts rest :=
  (only_bind (only_word inner_num inner_num) fun _ => only_pure _).mono fun _ _ _ h => by
    obtain ⟨t, mid, ⟨h1, h2⟩, rfl, rfl⟩ := h
    exact ⟨t, decimal_iff.mpr ⟨h1, rfl⟩, h2⟩

theorem keyword_same {k k' y y' : Text} (hk : ∀ c ∈ k, isKeywordChar c = true) (hk' : ∀ c ∈ k', isKeywordChar c = true) (hy : Stops isKeywordChar y)
    (hy' : Stops isKeywordChar y') (e : k ++ y = k' ++ y') : k = k' ∧ y = y' := by
  induction k generalizing k' with
  | nil =>
    cases k' with
    | nil => exact ⟨rfl, e⟩
    | cons c k' =>
      rw [List.nil_append] at e
      subst e
      have := hy c rfl
      rw [hk' c (List.mem_cons_self ..)] at this
      cases this
  | cons c k ih =>
    cases k' with
    | nil =>
      rw [List.nil_append] at e
      subst e
      have := hy' c rfl
      rw [hk c (List.mem_cons_self ..)] at this
      cases this
    | cons d k' =>
      simp only [List.cons_append, List.cons.injEq] at e
      obtain ⟨rfl, e⟩ := e
      obtain ⟨rfl, rfl⟩ := ih (fun c hc => hk c (List.mem_cons_of_mem _ hc)) (fun c hc => hk' c (List.mem_cons_of_mem _ hc)) e
      exact ⟨rfl, rfl⟩

theorem basic_inner (b : BasicName) : Inner b.text ∧ b.text ≠ [] ∧ ∀ c ∈ b.text, isKeywordChar c = true :=
  ⟨inner_of (by cases b <;> decide), by cases b <;> decide, by cases b <;> decide⟩

theorem basic_injective {b b' : BasicName} (h : b.text = b'.text) : b = b' := by
  revert h
  cases b <;> cases b' <;> decide

theorem yields_basicTypeOf : ∀ (bs : List BasicName) (b : BasicName), b ∈ bs → ∀ l, Yields (basicTypeOf bs) (.word b.text :: l) b l
  | [], b, h, l => by cases h
  | b' :: bs, b, h, l => by
    unfold basicTypeOf
    by_cases hb : b = b'
    · subst hb
      exact yields_left (yields_bind (yields_key (basic_inner b).1 l) (yields_pure _ _))
    · refine yields_right (fails_bind (fails_keyword (basic_inner b').1 (basic_inner b').2.1 fun y l' e hy => hb ?_)) (yields_basicTypeOf bs b ?_ l)
      · simp only [List.cons.injEq, Token.word.injEq] at e
        have e := e.1
        rw [← List.append_nil b.text] at e
        exact basic_injective (keyword_same (basic_inner b).2.2 (basic_inner b').2.2 (stops_nil _) hy e).1
      · exact (List.mem_cons.mp h).resolve_left hb

theorem yields_basicType (b : BasicName) (l : List Token) : Yields basicType (.word b.text :: l) b l := yields_basicTypeOf _ b (by cases b <;> decide) l

theorem only_basicTypeOf : ∀ bs : List BasicName, Only (basicTypeOf bs) fun b ts rest => Cut b.text isKeywordChar ts rest
  | [] => fun _ _ _ _ _ e => by cases e
  | b :: bs => (only_orElse (only_bind (only_keyword (basic_inner b).1 (basic_inner b).2.1) fun _ => only_pure _) (only_basicTypeOf bs)).mono fun _ _ _ h => by
    rcases h with ⟨_, mid, h1, rfl, rfl⟩ | h
    · exact h1
    · exact h

theorem only_basicType : Only basicType fun b ts rest => Cut b.text isKeywordChar ts rest := only_basicTypeOf _


theorem wordHere_edge {f : Char → Bool} (hf : InnerSet f) {r : Text} (hr : Edge r) : ∀ {w n u : Text}, wordHere f f (w ++ r) = .ok n u →
    Taken f f n ∧ ∃ y, w = n ++ y ∧ u = y ++ r
  | [], n, u, e => by
    cases r with
    | nil => cases e
    | cons c r =>
      have : f c = false := by
        cases h : f c with
        | false => rfl
        | true => exact absurd (hr c rfl) (hf c h)
      simp [wordHere, this] at e
  | c :: w, n, u, e => by
    simp only [List.cons_append, wordHere] at e
    split at e
    · rename_i hc
      obtain ⟨k1, k2⟩ := takeWhile_edge hf hr w
      rw [k1, k2] at e
      cases e
      exact ⟨⟨⟨c, rfl, hc⟩, fun d hd => List.all_eq_true.mp (List.all_takeWhile ..) d hd⟩, w.dropWhile f, by simp, rfl⟩
    · cases e

theorem wordHere_all {f : Char → Bool} (hf : InnerSet f) {r n : Text} (hr : Edge r) (hn : Taken f f n) : wordHere f f (n ++ r) = .ok n r := by
  obtain ⟨⟨c, hc, h1⟩, h2⟩ := hn
  cases n with
  | nil => cases hc
  | cons d n =>
    cases hc
    obtain ⟨k1, k2⟩ := takeWhile_edge hf hr n
    simp only [List.tail_cons] at h2
    have e1 : n.takeWhile f = n ∧ n.dropWhile f = [] := by
      clear k1 k2
      induction n with
      | nil => exact ⟨rfl, rfl⟩
      | cons c n ih =>
        have := ih fun c hc => h2 c (List.mem_cons_of_mem _ hc)
        simp [h2 c (List.mem_cons_self ..), this.1, this.2]
    simp only [List.cons_append, wordHere, h1, if_true, k1, k2, e1.1, e1.2, List.nil_append]

theorem zeros {t : Text} (h : ∀ c ∈ t, c = '0') : numberOf 10 t = 0 := by
  induction t using List.reverseRecOn with
  | nil => rfl
  | append_singleton t c ih =>
    rw [numberOf_append, ih fun c hc => h c (List.mem_append_left _ hc), h c (by simp)]
    rfl

theorem literal_only {w r u : Text} {n : Nat} (hr : Edge r) (e : orElse hexLiteral decLiteral (w ++ r) = .ok n u) : ∃ t y, w = t ++ y ∧ u = y ++ r ∧ Unsigned t n := by
  have hdec : ∀ {n u}, decLiteral (w ++ r) = .ok n u → ∃ t y, w = t ++ y ∧ u = y ++ r ∧ Unsigned t n := by
    intro n u e
    unfold decLiteral at e
    split at e
    · rename_i v u' hw
      obtain ⟨h1, y, rfl, rfl⟩ := wordHere_edge inner_num hr hw
      split at e
      · cases e
      · rename_i hz
        cases e
        refine ⟨v, y, rfl, rfl, ?_⟩
        by_cases h0 : v.head? = some '0'
        · have hall : ∀ c ∈ v, c = '0' := by
            intro c hc
            have : v.any (· ≠ '0') ≠ true := fun h => hz ⟨h0, h⟩
            simp only [ne_eq, List.any_eq_true, decide_eq_true_eq, not_exists, not_and, not_not] at this
            exact this c hc
          rw [zeros hall]
          have : v = List.replicate v.length '0' := List.eq_replicate_of_mem hall
          cases v with
          | nil => cases h0
          | cons c v => rw [this]; exact .zero
        · exact .decimal (decimal_iff.mpr ⟨h1, rfl⟩) h0
    · cases e
    · cases e
  unfold orElse at e
  split at e
  · exact hdec e
  · rename_i hx
    unfold hexLiteral at e
    rw [strip_word (k := "0x".toList) (inner_of (by decide)) hr] at e
    cases hs : stripPrefix "0x".toList w with
    | none => rw [hs] at e; cases e
    | some x =>
      have := stripPrefix_some hs
      subst this
      rw [hs] at e
      simp only [Option.map_some] at e
      split at e
      · rename_i v u' hw
        obtain ⟨h1, y, rfl, rfl⟩ := wordHere_edge inner_hex hr hw
        cases e
        exact ⟨'0' :: 'x' :: v, y, by simp, rfl, .hexadecimal (hexadecimal_iff.mpr ⟨h1, rfl⟩)⟩
      · cases e
      · cases e

theorem literal_found {t r : Text} {n : Nat} (h : Unsigned t n) (hr : Edge r) : orElse hexLiteral decLiteral (t ++ r) = .ok n r := by
  have hdec : ∀ {t n}, Taken isNum isNum t → numberOf 10 t = n → (t.head? = some '0' → ∀ c ∈ t, c = '0') → orElse hexLiteral decLiteral (t ++ r) = .ok n r := by
    intro t n ht hn h0
    have hx : hexLiteral (t ++ r) = .fail := by
      unfold hexLiteral
      rw [strip_word (k := "0x".toList) (inner_of (by decide)) hr]
      cases hs : stripPrefix "0x".toList t with
      | none => rfl
      | some x =>
        have := stripPrefix_some hs
        subst this
        have := ht.tail 'x' (by simp)
        cases this
    unfold orElse
    rw [hx]
    simp only
    unfold decLiteral
    rw [wordHere_all inner_num hr ht]
    simp only
    rw [if_neg ?_, hn]
    rintro ⟨h1, h2⟩
    obtain ⟨c, hc, hne⟩ := List.any_eq_true.mp h2
    simp only [ne_eq, decide_not, Bool.not_eq_eq_eq_not, Bool.not_true, decide_eq_false_iff_not] at hne
    exact hne (h0 h1 c hc)
  cases h with
  | @zero k =>
    have h0 : ∀ c ∈ List.replicate (k + 1) '0', c = '0' := fun c hc => List.eq_of_mem_replicate hc
    refine hdec ⟨⟨'0', rfl, by decide⟩, fun c hc => ?_⟩ (zeros h0) fun _ => h0
    rw [h0 c (List.mem_of_mem_tail hc)]
    decide
  | decimal h h0 =>
    obtain ⟨h1, h2⟩ := decimal_iff.mp h
    exact hdec h1 h2 fun h => absurd h h0
  | @hexadecimal t _ h =>
    obtain ⟨h1, rfl⟩ := hexadecimal_iff.mp h
    unfold orElse hexLiteral
    have : stripPrefix "0x".toList ('0' :: 'x' :: t ++ r) = some (t ++ r) := by
      show stripPrefix ['0', 'x'] _ = _
      simp [stripPrefix]
    rw [this]
    simp only [wordHere_all inner_hex hr h1]

theorem unsigned_head {t : Text} {n : Nat} (h : Unsigned t n) : ∃ c t', t = c :: t' ∧ c ≠ '-' := by
  cases h with
  | zero => exact ⟨_, _, rfl, by decide⟩
  | decimal h =>
    obtain ⟨⟨c, hc, h1⟩, _⟩ := (decimal_iff.mp h).1
    cases t with
    | nil => cases hc
    | cons d t =>
      refine ⟨d, t, rfl, ?_⟩
      rintro rfl
      cases hc
      cases h1
  | hexadecimal => exact ⟨_, _, rfl, by decide⟩

theorem yields_signed {t : Text} {v : Int} (h : Signed t v) (l : List Token) : Yields signedLiteral (.word t :: l) v l := by
  intro s hs
  obtain ⟨r, e, hw, hr⟩ := word_text hs
  refine ⟨r, ?_, hr⟩
  unfold signedLiteral
  rw [e]
  cases h with
  | plain h =>
    obtain ⟨c, t', rfl, hc⟩ := unsigned_head h
    rw [show stripPrefix ['-'] (c :: t' ++ r) = none from by simp [stripPrefix, Ne.symm hc]]
    simp only [bind_eq, seq, literal_found h hw.ends.edge]
    rfl
  | @minus t n h =>
    rw [show stripPrefix ['-'] ('-' :: t ++ r) = some (t ++ r) from by simp [stripPrefix]]
    simp only [bind_eq, seq, literal_found h hw.ends.edge]
    rfl

theorem only_signed : Only signedLiteral fun v ts rest => ∃ t, Signed t v ∧ Cut t (fun _ => false) ts rest := by
  intro s ts v r hs e
  have hns : ∀ y, Stops (fun _ => false) y := fun _ _ _ => rfl
  unfold signedLiteral at e
  by_cases hw : ∃ w l, ts = .word w :: l
  · obtain ⟨w, l, rfl⟩ := hw
    obtain ⟨u, eu, hw, hu⟩ := word_text hs
    rw [eu, strip_word (k := ['-']) (inner_of (by decide)) hw.ends.edge] at e
    cases hm : stripPrefix ['-'] w with
    | none =>
      rw [hm] at e
      simp only [Option.map_none, bind_eq, seq] at e
      split at e
      · rename_i n r' hl
        cases e
        obtain ⟨t, y, rfl, rfl, ht⟩ := literal_only hw.ends.edge hl
        exact ⟨left y l, tokens_left hw hu, t, .plain ht, y, l, rfl, rfl, hns y⟩
      · cases e
      · cases e
    | some x =>
      have := stripPrefix_some hm
      subst this
      rw [hm] at e
      simp only [Option.map_some, bind_eq, seq] at e
      split at e
      · rename_i n r' hl
        cases e
        obtain ⟨t, y, rfl, rfl, ht⟩ := literal_only hw.ends.edge hl
        refine ⟨left y l, tokens_left (x := '-' :: t) ?_ hu, '-' :: t, .minus ht, y, l, rfl, rfl, hns y⟩
        exact hw
      · cases e
      · cases e
  · have he := edge_text hs fun w l e => hw ⟨w, l, e⟩
    rw [strip_edge (k := ['-']) (inner_of (by decide)) (by simp) he] at e
    simp only [bind_eq, seq] at e
    split at e
    · rename_i n r' hl
      rw [← List.nil_append (skipWs s)] at hl
      obtain ⟨t, y, h1, _, ht⟩ := literal_only he hl
      obtain ⟨c, t', rfl, _⟩ := unsigned_head ht
      cases h1
    · cases e
    · cases e

/-! ### Dots -/

theorem yields_dot (y : Text) (l : List Token) : Yields (lit ['.']) (.word ('.' :: y) :: l) () (left y l) := by
  intro s hs
  obtain ⟨r, e, hw, hr⟩ := word_text hs
  refine ⟨y ++ r, ?_, tokens_left (x := ['.']) hw hr⟩
  unfold lit
  rw [e]
  simp [stripPrefix]

theorem fails_dot {ts : List Token} (h : ∀ y l, ts ≠ .word ('.' :: y) :: l) : Fails (lit ['.']) ts := by
  intro s hs
  unfold lit
  by_cases hw : ∃ w l, ts = .word w :: l
  · obtain ⟨w, l, rfl⟩ := hw
    obtain ⟨r, e, hw, hr⟩ := word_text hs
    obtain ⟨c, w, rfl⟩ := List.exists_cons_of_ne_nil hw.nonempty
    have : '.' ≠ c := by rintro rfl; exact h _ _ rfl
    rw [e]
    simp [stripPrefix, this]
  · rw [strip_edge (inner_of (by decide)) (by simp) (edge_text hs fun w l e => hw ⟨w, l, e⟩)]

theorem only_dot : Only (lit ['.']) fun _ ts rest => Cut ['.'] (fun _ => false) ts rest := by
  intro s ts a r hs e
  by_cases h : ∃ y l, ts = .word ('.' :: y) :: l
  · obtain ⟨y, l, rfl⟩ := h
    obtain ⟨r', e', h'⟩ := yields_dot y l s hs
    rw [e] at e'
    cases e'
    exact ⟨_, h', y, l, rfl, rfl, fun _ _ => rfl⟩
  · rw [fails_dot (fun y l hl => h ⟨y, l, hl⟩) s hs] at e
    cases e

/-! ## What follows a word -/

theorem left_mark {y : Text} {l m : List Token} {c : Char} (h : left y l = .mark c :: m) : y = [] ∧ l = .mark c :: m := by
  cases y with
  | nil => exact ⟨rfl, by rwa [left_nil] at h⟩
  | cons d y => rw [left_cons] at h; cases h

theorem cut_mark {n : Text} {f : Char → Bool} {ts m : List Token} {c : Char} (h : Cut n f ts (.mark c :: m)) : ts = .word n :: .mark c :: m := by
  obtain ⟨y, l, rfl, h1, _⟩ := h
  obtain ⟨rfl, rfl⟩ := left_mark h1.symm
  rw [List.append_nil]

/-- Before a word that begins with a character that does not stop the word before it. -/
theorem cut_word {n : Text} {f : Char → Bool} {ts m : List Token} {c : Char} {w : Text} (h : Cut n f ts (.word (c :: w) :: m)) (hc : f c = true) :
    ts = .word n :: .word (c :: w) :: m := by
  obtain ⟨y, l, rfl, h1, h2⟩ := h
  cases y with
  | nil => rw [left_nil] at h1; rw [h1, List.append_nil]
  | cons d y =>
    rw [left_cons] at h1
    simp only [List.cons.injEq, Token.word.injEq] at h1
    obtain ⟨⟨rfl, _⟩, _⟩ := h1
    have := h2 c rfl
    rw [hc] at this
    cases this

end Gen.Syn
