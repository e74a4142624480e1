import Verif.Lemmas.GenGrammar
import Verif.Lemmas.GenText
import Verif.Model.Gen.Schema

/-! # Reading what has been printed: tokens and lists -/

namespace Gen
open Parser Spec

theorem seq_intro {α β : Type} {p : Parser α} {f : α → Parser β} {t u : Text} {a : α} {res : Res β} (h : p t = .ok a u) (h' : f a u = res) :
    (p >>= f) t = res := by
  change seq p f t = _
  unfold seq
  rw [h]; exact h'

theorem seq_fail {α β : Type} {p : Parser α} {f : α → Parser β} {t : Text} (h : p t = .fail) : (p >>= f) t = .fail := by
  change seq p f t = _
  unfold seq
  rw [h]

theorem orElse_left {α : Type} {p q : Parser α} {t r : Text} {a : α} (h : p t = .ok a r) : orElse p q t = .ok a r := by
  unfold orElse; rw [h]

theorem orElse_right {α : Type} {p q : Parser α} {t : Text} {x : Res α} (h : p t = .fail) (h' : q t = x) : orElse p q t = x := by
  unfold orElse; rw [h]; exact h'

theorem opt_some {α : Type} {p : Parser α} {t r : Text} {a : α} (h : p t = .ok a r) : opt p t = .ok (some a) r := by
  unfold opt; rw [h]

theorem opt_none {α : Type} {p : Parser α} {t : Text} (h : p t = .fail) : opt p t = .ok none t := by
  unfold opt; rw [h]

theorem must_intro {α : Type} {p : Parser α} {t r : Text} {a : α} (h : p t = .ok a r) : must p t = .ok a r := by
  unfold must; rw [h]

theorem map_intro {α β : Type} {p : Parser α} {f : α → β} {t u : Text} {a : α} (h : p t = .ok a u) : (do pure (f (← p)) : Parser β) t = .ok (f a) u :=
  seq_intro h rfl

/-! ## White space and tokens -/

theorem skip_space (t : Text) : skipWs (' ' :: t) = skipWs t := rfl
theorem skip_nl (t : Text) : skipWs ('\n' :: t) = skipWs t := rfl

theorem skip_char {c : Char} {t : Text} (h : isWs c = false) : skipWs (c :: t) = c :: t := by
  unfold skipWs; rw [List.dropWhile_cons]; simp [h]

theorem stripPrefix_append (s r : Text) : stripPrefix s (s ++ r) = some r := by
  induction s with
  | nil => cases r <;> rfl
  | cons c s ih => simp [stripPrefix, ih]

theorem lit_intro {s t r : Text} (h : skipWs t = s ++ r) : lit s t = .ok () r := by
  unfold lit; rw [h, stripPrefix_append]

theorem keyword_intro {s t r : Text} (h : skipWs t = s ++ r) (hr : ∀ c ∈ r.head?, isKeywordChar c = false) : keyword s t = .ok () r := by
  unfold keyword; rw [h, stripPrefix_append]
  cases r with
  | nil => rfl
  | cons c r => simp only; rw [hr c rfl]; rfl

/-- Another first character. -/
theorem stripPrefix_fail {c d : Char} {s r : Text} (h : c ≠ d) : stripPrefix (c :: s) (d :: r) = none := by
  simp [stripPrefix, h]

theorem lit_fail {c d : Char} {s t r : Text} (ht : skipWs t = d :: r) (h : c ≠ d) : lit (c :: s) t = .fail := by
  unfold lit; rw [ht, stripPrefix_fail h]

theorem keyword_fail {c d : Char} {s t r : Text} (ht : skipWs t = d :: r) (h : c ≠ d) : keyword (c :: s) t = .fail := by
  unfold keyword; rw [ht, stripPrefix_fail h]

theorem keyword_none {s t : Text} (h : stripPrefix s (skipWs t) = none) : keyword s t = .fail := by
  unfold keyword; rw [h]

theorem comment_fail {d : Char} {t r : Text} (ht : skipWs t = d :: r) (h : d ≠ '/') : comment t = .fail := by
  unfold comment; rw [ht, stripPrefix_fail h.symm, stripPrefix_fail h.symm]

theorem takeWhile_stop {p : Char → Bool} {w r : Text} (hw : ∀ c ∈ w, p c = true) (hr : ∀ c ∈ r.head?, p c = false) :
    (w ++ r).takeWhile p = w ∧ (w ++ r).dropWhile p = r := by
  induction w with
  | nil =>
    cases r with
    | nil => exact ⟨rfl, rfl⟩
    | cons c r => simp [hr c rfl]
  | cons a w ih =>
    obtain ⟨h1, h2⟩ := ih fun c hc => hw c (by simp [hc])
    simp [hw a (by simp), h1, h2]

theorem word_intro {init body : Char → Bool} {w r t : Text} (ht : skipWs t = w ++ r) (hne : ∃ c ∈ w.head?, init c = true)
    (hw : ∀ c ∈ w, body c = true) (hr : ∀ c ∈ r.head?, body c = false) : word init body t = .ok w r := by
  unfold word wordHere
  rw [ht]
  cases w with
  | nil => obtain ⟨c, hc, _⟩ := hne; simp at hc
  | cons a w =>
    obtain ⟨c, hc, hi⟩ := hne
    simp only [List.head?_cons, Option.mem_some_iff] at hc
    subst hc
    obtain ⟨h1, h2⟩ := takeWhile_stop (w := w) (fun c hc => hw c (by simp [hc])) hr
    simp only [List.cons_append, hi, if_true, h1, h2]

theorem word_fail {init body : Char → Bool} {t r : Text} {c : Char} (ht : skipWs t = c :: r) (hc : init c = false) : word init body t = .fail := by
  unfold word wordHere
  rw [ht]; simp [hc]

theorem idStart_ws {c : Char} (h : IdStart c) : isWs c = false := by
  unfold IdStart at h
  simp only [isWs, decide_eq_false_iff_not]
  rintro (rfl | rfl | rfl | rfl) <;> revert h <;> decide

theorem ident_head {w : Text} (h : Ident w) : ∃ c u, w = c :: u ∧ IdStart c := by
  obtain ⟨⟨c, h1, h2⟩, _⟩ := h
  cases w with
  | nil => simp at h1
  | cons a u => simp only [List.head?_cons, Option.mem_some_iff] at h1; subst h1; exact ⟨a, u, rfl, h2⟩

theorem dotted_head {w : Text} (h : Dotted w) : ∃ c u, w = c :: u ∧ (IdStart c ∨ c = '.') := by
  obtain ⟨⟨c, h1, h2⟩, _⟩ := h
  cases w with
  | nil => simp at h1
  | cons a u => simp only [List.head?_cons, Option.mem_some_iff] at h1; subst h1; exact ⟨a, u, rfl, h2⟩

theorem skip_ident {w : Text} (h : Ident w) (r : Text) : skipWs (w ++ r) = w ++ r := by
  obtain ⟨c, u, rfl, hc⟩ := ident_head h
  exact skip_char (idStart_ws hc)

theorem skip_dotted {w : Text} (h : Dotted w) (r : Text) : skipWs (w ++ r) = w ++ r := by
  obtain ⟨c, u, rfl, hc⟩ := dotted_head h
  refine skip_char ?_
  rcases hc with hc | rfl
  · exact idStart_ws hc
  · rfl

theorem identifier_intro {w r t : Text} (h : Ident w) (ht : skipWs t = w ++ r) (hr : ∀ c ∈ r.head?, isIdChar c = false) : identifier t = .ok w r := by
  refine word_intro ht ?_ (fun c hc => (isIdChar_iff c).mpr (h.2 c hc)) hr
  obtain ⟨c, h1, h2⟩ := h.1
  exact ⟨c, h1, (isIdStart_iff c).mpr h2⟩

theorem qualified_intro {w r t : Text} (h : Dotted w) (ht : skipWs t = w ++ r) (hr : ∀ c ∈ r.head?, (isIdChar c || c = '.') = false) :
    qualifiedIdentifier t = .ok w r := by
  refine word_intro ht ?_ (fun c hc => ?_) hr
  · obtain ⟨c, h1, h2⟩ := h.1
    refine ⟨c, h1, ?_⟩
    rcases h2 with h2 | h2
    · simp [(isIdStart_iff c).mpr h2]
    · simp [h2]
  · rcases h.2 c hc with h2 | h2
    · simp [(isIdChar_iff c).mpr h2]
    · simp [h2]

theorem identifier_fail {t r : Text} {c : Char} (ht : skipWs t = c :: r) (hc : isIdStart c = false) : identifier t = .fail := word_fail ht hc

/-! ## Numbers -/

theorem numberOf_digits (t : Text) (h : ∀ c ∈ t, IsDigit c) : numberOf 10 t = digitsVal t := by
  unfold numberOf digitsVal
  suffices ∀ n, t.foldl (fun n c => 10 * n + (if isNum c then c.toNat - 48 else if 97 ≤ c.toNat then c.toNat - 87 else c.toNat - 55)) n =
      t.foldl (fun n c => 10 * n + digitVal c) n from this 0
  induction t with
  | nil => intro n; rfl
  | cons c t ih =>
    intro n
    have hc : isNum c = true := by
      have := h c (by simp)
      simp only [IsDigit] at this
      simp [isNum, this]
    simp only [List.foldl_cons, hc, if_true]
    exact ih (fun x hx => h x (by simp [hx])) _

theorem isDigit_isNum {c : Char} (h : IsDigit c) : isNum c = true := by
  simp only [IsDigit] at h
  simp [isNum, h]

theorem digit_ws {c : Char} (h : IsDigit c) : isWs c = false := by
  unfold IsDigit at h
  simp only [isWs, decide_eq_false_iff_not]
  rintro (rfl | rfl | rfl | rfl) <;> revert h <;> decide

theorem natText_cons (n : Nat) : ∃ c u, natText n = c :: u ∧ IsDigit c := by
  obtain ⟨c, u, h⟩ := List.exists_cons_of_ne_nil (natText_ne_nil n)
  exact ⟨c, u, h, natText_digits n c (by rw [h]; simp)⟩

theorem skip_natText (n : Nat) (r : Text) : skipWs (natText n ++ r) = natText n ++ r := by
  obtain ⟨c, u, h, hc⟩ := natText_cons n
  rw [h]; exact skip_char (digit_ws hc)

theorem bitWidth_intro {n : Nat} {t r : Text} (ht : skipWs t = natText n ++ r) (hr : ∀ c ∈ r.head?, isNum c = false) : bitWidth t = .ok n r := by
  have hw : word isNum isNum t = .ok (natText n) r := by
    obtain ⟨c, u, h, hc⟩ := natText_cons n
    refine word_intro ht ⟨c, by rw [h]; rfl, isDigit_isNum hc⟩ (fun c hc => isDigit_isNum (natText_digits n c hc)) hr
  have : bitWidth t = .ok (numberOf 10 (natText n)) r := map_intro hw
  rw [this, numberOf_digits _ (natText_digits n), digitsVal_natText]

theorem natText_zero : natText 0 = ['0'] := by
  rw [natText, if_pos (by decide)]; rfl

theorem dec_intro {n : Nat} {r : Text} (hr : ∀ c ∈ r.head?, isNum c = false) : decLiteral (natText n ++ r) = .ok n r := by
  have hw : wordHere isNum isNum (natText n ++ r) = .ok (natText n) r := by
    have := word_intro (init := isNum) (body := isNum) (w := natText n) (r := r) (skip_natText n r) (by
      obtain ⟨c, u, h, hc⟩ := natText_cons n
      exact ⟨c, by rw [h]; rfl, isDigit_isNum hc⟩) (fun c hc => isDigit_isNum (natText_digits n c hc)) hr
    unfold word at this
    rwa [skip_natText] at this
  unfold decLiteral
  rw [hw]
  simp only
  rw [if_neg, numberOf_digits _ (natText_digits n), digitsVal_natText]
  rintro ⟨h1, h2⟩
  have h0 := (natText_head n).mp h1
  subst h0
  rw [natText_zero] at h2
  revert h2; decide

theorem hex_fail {n : Nat} {r : Text} (hr : ∀ c ∈ r.head?, c ≠ 'x') : hexLiteral (natText n ++ r) = .fail := by
  have : stripPrefix "0x".toList (natText n ++ r) = none := by
    show stripPrefix ['0', 'x'] _ = none
    obtain ⟨c, u, h, hc⟩ := natText_cons n
    rw [h]
    by_cases h0 : c = '0'
    · subst h0
      have hn := (natText_head n).mp (by rw [h]; rfl)
      subst hn
      rw [natText_zero] at h
      simp only [List.cons.injEq] at h
      obtain ⟨_, rfl⟩ := h
      cases r with
      | nil => rfl
      | cons d r =>
        have hd := hr d rfl
        simp only [List.cons_append, List.nil_append, stripPrefix, if_true]
        rw [if_neg (Ne.symm hd)]
    · exact stripPrefix_fail (Ne.symm h0)
  unfold hexLiteral
  rw [this]

theorem literal_intro {n : Nat} {r : Text} (hr : ∀ c ∈ r.head?, isNum c = false ∧ c ≠ 'x') : orElse hexLiteral decLiteral (natText n ++ r) = .ok n r :=
  orElse_right (hex_fail fun c hc => (hr c hc).2) (dec_intro fun c hc => (hr c hc).1)

theorem signed_intro {v : Int} {t r : Text} (ht : skipWs t = skipWs (intText v ++ r)) (hr : ∀ c ∈ r.head?, isNum c = false ∧ c ≠ 'x') :
    signedLiteral t = .ok v r := by
  by_cases hv : v < 0
  · have e : intText v = '-' :: natText v.natAbs := if_pos hv
    have hs : stripPrefix ['-'] (skipWs t) = some (natText v.natAbs ++ r) := by
      rw [ht, e, List.cons_append, skip_char (by rfl)]
      exact stripPrefix_append ['-'] _
    have h := seq_intro (f := fun n : Nat => (pure (-(n : Int)) : Parser Int)) (literal_intro (n := v.natAbs) hr) rfl
    rw [show (-((v.natAbs : Nat) : Int)) = v by omega] at h
    unfold signedLiteral
    rw [hs]
    exact h
  · have e : intText v = natText v.natAbs := if_neg hv
    have hs : stripPrefix ['-'] (skipWs t) = none := by
      rw [ht, e, skip_natText]
      obtain ⟨c, u, h, hc⟩ := natText_cons v.natAbs
      rw [h]
      refine stripPrefix_fail ?_
      rintro rfl
      revert hc; decide
    have h := seq_intro (f := fun n : Nat => (pure (n : Int) : Parser Int)) (literal_intro (n := v.natAbs) hr) rfl
    rw [show (((v.natAbs : Nat) : Int)) = v by omega] at h
    unfold signedLiteral
    rw [hs, ht, e, skip_natText]
    exact h

theorem intText_head (v : Int) : ∃ c u, intText v = c :: u ∧ isWs c = false := by
  unfold intText
  split
  · exact ⟨_, _, rfl, rfl⟩
  · obtain ⟨c, u, h, hc⟩ := natText_cons v.natAbs
    exact ⟨c, u, h, digit_ws hc⟩

theorem basicType_intro (b : BasicName) (r : Text) : basicType (' ' :: (b.text ++ ' ' :: r)) = .ok b (' ' :: r) := by
  cases b <;> rfl

/-! ## Repetitions -/

theorem manyN_intro {α β : Type} {p : Parser α} {txt : β → Text} {v : β → α} {l : List β} {stop : Text}
    (hp : ∀ x ∈ l, ∀ r, p (txt x ++ r) = .ok (v x) r) (hs : p stop = .fail) : ∀ n, l.length ≤ n →
    manyN p n (l.flatMap txt ++ stop) = .ok (l.map v) stop := by
  induction l with
  | nil =>
    intro n _
    cases n with
    | zero => rfl
    | succ n => simp only [List.flatMap_nil, List.nil_append, manyN, hs]; rfl
  | cons x l ih =>
    intro n hn
    cases n with
    | zero => simp at hn
    | succ n =>
      have h1 := hp x (by simp) (l.flatMap txt ++ stop)
      simp only [List.flatMap_cons, List.append_assoc, manyN, h1,
        ih (fun y hy => hp y (by simp [hy])) n (by simpa using hn), List.map_cons]

theorem length_flatMap_le {β : Type} {txt : β → Text} {l : List β} (h : ∀ x ∈ l, txt x ≠ []) : l.length ≤ (l.flatMap txt).length := by
  induction l with
  | nil => simp
  | cons x l ih =>
    simp only [List.flatMap_cons, List.length_append, List.length_cons]
    have := List.length_pos_iff.mpr (h x (by simp))
    have := ih fun y hy => h y (by simp [hy])
    omega

theorem many_intro {α β : Type} {p : Parser α} {txt : β → Text} {v : β → α} {l : List β} {stop : Text}
    (hp : ∀ x ∈ l, ∀ r, p (txt x ++ r) = .ok (v x) r) (hne : ∀ x ∈ l, txt x ≠ []) (hs : p stop = .fail) :
    many p (l.flatMap txt ++ stop) = .ok (l.map v) stop := by
  refine manyN_intro hp hs _ ?_
  rw [List.length_append]
  exact Nat.le_trans (length_flatMap_le hne) (Nat.le_add_right ..)

theorem many_none {α : Type} {p : Parser α} {stop : Text} (hs : p stop = .fail) : many p stop = .ok [] stop := by
  unfold many
  cases stop.length with
  | zero => rfl
  | succ n => simp only [manyN, hs]

theorem many1_intro {α β : Type} {p : Parser α} {txt : β → Text} {v : β → α} {l : List β} {stop : Text} (hl : l ≠ [])
    (hp : ∀ x ∈ l, ∀ r, p (txt x ++ r) = .ok (v x) r) (hne : ∀ x ∈ l, txt x ≠ []) (hs : p stop = .fail) :
    many1 p (l.flatMap txt ++ stop) = .ok (l.map v) stop := by
  obtain ⟨x, l, rfl⟩ := List.exists_cons_of_ne_nil hl
  rw [List.flatMap_cons, List.append_assoc]
  refine seq_intro (hp x (by simp) _) (seq_intro (many_intro (fun y hy => hp y (by simp [hy])) (fun y hy => hne y (by simp [hy])) hs) rfl)

/-- Elements whose reading depends on what follows. -/
theorem manyN_intro' {α β : Type} {p : Parser α} {txt : β → Text} {v : β → α} {l : List β} {stop : Text} (R : Text → Prop)
    (hp : ∀ x ∈ l, ∀ r, R r → p (txt x ++ r) = .ok (v x) r) (hR : ∀ x ∈ l, ∀ r, R (txt x ++ r)) (hRs : R stop) (hs : p stop = .fail) : ∀ n, l.length ≤ n →
    manyN p n (l.flatMap txt ++ stop) = .ok (l.map v) stop := by
  induction l with
  | nil =>
    intro n _
    cases n with
    | zero => rfl
    | succ n => simp only [List.flatMap_nil, List.nil_append, manyN, hs]; rfl
  | cons x l ih =>
    intro n hn
    cases n with
    | zero => simp at hn
    | succ n =>
      have hr : R (l.flatMap txt ++ stop) := by
        cases l with
        | nil => exact hRs
        | cons y l => rw [List.flatMap_cons, List.append_assoc]; exact hR y (by simp) _
      have h1 := hp x (by simp) (l.flatMap txt ++ stop) hr
      simp only [List.flatMap_cons, List.append_assoc, manyN, h1,
        ih (fun y hy => hp y (by simp [hy])) (fun y hy => hR y (by simp [hy])) n (by simpa using hn), List.map_cons]

theorem many_intro' {α β : Type} {p : Parser α} {txt : β → Text} {v : β → α} {l : List β} {stop : Text} (R : Text → Prop)
    (hp : ∀ x ∈ l, ∀ r, R r → p (txt x ++ r) = .ok (v x) r) (hR : ∀ x ∈ l, ∀ r, R (txt x ++ r)) (hRs : R stop)
    (hne : ∀ x ∈ l, txt x ≠ []) (hs : p stop = .fail) : many p (l.flatMap txt ++ stop) = .ok (l.map v) stop := by
  refine manyN_intro' R hp hR hRs hs _ ?_
  rw [List.length_append]
  exact Nat.le_trans (length_flatMap_le hne) (Nat.le_add_right ..)

/-- What `commaSeparated` prints. -/
def commaTail (l : List Text) : Text := l.flatMap fun w => ',' :: ' ' :: w

theorem commaSeparated_cons (w : Text) (l : List Text) : commaSeparated (w :: l) = w ++ commaTail l := by
  induction l generalizing w with
  | nil => simp [commaSeparated, commaTail]
  | cons x l ih =>
    show w ++ [',', ' '] ++ commaSeparated (x :: l) = _
    rw [ih]; simp [commaTail]

/-- The next character does not continue a name. -/
def Stops (r : Text) : Prop := ∀ c ∈ r.head?, (isIdChar c || c = '.') = false

theorem stops_cons {c : Char} (r : Text) (h : (isIdChar c || c = '.') = false) : Stops (c :: r) := by
  intro x hx
  simp only [List.head?_cons, Option.mem_some_iff] at hx
  exact hx ▸ h

theorem qualified_stops {w : Text} (h : Dotted w) {r : Text} (hr : Stops r) : qualifiedIdentifier (' ' :: (w ++ r)) = .ok w r :=
  qualified_intro h (by rw [skip_space, skip_dotted h]) hr

theorem identifier_stops {w : Text} (h : Ident w) {r : Text} (hr : Stops r) : identifier (' ' :: (w ++ r)) = .ok w r := by
  refine identifier_intro h (by rw [skip_space, skip_ident h]) fun c hc => ?_
  have := hr c hc
  simp only [Bool.or_eq_false_iff] at this
  exact this.1

/-- Names with commas in between, before a blank. -/
theorem qualifiedList_intro {l : List Text} (hl : l ≠ []) (hd : ∀ w ∈ l, Dotted w) {d : Char} (hc : d ≠ ',') (hw : isWs d = false) (r : Text) :
    delimitedList qualifiedIdentifier (' ' :: (commaSeparated l ++ ' ' :: d :: r)) = .ok l (' ' :: d :: r) := by
  obtain ⟨w, l, rfl⟩ := List.exists_cons_of_ne_nil hl
  have hR : ∀ l : List Text, Stops (commaTail l ++ ' ' :: d :: r) := by
    intro l
    cases l with
    | nil => exact stops_cons _ rfl
    | cons x l => exact stops_cons _ rfl
  rw [commaSeparated_cons, List.append_assoc]
  refine seq_intro (qualified_stops (hd w (by simp)) (hR l)) ?_
  have hm : many (do lit [',']; qualifiedIdentifier) (l.flatMap (fun w => ',' :: ' ' :: w) ++ ' ' :: d :: r) = .ok (l.map id) (' ' :: d :: r) := by
    refine many_intro' Stops ?_ ?_ (stops_cons _ rfl) (by simp) ?_
    · intro x hx r hr
      exact seq_intro (u := ' ' :: (x ++ r)) (lit_intro rfl) (qualified_stops (hd x (by simp [hx])) hr)
    · intro x _ r
      exact stops_cons _ rfl
    · exact seq_fail (lit_fail (by rw [skip_space, skip_char hw]) hc.symm)
  rw [List.map_id] at hm
  exact seq_intro hm rfl

end Gen
