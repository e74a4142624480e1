import Verif.Lemmas.GenTokens

/-!
# The grammar treats texts with the same tokens alike
-/

namespace Gen
open Spec Parser

/-- Both match with the same value and rests of the same tokens, or both fail in the same way. -/
def AgreeRes {α : Type} : Res α → Res α → Prop
  | .ok a r, .ok b r' => a = b ∧ SameTokens r r'
  | .fail, .fail => True
  | .fatal, .fatal => True
  | _, _ => False

/-- The expression does not see the layout. -/
def Stable {α : Type} (p : Parser α) : Prop := ∀ s s', SameTokens s s' → AgreeRes (p s) (p s')

/-! ## Combinators -/

theorem stable_pure {α : Type} (a : α) : Stable (pure a : Parser α) := fun _ _ h => ⟨rfl, h⟩

theorem stable_seq {α β : Type} {p : Parser α} {f : α → Parser β} (h : Stable p) (hf : ∀ a, Stable (f a)) : Stable (p >>= f) := by
  intro s s' hs
  have := h s s' hs
  rw [bind_eq]
  unfold seq
  cases e : p s <;> cases e' : p s' <;> rw [e, e'] at this <;> simp only [AgreeRes] at this ⊢
  obtain ⟨rfl, h2⟩ := this
  exact hf _ _ _ h2

theorem stable_orElse {α : Type} {p q : Parser α} (h : Stable p) (h' : Stable q) : Stable (orElse p q) := by
  intro s s' hs
  have := h s s' hs
  unfold orElse
  cases e : p s <;> cases e' : p s' <;> rw [e, e'] at this <;> simp only [AgreeRes] at this ⊢
  · exact this
  · exact h' _ _ hs

theorem stable_opt {α : Type} {p : Parser α} (h : Stable p) : Stable (opt p) := by
  intro s s' hs
  have := h s s' hs
  unfold opt
  cases e : p s <;> cases e' : p s' <;> rw [e, e'] at this <;> simp only [AgreeRes] at this ⊢
  · exact ⟨by rw [this.1], this.2⟩
  · exact ⟨trivial, hs⟩

theorem stable_must {α : Type} {p : Parser α} (h : Stable p) : Stable (must p) := by
  intro s s' hs
  have := h s s' hs
  unfold must
  cases e : p s <;> cases e' : p s' <;> rw [e, e'] at this <;> simp only [AgreeRes] at this ⊢
  exact this

theorem stable_many {α : Type} {p : Parser α} (h : Stable p) (hc : Consumes p) (h0 : p [] = .fail) : Stable (many p) := by
  have key : ∀ n s s', s.length ≤ n → SameTokens s s' → AgreeRes (many p s) (many p s') := by
    intro n
    induction n with
    | zero =>
      intro s s' hn hs
      have : s = [] := List.length_eq_zero_iff.mp (by omega)
      subst this
      have := h _ _ hs
      rw [h0] at this
      have e1 : many p [] = .ok [] [] := rfl
      rw [e1]
      rw [← manyN_enough hc h0 (s'.length + 1) s' (by omega)]
      unfold manyN
      cases e : p s' <;> rw [e] at this <;> simp only [AgreeRes] at this ⊢
      exact ⟨trivial, hs⟩
    | succ n ih =>
      intro s s' hn hs
      have := h _ _ hs
      rw [← manyN_enough hc h0 (s.length + 1) s (by omega), ← manyN_enough hc h0 (s'.length + 1) s' (by omega)]
      unfold manyN
      cases e : p s with
      | fail =>
        cases e' : p s' <;> rw [e, e'] at this <;> simp only [AgreeRes] at this ⊢
        exact ⟨trivial, hs⟩
      | fatal =>
        cases e' : p s' <;> rw [e, e'] at this <;> simp only [AgreeRes] at this ⊢
      | ok a r =>
        cases e' : p s' with
        | fail => rw [e, e'] at this; exact this.elim
        | fatal => rw [e, e'] at this; exact this.elim
        | ok b r' =>
          rw [e, e'] at this
          obtain ⟨rfl, h2⟩ := this
          have l1 := hc _ _ _ e
          have l2 := hc _ _ _ e'
          simp only
          rw [manyN_enough hc h0 s.length r (by omega), manyN_enough hc h0 s'.length r' (by omega)]
          have := ih r r' (by omega) h2
          cases e1 : many p r <;> cases e2 : many p r' <;> rw [e1, e2] at this <;> simp only [AgreeRes] at this ⊢
          exact ⟨by rw [this.1], this.2⟩
  exact fun s s' hs => key _ s s' (Nat.le_refl _) hs

theorem stable_many1 {α : Type} {p : Parser α} (h : Stable p) (hc : Consumes p) (h0 : p [] = .fail) : Stable (many1 p) :=
  stable_seq h fun _ => stable_seq (stable_many h hc h0) fun _ => stable_pure _

/-! ## Tokens -/

theorem space_iff {c : Char} : isWs c = true ↔ Space c := by
  unfold isWs Space; simp

theorem mark_notSpace {c : Char} (h : Mark c) : isWs c = false := by
  unfold Mark at h
  simp only [List.mem_cons, List.not_mem_nil, or_false] at h
  rcases h with rfl | rfl | rfl | rfl | rfl | rfl | rfl | rfl | rfl | rfl <;> rfl

/-- No word of the grammar contains this character. -/
def Outside (c : Char) : Prop := Space c ∨ Mark c ∨ c = '/'

/-- The text does not begin with a character of words. -/
def Edge (s : Text) : Prop := ∀ c ∈ s.head?, Outside c

theorem _root_.Spec.WordEnd.edge {s : Text} (h : WordEnd s) : Edge s := by
  intro c hc
  rcases h with rfl | ⟨d, r, rfl, h⟩ | ⟨r, rfl⟩ | ⟨b, r, rfl⟩
  · cases hc
  · cases hc; rcases h with h | h
    · exact .inl h
    · exact .inr (.inl h)
  · cases hc; exact .inr (.inr rfl)
  · cases hc; exact .inr (.inr rfl)

/-- What is left of a word: `d` before `s`. -/
theorem _root_.Spec.WordIn.suffix {a d s : Text} (h : WordIn (a ++ d) s) (hd : d ≠ []) : WordIn d s where
  nonempty := hd
  chars c hc := h.chars c (List.mem_append_right _ hc)
  noComment x y e hy := h.noComment (a ++ x) y (by rw [e, List.append_assoc]) hy
  ends := h.ends

/-- The same rest of a word, before texts of the same tokens; or no word at all. -/
inductive Near : Text → Text → Prop
  | word {d r r' ts} : WordIn d r → WordIn d r' → Tokens r ts → Tokens r' ts → Near (d ++ r) (d ++ r')
  | edge {r r'} : Edge r → Edge r' → SameTokens r r' → Near r r'

theorem Near.same {s s' : Text} : Near s s' → SameTokens s s'
  | .word h h' ht ht' => ⟨_, .word h ht, .word h' ht'⟩
  | .edge _ _ h => h

/-- A suffix of the word. -/
theorem near_suffix {a d r r' : Text} {ts : List Token} (h : WordIn (a ++ d) r) (h' : WordIn (a ++ d) r') (ht : Tokens r ts) (ht' : Tokens r' ts) :
    Near (d ++ r) (d ++ r') := by
  by_cases hd : d = []
  · subst hd
    exact .edge h.ends.edge h'.ends.edge ⟨_, ht, ht'⟩
  · exact .word (h.suffix hd) (h'.suffix hd) ht ht'

theorem tokens_skip {s : Text} {ts : List Token} (h : Tokens s ts) : Tokens (skipWs s) ts := by
  induction h with
  | nil => exact .nil
  | space hc _ ih =>
    unfold skipWs at *
    rw [List.dropWhile_cons, if_pos (space_iff.mpr hc)]
    exact ih
  | @mark c s ts hc h ih =>
    unfold skipWs
    rw [List.dropWhile_cons, if_neg (by simp [mark_notSpace hc])]
    exact .mark hc h
  | @word w s ts hw h ih =>
    obtain ⟨c, w, rfl⟩ := List.exists_cons_of_ne_nil hw.nonempty
    unfold skipWs
    rw [List.cons_append, List.dropWhile_cons, if_neg (by rw [space_iff]; exact (hw.chars c (List.mem_cons_self ..)).1)]
    exact .word hw h
  | block hb h ih => exact .block hb h
  | line h1 h2 h ih => exact .line h1 h2 h

theorem skip_head (s : Text) : ∀ c ∈ (skipWs s).head?, isWs c = false := by
  induction s with
  | nil => intro c hc; cases hc
  | cons d s ih =>
    unfold skipWs at *
    rw [List.dropWhile_cons]
    split
    · exact ih
    · intro c hc
      cases hc
      simpa using ‹¬isWs d = true›

/-- The beginning of a text that does not start with white space. -/
inductive Begins : Text → List Token → Prop
  | nil : Begins [] []
  | mark {c s ts} : Mark c → Tokens s ts → Begins (c :: s) (.mark c :: ts)
  | word {w s ts} : WordIn w s → Tokens s ts → Begins (w ++ s) (.word w :: ts)
  | comment {s ts} : Tokens ('/' :: s) (.comment :: ts) → Begins ('/' :: s) (.comment :: ts)

theorem tokens_begin {s : Text} {ts : List Token} (h : Tokens s ts) : Begins (skipWs s) ts := by
  have h1 := tokens_skip h
  have h2 := skip_head s
  generalize skipWs s = u at *
  cases h1 with
  | nil => exact .nil
  | space hc => have := h2 _ rfl; rw [space_iff.mpr hc] at this; cases this
  | mark hc h' => exact .mark hc h'
  | word hw h' => exact .word hw h'
  | block hb h' => exact .comment (.block hb h')
  | line h1 h3 h' => exact .comment (.line h1 h3 h')

theorem begins_edge {s : Text} {ts : List Token} (h : Begins s ts) (hw : ∀ w ts', ts ≠ .word w :: ts') : Edge s := by
  intro c hc
  cases h with
  | nil => cases hc
  | mark h => cases hc; exact .inr (.inl h)
  | word => exact absurd rfl (hw _ _)
  | comment h => cases hc; exact .inr (.inr rfl)

theorem skip_near {s s' : Text} (h : SameTokens s s') : Near (skipWs s) (skipWs s') := by
  obtain ⟨ts, h1, h2⟩ := h
  have b1 := tokens_begin h1
  have b2 := tokens_begin h2
  have same : SameTokens (skipWs s) (skipWs s') := ⟨ts, tokens_skip h1, tokens_skip h2⟩
  generalize skipWs s = u, skipWs s' = u' at *
  cases ts with
  | nil => exact .edge (begins_edge b1 (by simp)) (begins_edge b2 (by simp)) same
  | cons t ts =>
    cases t with
    | mark c => exact .edge (begins_edge b1 (by simp)) (begins_edge b2 (by simp)) same
    | comment => exact .edge (begins_edge b1 (by simp)) (begins_edge b2 (by simp)) same
    | word w =>
      cases b1 with
      | word w1 t1 => cases b2 with
        | word w2 t2 => exact .word w1 w2 t1 t2

/-! ## Words -/

/-- Characters of words only. -/
def Inner (k : Text) : Prop := ∀ c ∈ k, ¬ Outside c

theorem strip_edge {k s : Text} (hk : Inner k) (hne : k ≠ []) (hs : Edge s) : stripPrefix k s = none := by
  cases e : stripPrefix k s with
  | none => rfl
  | some r =>
    have := stripPrefix_some e
    obtain ⟨c, k, rfl⟩ := List.exists_cons_of_ne_nil hne
    subst this
    exact absurd (hs c rfl) (hk c (List.mem_cons_self ..))

theorem strip_word : ∀ {k d r : Text}, Inner k → Edge r →
    stripPrefix k (d ++ r) = (stripPrefix k d).map (· ++ r)
  | [], d, r, _, _ => rfl
  | c :: k, [], r, hk, hr => by
    rw [List.nil_append, strip_edge hk (by simp) hr]
    rfl
  | c :: k, e :: d, r, hk, hr => by
    simp only [List.cons_append, stripPrefix]
    split
    · exact strip_word (fun c hc => hk c (List.mem_cons_of_mem _ hc)) hr
    · rfl

/-- A beginning of the word is taken off. -/
theorem near_strip {k s s' : Text} (hk : Inner k) (hne : k ≠ []) (h : Near s s') :
    (stripPrefix k s = none ∧ stripPrefix k s' = none) ∨ ∃ u u', stripPrefix k s = some u ∧ stripPrefix k s' = some u' ∧ Near u u' := by
  cases h with
  | edge h1 h2 h3 => exact .inl ⟨strip_edge hk hne h1, strip_edge hk hne h2⟩
  | word w1 w2 t1 t2 =>
    rename_i d r r' ts
    rw [strip_word hk w1.ends.edge, strip_word hk w2.ends.edge]
    cases e : stripPrefix k d with
    | none => exact .inl ⟨rfl, rfl⟩
    | some x =>
      have := stripPrefix_some e
      subst this
      exact .inr ⟨_, _, rfl, rfl, near_suffix w1 w2 t1 t2⟩

/-- The next character is the same, or outside of words in both. -/
theorem near_next {s s' : Text} (h : Near s s') : s.head? = s'.head? ∨ Edge s ∧ Edge s' := by
  cases h with
  | edge h1 h2 => exact .inr ⟨h1, h2⟩
  | word w1 => obtain ⟨c, w, rfl⟩ := List.exists_cons_of_ne_nil w1.nonempty; exact .inl rfl

theorem outside_notKeyword {c : Char} (h : Outside c) : isKeywordChar c = false := by
  unfold Outside Space Mark at h
  simp only [List.mem_cons, List.not_mem_nil, or_false] at h
  rcases h with (rfl | rfl | rfl | rfl) | (rfl | rfl | rfl | rfl | rfl | rfl | rfl | rfl | rfl | rfl) | rfl <;> rfl

theorem keyword_near {k : Text} (hk : Inner k) (hne : k ≠ []) {s s' : Text} (h : SameTokens s s') :
    (keyword k s = .fail ∧ keyword k s' = .fail) ∨ ∃ u u', keyword k s = .ok () u ∧ keyword k s' = .ok () u' ∧ Near u u' := by
  unfold keyword
  rcases near_strip hk hne (skip_near h) with ⟨e1, e2⟩ | ⟨u, u', e1, e2, hu⟩
  · rw [e1, e2]; exact .inl ⟨rfl, rfl⟩
  · rw [e1, e2]
    rcases near_next hu with hh | ⟨h1, h2⟩
    · cases u with
      | nil => cases u' with
        | nil => exact .inr ⟨_, _, rfl, rfl, hu⟩
        | cons c u' => cases hh
      | cons c u => cases u' with
        | nil => cases hh
        | cons c' u' =>
          cases hh
          simp only
          split
          · exact .inl ⟨rfl, rfl⟩
          · exact .inr ⟨_, _, rfl, rfl, hu⟩
    · right
      refine ⟨u, u', ?_, ?_, hu⟩
      · cases u with
        | nil => rfl
        | cons c u => simp only [outside_notKeyword (h1 c rfl)]; rfl
      · cases u' with
        | nil => rfl
        | cons c u => simp only [outside_notKeyword (h2 c rfl)]; rfl

theorem stable_keyword {k : Text} (hk : Inner k) (hne : k ≠ []) : Stable (keyword k) := by
  intro s s' h
  rcases keyword_near hk hne h with ⟨e1, e2⟩ | ⟨u, u', e1, e2, hu⟩
  · rw [e1, e2]; trivial
  · rw [e1, e2]; exact ⟨rfl, hu.same⟩

theorem stable_litWord {k : Text} (hk : Inner k) (hne : k ≠ []) : Stable (lit k) := by
  intro s s' h
  unfold lit
  rcases near_strip hk hne (skip_near h) with ⟨e1, e2⟩ | ⟨u, u', e1, e2, hu⟩
  · rw [e1, e2]; trivial
  · rw [e1, e2]; exact ⟨rfl, hu.same⟩

theorem stable_mark {c : Char} (hc : Mark c) : Stable (lit [c]) := by
  rintro s s' ⟨ts, h1, h2⟩
  have b1 := tokens_begin h1
  have b2 := tokens_begin h2
  unfold lit
  have hne : c ≠ '/' := by rintro rfl; revert hc; unfold Mark; decide
  cases ts with
  | nil =>
    generalize skipWs s = u, skipWs s' = u' at *
    cases b1; cases b2
    trivial
  | cons t ts =>
    cases t with
    | mark d =>
      generalize skipWs s = u, skipWs s' = u' at *
      cases b1 with
      | mark _ t1 => cases b2 with
        | mark _ t2 =>
          simp only [stripPrefix]
          by_cases h : c = d
          · simp only [if_pos h]; exact ⟨rfl, _, t1, t2⟩
          · simp only [if_neg h]; trivial
    | comment =>
      generalize skipWs s = u, skipWs s' = u' at *
      cases b1 with
      | comment _ => cases b2 with
        | comment _ => simp only [stripPrefix, if_neg hne]; trivial
    | word w =>
      generalize skipWs s = u, skipWs s' = u' at *
      cases b1 with
      | word w1 _ => cases b2 with
        | word w2 _ =>
          obtain ⟨d, w, rfl⟩ := List.exists_cons_of_ne_nil w1.nonempty
          have : c ≠ d := by rintro rfl; exact (w1.chars _ (List.mem_cons_self ..)).2 hc
          simp only [List.cons_append, stripPrefix, if_neg this]; trivial

/-- Only characters of words. -/
def InnerSet (f : Char → Bool) : Prop := ∀ c, f c = true → ¬ Outside c

theorem takeWhile_edge {f : Char → Bool} (hf : InnerSet f) {r : Text} (hr : Edge r) (d : Text) :
    (d ++ r).takeWhile f = d.takeWhile f ∧ (d ++ r).dropWhile f = d.dropWhile f ++ r := by
  induction d with
  | nil =>
    cases r with
    | nil => exact ⟨rfl, rfl⟩
    | cons c r =>
      have : f c = false := by
        cases e : f c with
        | false => rfl
        | true => exact absurd (hr c rfl) (hf c e)
      simp [this]
  | cons c d ih =>
    simp only [List.cons_append, List.takeWhile_cons, List.dropWhile_cons]
    split
    · exact ⟨by rw [ih.1], ih.2⟩
    · exact ⟨rfl, rfl⟩

theorem near_wordHere {init body : Char → Bool} (hi : InnerSet init) (hb : InnerSet body) {s s' : Text} (h : Near s s') :
    (wordHere init body s = .fail ∧ wordHere init body s' = .fail) ∨
      ∃ w u u', wordHere init body s = .ok w u ∧ wordHere init body s' = .ok w u' ∧ Near u u' := by
  cases h with
  | edge h1 h2 =>
    have key : ∀ x, Edge x → wordHere init body x = .fail := by
      intro x hx
      cases x with
      | nil => rfl
      | cons c x =>
        have : init c = false := by
          cases e : init c with
          | false => rfl
          | true => exact absurd (hx c rfl) (hi c e)
        simp [wordHere, this]
    exact .inl ⟨key _ h1, key _ h2⟩
  | word w1 w2 t1 t2 =>
    rename_i d r r' ts
    obtain ⟨c, w, rfl⟩ := List.exists_cons_of_ne_nil w1.nonempty
    have k1 := takeWhile_edge hb w1.ends.edge w
    have k2 := takeWhile_edge hb w2.ends.edge w
    simp only [List.cons_append, wordHere]
    split
    · right
      rw [k1.1, k1.2, k2.1, k2.2]
      refine ⟨_, _, _, rfl, rfl, ?_⟩
      have e : c :: w = (c :: w.takeWhile body) ++ w.dropWhile body := by simp
      rw [e] at w1 w2
      exact near_suffix w1 w2 t1 t2
    · exact .inl ⟨rfl, rfl⟩

theorem stable_word {init body : Char → Bool} (hi : InnerSet init) (hb : InnerSet body) : Stable (word init body) := by
  intro s s' h
  unfold word
  rcases near_wordHere hi hb (skip_near h) with ⟨e1, e2⟩ | ⟨w, u, u', e1, e2, hu⟩
  · rw [e1, e2]; trivial
  · rw [e1, e2]; exact ⟨rfl, hu.same⟩

theorem outside_cases {P : Char → Prop} (h : ∀ c ∈ [' ', '\n', '\t', '\r', '{', '}', '(', ')', '<', '>', ':', ';', ',', '=', '/'], P c) {c : Char} (hc : Outside c) : P c := by
  apply h
  unfold Outside Space Mark at hc
  simp only [List.mem_cons, List.not_mem_nil, or_false] at hc ⊢
  tauto

theorem innerSet_of {f : Char → Bool} (h : ∀ c ∈ [' ', '\n', '\t', '\r', '{', '}', '(', ')', '<', '>', ':', ';', ',', '=', '/'], f c = false) : InnerSet f := by
  intro c hc ho
  have := outside_cases (P := fun c => f c = false) h ho
  rw [hc] at this; cases this

theorem inner_of {k : Text} (h : ∀ c ∈ k, c ∉ [' ', '\n', '\t', '\r', '{', '}', '(', ')', '<', '>', ':', ';', ',', '=', '/']) : Inner k := by
  intro c hc ho
  exact outside_cases (P := fun c => c ∈ [' ', '\n', '\t', '\r', '{', '}', '(', ')', '<', '>', ':', ';', ',', '=', '/']) (fun c hc => hc) ho |> h c hc

theorem stable_identifier : Stable identifier := stable_word (innerSet_of (by decide)) (innerSet_of (by decide))
theorem stable_qualified : Stable qualifiedIdentifier := stable_word (innerSet_of (by decide)) (innerSet_of (by decide))
theorem inner_num : InnerSet isNum := innerSet_of (by decide)
theorem inner_hex : InnerSet isHexNum := innerSet_of (by decide)
theorem stable_bitWidth : Stable bitWidth := stable_seq (stable_word inner_num inner_num) fun _ => stable_pure _

theorem stable_basicTypeOf : ∀ bs : List BasicName, (∀ b ∈ bs, Inner b.text ∧ b.text ≠ []) → Stable (basicTypeOf bs)
  | [], _ => fun _ _ _ => trivial
  | b :: bs, h => stable_orElse (stable_seq (stable_keyword (h b (List.mem_cons_self ..)).1 (h b (List.mem_cons_self ..)).2) fun _ => stable_pure _)
      (stable_basicTypeOf bs fun b hb => h b (List.mem_cons_of_mem _ hb))

theorem stable_basicType : Stable basicType := stable_basicTypeOf _ (fun b _ => ⟨inner_of (by cases b <;> decide), by cases b <;> decide⟩)

/-- A number in the word. -/
theorem near_literal {s s' : Text} (h : Near s s') : AgreeRes (orElse hexLiteral decLiteral s) (orElse hexLiteral decLiteral s') := by
  have hdec : AgreeRes (decLiteral s) (decLiteral s') := by
    unfold decLiteral
    rcases near_wordHere inner_num inner_num h with ⟨e1, e2⟩ | ⟨w, u, u', e1, e2, hu⟩
    · rw [e1, e2]; trivial
    · rw [e1, e2]
      simp only
      split
      · trivial
      · exact ⟨rfl, hu.same⟩
  have hhex : AgreeRes (hexLiteral s) (hexLiteral s') := by
    unfold hexLiteral
    rcases near_strip (k := "0x".toList) (inner_of (by decide)) (by decide) h with ⟨e1, e2⟩ | ⟨u, u', e1, e2, hu⟩
    · rw [e1, e2]; trivial
    · rw [e1, e2]
      simp only
      rcases near_wordHere inner_hex inner_hex hu with ⟨e1, e2⟩ | ⟨w, v, v', e1, e2, hv⟩
      · rw [e1, e2]; trivial
      · rw [e1, e2]; exact ⟨rfl, hv.same⟩
  unfold orElse
  cases e : hexLiteral s <;> cases e' : hexLiteral s' <;> rw [e, e'] at hhex <;> simp only [AgreeRes] at hhex ⊢
  · exact hhex
  · exact hdec

theorem agree_map {α β : Type} {p : Parser α} (f : α → β) {s s' : Text} (h : AgreeRes (p s) (p s')) :
    AgreeRes ((do pure (f (← p)) : Parser β) s) ((do pure (f (← p)) : Parser β) s') := by
  change AgreeRes (seq p _ s) (seq p _ s')
  unfold seq
  cases e : p s <;> cases e' : p s' <;> rw [e, e'] at h <;> simp only [AgreeRes] at h ⊢
  exact ⟨by rw [h.1], h.2⟩

theorem stable_signed : Stable signedLiteral := by
  intro s s' h
  have hn := skip_near h
  unfold signedLiteral
  rcases near_strip (k := ['-']) (inner_of (by decide)) (by decide) hn with ⟨e1, e2⟩ | ⟨u, u', e1, e2, hu⟩
  · rw [e1, e2]
    exact agree_map (fun n : Nat => (n : Int)) (near_literal hn)
  · rw [e1, e2]
    exact agree_map (fun n : Nat => -(n : Int)) (near_literal hu)

/-! ## Comments -/

theorem blockEnd_found {body : Text} (h : ¬ ['*', '/'] <:+: body ++ ['*']) (s : Text) : blockCommentEnd (body ++ '*' :: '/' :: s) = .ok () s := by
  induction body with
  | nil => simp [blockCommentEnd, stripPrefix]
  | cons c body ih =>
    have ih := ih (fun hi => h (hi.trans (List.suffix_cons c _).isInfix))
    rw [List.cons_append, blockCommentEnd]
    have : stripPrefix ['*', '/'] (c :: (body ++ '*' :: '/' :: s)) = none := by
      cases e : stripPrefix ['*', '/'] (c :: (body ++ '*' :: '/' :: s)) with
      | none => rfl
      | some r =>
        have e1 := stripPrefix_some e
        simp only [List.cons_append, List.nil_append, List.cons.injEq] at e1
        obtain ⟨rfl, e1⟩ := e1
        cases body with
        | nil => simp at e1
        | cons d body =>
          simp only [List.cons_append, List.cons.injEq] at e1
          obtain ⟨rfl, _⟩ := e1
          exact absurd ⟨[], body ++ ['*'], by simp⟩ h
    rw [this]
    exact ih

theorem lineEnd_found : ∀ {body : Text} {s : Text}, (∀ a b, body = a ++ '\n' :: b → a.getLast? = some '\\') →
    (s = [] ∨ (∃ r, s = '\n' :: r) ∧ body.getLast? ≠ some '\\') → lineCommentEnd (body ++ s) = s
  | [], s, _, h2 => by
    rcases h2 with rfl | ⟨⟨r, rfl⟩, _⟩
    · rfl
    · simp [lineCommentEnd]
  | [c], s, h1, h2 => by
    have hc : c ≠ '\n' := by rintro rfl; have := h1 [] [] rfl; cases this
    rcases h2 with rfl | ⟨⟨r, rfl⟩, h2⟩
    · rw [List.append_nil, lineCommentEnd]
      · rw [if_neg hc]; rfl
      · intro t _ h; cases h
    · rw [List.singleton_append, lineCommentEnd]
      · rw [if_neg hc]; simp [lineCommentEnd]
      · intro t h _; apply h2; rw [h]; rfl
  | c :: d :: body, s, h1, h2 => by
    have hc : c ≠ '\n' := by rintro rfl; have := h1 [] _ rfl; cases this
    have h2' : ∀ x, x ≠ [] → (c :: d :: body).getLast? = x.getLast? → (s = [] ∨ (∃ r, s = '\n' :: r) ∧ x.getLast? ≠ some '\\') := by
      intro x _ e; rw [← e]; exact h2
    by_cases hcd : c = '\\' ∧ d = '\n'
    · obtain ⟨rfl, rfl⟩ := hcd
      rw [List.cons_append, List.cons_append, lineCommentEnd]
      refine lineEnd_found (body := body) ?_ ?_
      · intro a b e
        have := h1 ('\\' :: '\n' :: a) b (by rw [e]; rfl)
        cases a with
        | nil => simp at this
        | cons x a => simpa using this
      · cases body with
        | nil =>
          rcases h2 with h | h
          · exact .inl h
          · exact .inr ⟨h.1, by simp⟩
        | cons x body => exact h2' _ (by simp) (by simp)
    · rw [List.cons_append, lineCommentEnd]
      · rw [if_neg hc]
        refine lineEnd_found (body := d :: body) ?_ (h2' _ (by simp) (by simp))
        intro a b e
        have := h1 (c :: a) b (by rw [e]; rfl)
        cases a with
        | nil =>
          simp only [List.nil_append, List.cons.injEq] at e
          simp only [List.getLast?_singleton, Option.some.injEq] at this
          exact absurd ⟨this, e.1⟩ hcd
        | cons x a => simpa using this
      · intro t h e
        simp only [List.cons_append, List.cons.injEq] at e
        exact hcd ⟨h, e.1⟩

theorem comment_found {s : Text} {ts : List Token} (h : Tokens ('/' :: s) (.comment :: ts)) : ∃ r, comment ('/' :: s) = .ok () r ∧ Tokens r ts := by
  generalize hx : '/' :: s = x at h
  generalize hy : Token.comment :: ts = y at h
  cases h with
  | nil => cases hx
  | space hc => simp only [List.cons.injEq] at hx; rw [← hx.1] at hc; exact absurd hc (by unfold Space; decide)
  | mark hc => cases hy
  | word => cases hy
  | @block body r ts' hb h =>
    cases hy
    exact ⟨r, by change blockCommentEnd _ = _; exact blockEnd_found hb r, h⟩
  | @line body r ts' h1 h2 h =>
    cases hy
    exact ⟨r, by change Res.ok () (lineCommentEnd _) = _; rw [lineEnd_found h1 h2], h⟩

theorem blockEnd_split : ∀ {t : Text} {a : Unit} {r : Text}, blockCommentEnd t = .ok a r → ∃ body, t = body ++ '*' :: '/' :: r
  | [], a, r, e => by cases e
  | c :: t, a, r, e => by
    unfold blockCommentEnd at e
    split at e
    · cases e; exact ⟨[], stripPrefix_some (s := ['*', '/']) ‹_›⟩
    · obtain ⟨b, hb⟩ := blockEnd_split e
      exact ⟨c :: b, by rw [hb]; rfl⟩

theorem blockEnd_cases (t : Text) : blockCommentEnd t = .fail ∨ ∃ r, blockCommentEnd t = .ok () r := by
  induction t with
  | nil => exact .inl rfl
  | cons c t ih =>
    unfold blockCommentEnd
    split
    · exact .inr ⟨_, rfl⟩
    · exact ih

theorem comment_none {s : Text} (h : ¬ CommentStart (skipWs s)) : comment s = .fail := by
  unfold comment
  split
  · rename_i r hr
    have e := stripPrefix_some hr
    rcases blockEnd_cases r with h1 | ⟨u, h1⟩
    · exact h1
    · obtain ⟨b, hb⟩ := blockEnd_split h1
      exact absurd (.inr ⟨b, u, by rw [e, hb]; rfl⟩) h
  · split
    · exact absurd (.inl ⟨_, stripPrefix_some ‹_›⟩) h
    · rfl

theorem comment_skip (s : Text) : comment s = comment (skipWs s) := by
  have : skipWs (skipWs s) = skipWs s := by
    cases e : skipWs s with
    | nil => rfl
    | cons c r =>
      have := skip_head s c (by rw [e]; rfl)
      unfold skipWs
      rw [List.dropWhile_cons, if_neg (by simp [this])]
  unfold comment
  rw [this]

theorem skip_id {s : Text} (h : ∀ c ∈ s.head?, isWs c = false) : skipWs s = s := by
  cases s with
  | nil => rfl
  | cons c r =>
    unfold skipWs
    rw [List.dropWhile_cons, if_neg (by simp [h c rfl])]

theorem stable_comment : Stable comment := by
  rintro s s' ⟨ts, h1, h2⟩
  have b1 := tokens_begin h1
  have b2 := tokens_begin h2
  rw [comment_skip s, comment_skip s']
  have k1 := skip_head s
  have k2 := skip_head s'
  generalize skipWs s = u, skipWs s' = u' at *
  have key : ∀ {u : Text} {ts : List Token}, (∀ c ∈ u.head?, isWs c = false) → Begins u ts → (∀ ts', ts ≠ .comment :: ts') → comment u = .fail := by
    intro u ts hu hb hts
    apply comment_none
    rw [skip_id hu]
    cases hb with
    | nil => rintro (⟨r, h⟩ | ⟨b, r, h⟩) <;> cases h
    | mark hc =>
      have : ¬ Mark '/' := by unfold Mark; decide
      rintro (⟨r, h⟩ | ⟨b, r, h⟩)
      · simp only [List.cons.injEq] at h; rw [h.1] at hc; exact this hc
      · simp only [List.cons.injEq] at h; rw [h.1] at hc; exact this hc
    | word hw => exact hw.noComment [] _ rfl hw.nonempty
    | comment => exact absurd rfl (hts _)
  cases ts with
  | nil => rw [key k1 b1 (by simp), key k2 b2 (by simp)]; trivial
  | cons t ts =>
    cases t with
    | word w => rw [key k1 b1 (by simp), key k2 b2 (by simp)]; trivial
    | mark c => rw [key k1 b1 (by simp), key k2 b2 (by simp)]; trivial
    | comment =>
      cases b1 with
      | comment c1 => cases b2 with
        | comment c2 =>
          obtain ⟨r1, e1, t1⟩ := comment_found c1
          obtain ⟨r2, e2, t2⟩ := comment_found c2
          rw [e1, e2]
          exact ⟨rfl, _, t1, t2⟩

/-! ## Productions -/

theorem mark_of {c : Char} (h : c ∈ ['{', '}', '(', ')', '<', '>', ':', ';', ',', '=']) : Stable (lit [c]) := stable_mark h
theorem key_of {k : Text} (h : ∀ c ∈ k, c ∉ [' ', '\n', '\t', '\r', '{', '}', '(', ')', '<', '>', ':', ';', ',', '=', '/']) (hne : k ≠ []) : Stable (keyword k) :=
  stable_keyword (inner_of h) hne
theorem stable_optComment : Stable (opt comment) := stable_opt stable_comment

theorem stable_delimited {α : Type} {p : Parser α} (h : Stable p) (hc : Consumes p) : Stable (delimitedList p) :=
  stable_seq h fun _ => stable_seq (stable_many (stable_seq (mark_of (by decide)) fun _ => h) (consumes_seq (consumes_lit (by simp)) fun _ => hc.notLonger) rfl) fun _ => stable_pure _

theorem stable_enumValue : Stable enumValue :=
  stable_seq stable_optComment fun _ => stable_seq stable_identifier fun _ =>
    stable_seq (stable_opt (stable_seq (mark_of (by decide)) fun _ => stable_signed)) fun _ => stable_pure _

theorem stable_enumDecl : Stable enumDecl :=
  stable_seq stable_optComment fun _ => stable_seq (key_of (by decide) (by decide)) fun _ => stable_seq stable_identifier fun _ =>
    stable_seq (mark_of (by decide)) fun _ => stable_seq stable_basicType fun _ =>
    stable_seq (stable_opt (stable_seq (mark_of (by decide)) fun _ => stable_bitWidth)) fun _ => stable_seq (mark_of (by decide)) fun _ =>
    stable_seq (stable_delimited stable_enumValue consumes_enumValue) fun _ => stable_seq (stable_opt (mark_of (by decide))) fun _ =>
    stable_seq (mark_of (by decide)) fun _ => stable_pure _

theorem stable_deco {α β : Type} {k : Text} (hk : Stable (keyword k)) {p : Parser α} (h : Stable p) (f : α → β) :
    Stable (do keyword k; must (lit ['(']); let n ← must p; must (lit [')']); pure (f n) : Parser β) :=
  stable_seq hk fun _ => stable_seq (stable_must (mark_of (by decide))) fun _ => stable_seq (stable_must h) fun _ =>
    stable_seq (stable_must (mark_of (by decide))) fun _ => stable_pure _

theorem stable_fieldDecoration : Stable fieldDecoration :=
  stable_orElse (stable_seq stable_optComment fun _ => stable_deco (key_of (by decide) (by decide)) stable_identifier _)
    (stable_orElse (stable_deco (key_of (by decide) (by decide)) stable_qualified _) (stable_deco (key_of (by decide) (by decide)) stable_qualified _))

theorem stable_fieldDecl : Stable fieldDecl :=
  stable_seq stable_optComment fun _ => stable_seq (stable_many stable_fieldDecoration consumes_fieldDecoration rfl) fun _ =>
    stable_seq stable_identifier fun _ => stable_seq (stable_must (mark_of (by decide))) fun _ => stable_seq (stable_must stable_qualified) fun _ =>
    stable_seq (stable_opt (stable_seq (mark_of (by decide)) fun _ => stable_bitWidth)) fun _ => stable_seq (stable_must (mark_of (by decide))) fun _ => stable_pure _

theorem stable_structDecl : Stable structDecl :=
  stable_seq stable_optComment fun _ => stable_seq (key_of (by decide) (by decide)) fun _ => stable_seq (stable_must stable_identifier) fun _ =>
    stable_seq (stable_must (mark_of (by decide))) fun _ => stable_seq (stable_must (stable_many1 stable_fieldDecl consumes_fieldDecl rfl)) fun _ =>
    stable_seq (stable_must (mark_of (by decide))) fun _ => stable_pure _

theorem stable_resourceType : Stable resourceType :=
  stable_orElse (stable_seq (key_of (by decide) (by decide)) fun _ => stable_pure _)
    (stable_orElse (stable_seq (key_of (by decide) (by decide)) fun _ => stable_seq (stable_must (mark_of (by decide))) fun _ =>
        stable_seq (stable_must stable_qualified) fun _ => stable_seq (stable_must (mark_of (by decide))) fun _ => stable_pure _)
      (stable_orElse (stable_seq (key_of (by decide) (by decide)) fun _ => stable_seq (stable_must (mark_of (by decide))) fun _ =>
          stable_seq (stable_must stable_bitWidth) fun _ => stable_seq (stable_must (mark_of (by decide))) fun _ =>
          stable_seq (stable_must (stable_delimited stable_qualified consumes_qualified)) fun _ => stable_seq (stable_must (mark_of (by decide))) fun _ => stable_pure _)
        (stable_orElse (stable_seq stable_optComment fun _ => stable_seq (key_of (by decide) (by decide)) fun _ =>
            stable_seq stable_qualified fun _ => stable_pure _)
          (stable_seq stable_qualified fun _ => stable_pure _))))

theorem stable_notComma : Stable (fun t => match lit [','] t with
    | .ok .. => .fail
    | _ => .ok () t : Parser Unit) := by
  intro s s' hs
  have := mark_of (c := ',') (by decide) s s' hs
  simp only
  cases e : lit [','] s <;> cases e' : lit [','] s' <;> rw [e, e'] at this <;> simp only [AgreeRes] at this ⊢ <;> exact ⟨trivial, hs⟩

theorem stable_dot : Stable (lit ['.']) := stable_litWord (inner_of (by decide)) (by decide)

theorem stable_referencePart : Stable referencePart :=
  stable_seq (stable_opt stable_dot) fun _ => stable_seq stable_identifier fun _ => stable_seq stable_notComma fun _ => stable_pure _

theorem stable_referencePrefix : Stable referencePrefix :=
  stable_seq (stable_many1 stable_referencePart consumes_referencePart rfl) fun _ => stable_pure _

theorem notAt_head (s : Text) : notAt s = if s.head? = some '@' then .fail else .ok () s := by
  unfold notAt
  split
  · simp
  · rename_i h
    rw [if_neg]
    intro e
    cases s with
    | nil => cases e
    | cons c s => cases e; exact h s rfl

theorem stable_optionalDeco : Stable optionalDeco := by
  intro s s' h
  unfold optionalDeco
  rw [bind_eq]
  unfold seq
  rcases keyword_near (k := "@optional".toList) (inner_of (by decide)) (by decide) h with ⟨e1, e2⟩ | ⟨u, u', e1, e2, hu⟩
  · rw [e1, e2]; trivial
  · rw [e1, e2]
    simp only
    rw [bind_eq]
    unfold seq
    rw [notAt_head, notAt_head]
    rcases near_next hu with hh | ⟨h1, h2⟩
    · rw [hh]
      split <;> rename_i hx
      · split at hx
        · cases hx
        · rename_i hat
          simp only [if_neg hat]
          cases hx
          exact ⟨rfl, hu.same⟩
      · split at hx
        · rename_i hat
          simp only [if_pos hat]; trivial
        · cases hx
      · split at hx <;> cases hx
    · have k : ∀ x : Text, Edge x → x.head? ≠ some '@' := by
        intro x hx e
        have := hx '@' e
        exact absurd (outside_cases (P := fun c => c ≠ '@') (by decide) this) (by simp)
      rw [if_neg (k _ h1), if_neg (k _ h2)]
      exact ⟨rfl, hu.same⟩

theorem stable_resourceDecoration : Stable resourceDecoration :=
  stable_orElse (stable_seq (key_of (by decide) (by decide)) fun _ => stable_seq (stable_must (mark_of (by decide))) fun _ =>
      stable_seq (stable_must stable_referencePrefix) fun _ => stable_seq (stable_must stable_dot) fun _ =>
      stable_seq (stable_must stable_identifier) fun _ => stable_seq (stable_must (mark_of (by decide))) fun _ =>
      stable_seq (stable_must stable_qualified) fun _ => stable_seq (stable_must (mark_of (by decide))) fun _ => stable_pure _)
    stable_optionalDeco

theorem stable_boundDeco : Stable boundDeco :=
  stable_seq (key_of (by decide) (by decide)) fun _ => stable_seq (stable_must (mark_of (by decide))) fun _ =>
    stable_seq (stable_must stable_identifier) fun _ => stable_seq (stable_must (mark_of (by decide))) fun _ =>
    stable_seq (stable_must (stable_delimited stable_qualified consumes_qualified)) fun _ => stable_seq (stable_must (mark_of (by decide))) fun _ => stable_pure _

theorem stable_resourceDecl : Stable resourceDecl :=
  stable_seq stable_optComment fun _ => stable_seq (stable_many stable_resourceDecoration consumes_resourceDecoration rfl) fun _ =>
    stable_seq stable_identifier fun _ => stable_seq (mark_of (by decide)) fun _ => stable_seq (stable_must stable_resourceType) fun _ =>
    stable_seq (stable_must (mark_of (by decide))) fun _ => stable_pure _

theorem stable_archiveDecl : Stable archiveDecl :=
  stable_seq stable_optComment fun _ => stable_seq (stable_many stable_boundDeco consumes_boundDeco rfl) fun _ =>
    stable_seq (key_of (by decide) (by decide)) fun _ => stable_seq (stable_must stable_identifier) fun _ =>
    stable_seq (stable_must (mark_of (by decide))) fun _ => stable_seq (stable_must (stable_many stable_resourceDecl consumes_resourceDecl rfl)) fun _ =>
    stable_seq (stable_must (mark_of (by decide))) fun _ => stable_pure _

theorem stable_constantDecl : Stable constantDecl :=
  stable_seq stable_optComment fun _ => stable_seq (key_of (by decide) (by decide)) fun _ => stable_seq stable_basicType fun _ =>
    stable_seq stable_identifier fun _ => stable_seq (mark_of (by decide)) fun _ => stable_seq stable_signed fun _ => stable_seq (mark_of (by decide)) fun _ => stable_pure _

theorem stable_entry : Stable entry :=
  stable_orElse (stable_seq stable_enumDecl fun _ => stable_pure _)
    (stable_orElse (stable_seq stable_structDecl fun _ => stable_pure _)
      (stable_orElse (stable_seq stable_archiveDecl fun _ => stable_pure _)
        (stable_orElse (stable_seq stable_constantDecl fun _ => stable_pure _) (stable_seq stable_comment fun _ => stable_pure _))))

theorem entry_nil : entry [] = .fail := rfl

theorem stable_namespaceDecl : Stable namespaceDecl :=
  stable_seq (key_of (by decide) (by decide)) fun _ => stable_seq stable_qualified fun _ => stable_seq (mark_of (by decide)) fun _ =>
    stable_seq (stable_many stable_entry consumes_entry entry_nil) fun _ => stable_seq (mark_of (by decide)) fun _ =>
    stable_seq stable_optComment fun _ => stable_pure _

theorem stable_grammar : Stable flatdataGrammar :=
  stable_seq (stable_many stable_comment consumes_comment rfl) fun _ => stable_many1 stable_namespaceDecl consumes_namespaceDecl rfl

/-- The repetitions of the grammar are never cut off. -/
theorem repetitions_exact : (∀ n t, t.length ≤ n → manyN fieldDecoration n t = many fieldDecoration t) ∧
    (∀ n t, t.length ≤ n → manyN fieldDecl n t = many fieldDecl t) ∧
    (∀ n t, t.length ≤ n → manyN referencePart n t = many referencePart t) ∧
    (∀ n t, t.length ≤ n → manyN resourceDecoration n t = many resourceDecoration t) ∧
    (∀ n t, t.length ≤ n → manyN boundDeco n t = many boundDeco t) ∧
    (∀ n t, t.length ≤ n → manyN resourceDecl n t = many resourceDecl t) ∧
    (∀ n t, t.length ≤ n → manyN entry n t = many entry t) ∧
    (∀ n t, t.length ≤ n → manyN namespaceDecl n t = many namespaceDecl t) ∧
    (∀ n t, t.length ≤ n → manyN comment n t = many comment t) ∧
    (∀ n t, t.length ≤ n → manyN (do lit [',']; enumValue) n t = many (do lit [',']; enumValue) t) ∧
    (∀ n t, t.length ≤ n → manyN (do lit [',']; qualifiedIdentifier) n t = many (do lit [',']; qualifiedIdentifier) t) :=
  ⟨manyN_enough consumes_fieldDecoration rfl, manyN_enough consumes_fieldDecl rfl, manyN_enough consumes_referencePart rfl,
    manyN_enough consumes_resourceDecoration rfl, manyN_enough consumes_boundDeco rfl, manyN_enough consumes_resourceDecl rfl,
    manyN_enough consumes_entry entry_nil, manyN_enough consumes_namespaceDecl rfl, manyN_enough consumes_comment rfl,
    manyN_enough (consumes_seq (consumes_lit (by simp)) fun _ => consumes_enumValue.notLonger) rfl,
    manyN_enough (consumes_seq (consumes_lit (by simp)) fun _ => consumes_qualified.notLonger) rfl⟩

end Gen
