import Verif.Props.Gen.Syntax

/-!
# C101: every schema of the language is accepted
-/

namespace Props
open Gen Gen.Syn Spec Spec.Syntax Parser

/-! ## Parts -/

/-- The tokens do not begin with a comment. -/
def NoComment (ts : List Token) : Prop := ∀ l, ts ≠ .comment :: l

theorem yields_doc {β : Type} {f : Option Unit → Parser β} {doc ts rest : List Token} {b : β} (hd : Doc doc) (hn : doc = [] → NoComment ts) (h : ∀ o, Yields (f o) ts b rest) :
    Yields (opt comment >>= f) (doc ++ ts) b rest := by
  rcases hd with rfl | rfl
  · exact yields_bind (yields_none (fails_comment (hn rfl))) (h _)
  · exact yields_bind (yields_opt (yields_comment _)) (h _)

theorem fails_doc {β : Type} {f : Option Unit → Parser β} {doc ts : List Token} (hd : Doc doc) (hn : doc = [] → NoComment ts) (h : ∀ o, Fails (f o) ts) :
    Fails (opt comment >>= f) (doc ++ ts) := by
  rcases hd with rfl | rfl
  · exact fails_then (yields_none (fails_comment (hn rfl))) (h _)
  · exact fails_then (yields_opt (yields_comment _)) (h _)

/-- The keyword is not at the beginning of the tokens. -/
def NotKey (k : Text) (ts : List Token) : Prop := ∀ y l, ts = .word (k ++ y) :: l → ¬ Stops isKeywordChar y

/-- The same for a word, computed. -/
def other (k w : Text) : Bool := match stripPrefix k w with
  | none => true
  | some [] => false
  | some (c :: _) => isKeywordChar c

theorem stripPrefix_append (k y : Text) : stripPrefix k (k ++ y) = some y := by
  induction k with
  | nil => rfl
  | cons c k ih => simp only [List.cons_append, stripPrefix, if_true, ih]

theorem notKey_other {k w : Text} {l : List Token} (h : other k w = true) : NotKey k (.word w :: l) := by
  rintro y l' e hy
  simp only [List.cons.injEq, Token.word.injEq] at e
  obtain ⟨rfl, _⟩ := e
  unfold other at h
  rw [stripPrefix_append] at h
  cases y with
  | nil => cases h
  | cons c y =>
    have := hy c rfl
    simp only at h
    rw [h] at this
    cases this

theorem notKey_mark {k : Text} {c : Char} {l : List Token} : NotKey k (.mark c :: l) := fun _ _ e => by cases e
theorem notKey_comment {k : Text} {l : List Token} : NotKey k (.comment :: l) := fun _ _ e => by cases e

theorem fails_kw (s : String) {ts : List Token} (hn : NotKey s.toList ts) (h : ∀ c ∈ s.toList, c ∉ [' ', '\n', '\t', '\r', '{', '}', '(', ')', '<', '>', ':', ';', ',', '=', '/'] := by decide)
    (hne : s.toList ≠ [] := by decide) : Fails (keyword s.toList) ts := fails_keyword (inner_of h) hne hn

/-- A keyword as a word. -/
theorem yields_kw' (s : String) (l : List Token) (h : ∀ c ∈ s.toList, c ∉ [' ', '\n', '\t', '\r', '{', '}', '(', ')', '<', '>', ':', ';', ',', '=', '/'] := by decide) :
    Yields (keyword s.toList) (key s :: l) () l := yields_key (inner_of h) l

/-- A name is not a decoration. -/
theorem ident_at {n k : Text} {l : List Token} (h : Ident n) : NotKey ('@' :: k) (.word n :: l) := by
  rintro y l' e hy
  simp only [List.cons.injEq, Token.word.injEq] at e
  obtain ⟨rfl, _⟩ := e
  obtain ⟨c, hc, hi⟩ := h.1
  cases hc
  revert hi
  decide

theorem yields_commas {α : Type} {p : Parser α} {P : Phrase α} (hc : Consumes p) {as : List α} {l m : List Token} {c : Char} (hcc : c ≠ '=')
    (hp : ∀ a l c m, P a l → c ≠ '=' → Yields p (l ++ .mark c :: m) a (.mark c :: m))
    (h : Commas P as l) (hf : Fails (do lit [',']; p) (.mark c :: m)) : Yields (delimitedList p) (l ++ .mark c :: m) as (.mark c :: m) := by
  suffices ∃ a as' mid, as = a :: as' ∧ Yields p (l ++ .mark c :: m) a mid ∧ Yields (many (do lit [',']; p)) mid as' (.mark c :: m) by
    obtain ⟨a, as', mid, rfl, h1, h2⟩ := this
    exact yields_bind h1 (yields_bind h2 (yields_pure _ _))
  induction h with
  | one h => exact ⟨_, _, _, rfl, hp _ _ _ _ h hcc, yields_nil hf⟩
  | @more x l xs ls h1 h2 ih =>
    obtain ⟨a, as', mid, rfl, h3, h4⟩ := ih
    refine ⟨_, _, _, rfl, ?_, yields_cons (consumes_seq (consumes_lit (by simp)) fun _ => hc.notLonger) rfl (yields_bind (yields_mark _) h3) h4⟩
    rw [List.append_assoc]
    exact hp _ _ _ _ h1 (by decide)

theorem yields_each {α : Type} {p : Parser α} {P : Phrase α} {F : List Token → Prop} (hc : Consumes p) (h0 : p [] = .fail) {as : List α} {l rest : List Token}
    (hp : ∀ a l rest, P a l → F rest → Yields p (l ++ rest) a rest) (hF : ∀ a l rest, P a l → F (l ++ rest)) (h : Each P as l) (hf : Fails p rest) (hr : F rest) :
    Yields (many p) (l ++ rest) as rest := by
  suffices Yields (many p) (l ++ rest) as rest ∧ F (l ++ rest) from this.1
  induction h with
  | nil => exact ⟨yields_nil hf, hr⟩
  | @cons x l xs ls h1 h2 ih =>
    rw [List.append_assoc]
    exact ⟨yields_cons hc h0 (hp _ _ _ h1 ih.2) ih.1, hF _ _ _ h1⟩

theorem yields_every {α : Type} {p : Parser α} {P : Phrase α} (hc : Consumes p) (h0 : p [] = .fail) {as : List α} {l rest : List Token}
    (hp : ∀ a l rest, P a l → Yields p (l ++ rest) a rest) (h : Each P as l) (hf : Fails p rest) :
    Yields (many p) (l ++ rest) as rest := yields_each (F := fun _ => True) hc h0 (fun a l rest h _ => hp a l rest h) (fun _ _ _ _ => trivial) h hf trivial

theorem yields_path {q : Text} {l m : List Token} {c : Char} (h : Syntax.Path q l) : Yields qualifiedIdentifier (l ++ .mark c :: m) q (.mark c :: m) := by
  obtain ⟨h⟩ := h
  exact yields_qualified h _

theorem fails_ident_mark {c : Char} {m : List Token} : Fails identifier (.mark c :: m) := fails_identifier fun _ _ _ e => by cases e
theorem fails_ident_comment {m : List Token} : Fails identifier (.comment :: m) := fails_identifier fun _ _ _ e => by cases e

theorem fails_path_mark {c : Char} {m : List Token} : Fails qualifiedIdentifier (.mark c :: m) := fails_word dotStart_inner fun _ _ _ e => by cases e

theorem yields_width {w : Option Nat} {wl m : List Token} {c : Char} (h : Width w wl) (hc : c ≠ ':') :
    Yields (opt (do lit [':']; bitWidth)) (wl ++ .mark c :: m) w (.mark c :: m) := by
  cases h with
  | none => exact yields_none (fails_bind (fails_mark mark_colon (by simpa using hc)))
  | some h => exact yields_opt (yields_bind (yields_mark _) (yields_bitWidth h _))

/-! ## Enumerations and constants -/

theorem yields_enumValue {v : Text × Option Int} {l m : List Token} {c : Char} (h : EnumValue v l) (hc : c ≠ '=') : Yields enumValue (l ++ .mark c :: m) v (.mark c :: m) := by
  cases h with
  | implicit h hd =>
    rw [List.append_assoc]
    exact yields_doc hd (fun _ _ e => by cases e) fun _ => yields_bind (yields_identifier h _) (yields_bind (yields_none (fails_bind (fails_mark mark_equals (by simpa using hc)))) (yields_pure _ _))
  | explicit h hd hs =>
    rw [List.append_assoc]
    exact yields_doc hd (fun _ _ e => by cases e) fun _ => yields_bind (yields_identifier h _) (yields_bind (yields_opt (yields_bind (yields_mark _) (yields_signed hs _))) (yields_pure _ _))

theorem fails_enumValue_mark {c : Char} {m : List Token} : Fails enumValue (.mark c :: m) :=
  fails_doc (doc := []) (.inl rfl) (fun _ _ e => by cases e) fun _ => fails_bind fails_ident_mark

theorem yields_enumDecl {e : PEnum} {doc l rest : List Token} (hd : Doc doc) (h : Enumeration e l) : Yields enumDecl (doc ++ (l ++ rest)) e rest := by
  obtain ⟨hn, hw, hv, hc⟩ := h
  refine yields_doc hd (fun _ _ e => by cases e) fun _ => ?_
  simp only [List.cons_append, List.nil_append, List.append_assoc]
  refine yields_bind (yields_kw' "enum" _) (yields_bind (yields_identifier hn _) (yields_bind (yields_mark _) (yields_bind (yields_basicType _ _) (yields_bind (yields_width hw (by decide)) (yields_bind (yields_mark _) ?_)))))
  rcases hc with rfl | rfl
  · exact yields_bind (yields_commas consumes_enumValue (by decide) (fun a l c m => yields_enumValue) hv (fails_bind (fails_mark mark_comma (by simp)))) (yields_bind (yields_none (fails_mark mark_comma (by simp)))
      (yields_bind (yields_mark _) (yields_pure _ _)))
  · exact yields_bind (yields_commas consumes_enumValue (by decide) (fun a l c m => yields_enumValue) hv (fails_then (yields_mark _) fails_enumValue_mark)) (yields_bind (yields_opt (yields_mark _))
      (yields_bind (yields_mark _) (yields_pure _ _)))

theorem yields_constantDecl {e : PConstant} {doc l rest : List Token} (hd : Doc doc) (h : Constant e l) : Yields constantDecl (doc ++ (l ++ rest)) e rest := by
  obtain ⟨hn, hs⟩ := h
  exact yields_doc hd (fun _ _ e => by cases e) fun _ => yields_bind (yields_kw' "const" _) (yields_bind (yields_basicType _ _) (yields_bind (yields_identifier hn _) (yields_bind (yields_mark _)
    (yields_bind (yields_signed hs _) (yields_bind (yields_mark _) (yields_pure _ _))))))

/-! ## Structures -/

theorem yields_fieldDecoration {d : PFieldDeco} {l : List Token} (rest : List Token) (h : FieldDecoration d l) : Yields fieldDecoration (l ++ rest) d rest := by
  cases h with
  | range hn hd =>
    rw [List.append_assoc]
    exact yields_left (yields_doc hd (fun _ _ e => by cases e) fun _ => yields_bind (yields_kw' "@range" _) (yields_bind (yields_must (yields_mark _)) (yields_bind (yields_must (yields_identifier hn _))
      (yields_bind (yields_must (yields_mark _)) (yields_pure _ _)))))
  | constRef hq =>
    exact yields_right (fails_doc (doc := []) (.inl rfl) (fun _ _ e => by cases e) fun _ => fails_bind (fails_kw "@range" (notKey_other (by decide)))) (yields_left (yields_bind (yields_kw' "@const" _)
      (yields_bind (yields_must (yields_mark _)) (yields_bind (yields_must (yields_qualified hq _)) (yields_bind (yields_must (yields_mark _)) (yields_pure _ _))))))
  | invalidValue hq =>
    exact yields_right (fails_doc (doc := []) (.inl rfl) (fun _ _ e => by cases e) fun _ => fails_bind (fails_kw "@range" (notKey_other (by decide)))) (yields_right
      (fails_bind (fails_kw "@const" (notKey_other (by decide)))) (yields_bind (yields_kw' "@optional" _)
      (yields_bind (yields_must (yields_mark _)) (yields_bind (yields_must (yields_qualified hq _)) (yields_bind (yields_must (yields_mark _)) (yields_pure _ _))))))

theorem fails_fieldDecoration {ts : List Token} (hn : NoComment ts) (h : ∀ k, NotKey ('@' :: k) ts) : Fails fieldDecoration ts :=
  fails_orElse (fails_doc (doc := []) (.inl rfl) (fun _ => hn) fun _ => fails_bind (fails_kw "@range" (h _))) (fails_orElse (fails_bind (fails_kw "@const" (h _))) (fails_bind (fails_kw "@optional" (h _))))

/-- The comment before a field, and before the range of it. -/
theorem first_comment {ds : List PFieldDeco} {doc dl : List Token} (hd : Doc doc) (h : Each FieldDecoration ds dl) : ∃ doc' dl', doc ++ dl = doc' ++ dl' ∧ Doc doc' ∧ Each FieldDecoration ds dl' ∧
    (doc' = [] → NoComment dl') := by
  rcases hd with rfl | rfl
  · cases h with
    | nil => exact ⟨[], [], rfl, .inl rfl, .nil, fun _ _ e => by cases e⟩
    | cons h1 h2 =>
      cases h1 with
      | range hn hd =>
        rcases hd with rfl | rfl
        · exact ⟨[], _, rfl, .inl rfl, .cons (.range hn (.inl rfl)) h2, fun _ _ e => by cases e⟩
        · exact ⟨[.comment], _, rfl, .inr rfl, .cons (.range hn (.inl rfl)) h2, fun e => by cases e⟩
      | constRef hq => exact ⟨[], _, rfl, .inl rfl, .cons (.constRef hq) h2, fun _ _ e => by cases e⟩
      | invalidValue hq => exact ⟨[], _, rfl, .inl rfl, .cons (.invalidValue hq) h2, fun _ _ e => by cases e⟩
  · exact ⟨[.comment], dl, rfl, .inr rfl, h, fun e => by cases e⟩

theorem yields_fieldDecl {f : PField} {l : List Token} (rest : List Token) (h : Syntax.Field f l) : Yields fieldDecl (l ++ rest) f rest := by
  obtain ⟨hd, hds, hn, hq, hw⟩ := h
  obtain ⟨doc', dl', e, hd', hds', hf⟩ := first_comment hd hds
  rw [e]
  simp only [List.append_assoc, List.cons_append, List.nil_append]
  refine yields_doc hd' (fun h0 => ?_) fun _ => ?_
  · intro l' e
    cases dl' with
    | nil => cases e
    | cons a dl' =>
      simp only [List.cons_append, List.cons.injEq] at e
      exact hf h0 _ (by rw [e.1])
  · exact yields_bind (yields_every consumes_fieldDecoration rfl (fun _ _ rest h => yields_fieldDecoration rest h) hds' (fails_fieldDecoration (fun _ e => by cases e) fun _ => ident_at hn))
      (yields_bind (yields_identifier hn _) (yields_bind (yields_must (yields_mark _)) (yields_bind (yields_must (yields_qualified hq _)) (yields_bind (yields_width hw (by decide))
      (yields_bind (yields_must (yields_mark _)) (yields_pure _ _))))))

theorem fails_fieldDecl {c : Char} {m : List Token} : Fails fieldDecl (.mark c :: m) :=
  fails_doc (doc := []) (.inl rfl) (fun _ _ e => by cases e) fun _ => fails_then (yields_nil (fails_fieldDecoration (fun _ e => by cases e) fun _ => notKey_mark)) (fails_bind fails_ident_mark)

theorem yields_structDecl {e : PStruct} {doc l rest : List Token} (hd : Doc doc) (h : Struct e l) : Yields structDecl (doc ++ (l ++ rest)) e rest := by
  obtain ⟨hn, hfs, hne⟩ := h
  refine yields_doc hd (fun _ _ e => by cases e) fun _ => ?_
  simp only [List.cons_append, List.nil_append, List.append_assoc]
  refine yields_bind (yields_kw' "struct" _) (yields_bind (yields_must (yields_identifier hn _)) (yields_bind (yields_must (yields_mark _)) (yields_bind (yields_must ?_) (yields_bind (yields_must (yields_mark _)) (yields_pure _ _)))))
  cases hfs with
  | nil => exact absurd rfl hne
  | cons h1 h2 =>
    rw [List.append_assoc]
    exact yields_many1 (yields_fieldDecl _ h1) (yields_every consumes_fieldDecl rfl (fun _ _ rest h => yields_fieldDecl rest h) h2 fails_fieldDecl)

/-! ## Types of resources -/

theorem yields_keyPath {k : String} {q : Text} {l m : List Token} (h : KeyPath k q l) (hk : ∀ c ∈ k.toList, c ∉ [' ', '\n', '\t', '\r', '{', '}', '(', ')', '<', '>', ':', ';', ',', '=', '/']) :
    ∃ mid, Yields (keyword k.toList) (l ++ m) () mid ∧ Yields qualifiedIdentifier mid q m := by
  cases h with
  | apart hq => exact ⟨_, yields_kw' k _ hk, yields_qualified hq _⟩
  | together hq hd =>
    cases q with
    | nil => cases hd
    | cons c q =>
      cases hd
      have := yields_kw k (y := '.' :: q) (fun c hc => by cases hc; decide) m hk
      rw [left_cons] at this
      exact ⟨_, this, yields_qualified hq _⟩

/-- The first word of a keyword and a name. -/
theorem keyPath_first {k : String} {q : Text} {l : List Token} (h : KeyPath k q l) : ∃ y l', l = .word (k.toList ++ y) :: l' ∧ (y = [] ∨ ∃ z, y = '.' :: z) := by
  cases h with
  | apart hq => exact ⟨[], [.word q], by simp [key], .inl rfl⟩
  | together hq hd =>
    cases q with
    | nil => cases hd
    | cons c q =>
      cases hd
      exact ⟨_, _, rfl, .inr ⟨_, rfl⟩⟩

theorem dotted_stops {q k y : Text} (hq : Dotted q) (e : q = k ++ y) (hy : Stops isKeywordChar y) : q = k ∨ k ++ ['.'] <+: q := by
  cases y with
  | nil => exact .inl (by rw [e, List.append_nil])
  | cons c y =>
    right
    have h1 := hy c rfl
    rcases hq.2 c (by rw [e]; simp) with h2 | rfl
    · have h2 := idChar_iff.mpr h2
      unfold isIdChar at h2
      unfold isKeywordChar at h1
      simp only [Bool.or_eq_false_iff] at h1
      obtain ⟨⟨⟨h3, h4⟩, h5⟩, _⟩ := h1
      rw [h3, h4, h5] at h2
      cases h2
    · exact ⟨y, by rw [e]; simp⟩

theorem yields_resourceType {ty : PResType} {l m : List Token} {c : Char} (h : ResourceType ty l) : Yields resourceType (l ++ .mark c :: m) ty (.mark c :: m) := by
  cases h with
  | rawData => exact yields_left (yields_bind (yields_kw' "raw_data" _) (yields_pure _ _))
  | vector hq =>
    exact yields_right (fails_bind (fails_kw "raw_data" (notKey_other (by decide)))) (yields_left (yields_bind (yields_kw' "vector" _) (yields_bind (yields_must (yields_mark _))
      (yields_bind (yields_must (yields_qualified hq _)) (yields_bind (yields_must (yields_mark _)) (yields_pure _ _))))))
  | multivector ht hqs =>
    simp only [List.cons_append, List.nil_append, List.append_assoc]
    exact yields_right (fails_bind (fails_kw "raw_data" (notKey_other (by decide)))) (yields_right (fails_bind (fails_kw "vector" (notKey_other (by decide)))) (yields_left (yields_bind (yields_kw' "multivector" _)
      (yields_bind (yields_must (yields_mark _)) (yields_bind (yields_must (yields_bitWidth ht _)) (yields_bind (yields_must (yields_mark _)) (yields_bind
      (yields_must (yields_commas consumes_qualified (by decide) (fun _ _ _ _ h _ => yields_path h) hqs (fails_bind (fails_mark mark_comma (by simp)))))
      (yields_bind (yields_must (yields_mark _)) (yields_pure _ _)))))))))
  | @archive q l doc hd hk =>
    obtain ⟨mid, h1, h2⟩ := yields_keyPath (m := .mark c :: m) hk (by decide)
    obtain ⟨y, l', e, hy⟩ := keyPath_first hk
    have hn : NoComment (l ++ .mark c :: m) := fun _ e' => by rw [e] at e'; cases e'
    have ho : ∀ k : Text, (∀ y, other k ("archive".toList ++ y) = true) → NotKey k (doc ++ l ++ .mark c :: m) := by
      intro k hk
      rcases hd with rfl | rfl
      · rw [e]
        exact notKey_other (hk y)
      · exact notKey_comment
    refine yields_right (fails_bind (fails_kw "raw_data" (ho _ fun _ => rfl))) (yields_right (fails_bind (fails_kw "vector" (ho _ fun _ => rfl))) (yields_right (fails_bind (fails_kw "multivector" (ho _ fun _ => rfl))) (yields_left ?_)))
    rw [List.append_assoc]
    exact yields_doc hd (fun _ => hn) fun _ => yields_bind h1 (yields_bind h2 (yields_pure _ _))
  | @object q hq hr =>
    have ho : ∀ k ∈ ["raw_data", "vector", "multivector"].map String.toList, NotKey k (.word q :: .mark c :: m) := by
      rintro k hk y l' e hy
      simp only [List.cons.injEq, Token.word.injEq] at e
      rcases dotted_stops hq e.1 hy with rfl | h
      · exact hr (.inl hk)
      · exact hr (.inr ⟨k, by
          simp only [List.map_cons, List.map_nil, List.mem_cons, List.not_mem_nil, or_false] at hk ⊢
          tauto, h⟩)
    refine yields_right (fails_bind (fails_kw "raw_data" (ho _ (by simp)))) (yields_right (fails_bind (fails_kw "vector" (ho _ (by simp)))) (yields_right (fails_bind (fails_kw "multivector" (ho _ (by simp))))
      (yields_right ?_ (yields_bind (yields_qualified hq _) (yields_pure _ _)))))
    refine fails_doc (doc := []) (.inl rfl) (fun _ _ e => by cases e) fun _ => ?_
    by_cases ha : q = "archive".toList
    · subst ha
      exact fails_then (yields_kw' "archive" _) (fails_bind fails_path_mark)
    · refine fails_bind (fails_kw "archive" ?_)
      rintro y l' e hy
      simp only [List.cons.injEq, Token.word.injEq] at e
      rcases dotted_stops hq e.1 hy with h | h
      · exact ha h
      · exact hr (.inr ⟨_, by simp, h⟩)

/-! ## References -/

theorem eats_split : ∀ {xs ys : List Text} {ts rest : List Token}, Eats (xs ++ ys) ts rest → ∃ mid, Eats xs ts mid ∧ Eats ys mid rest
  | [], ys, ts, rest, h => ⟨ts, .nil, h⟩
  | x :: xs, ys, ts, rest, h => by
    cases h with
    | cons h1 h2 =>
      obtain ⟨mid, h3, h4⟩ := eats_split h2
      exact ⟨mid, .cons h1 h3, h4⟩

theorem eats_word {x : Text} {xs : List Text} {ts rest : List Token} (h : Eats (x :: xs) ts rest) : ∃ w l, ts = .word w :: l := by
  cases h with
  | cons => exact ⟨_, _, rfl⟩

theorem eats_ident {n : Text} {ts rest : List Token} (hn : Ident n) (h : Eats [n] ts rest) : Yields identifier ts n rest := by
  cases h with
  | cons h1 h2 =>
    cases h2
    refine yields_word idChar_inner (ident_iff.mpr hn) (h1 ?_) _
    rintro rfl
    revert hn
    decide

theorem eats_period {xs : List Text} {ts rest : List Token} (h : Eats (['.'] :: xs) ts rest) : ∃ mid, Yields (lit ['.']) ts () mid ∧ Eats xs mid rest := by
  cases h with
  | cons h1 h2 => exact ⟨_, yields_dot _ _, h2⟩

theorem fails_period {n : Text} {xs : List Text} {ts rest : List Token} (hn : Ident n) (h : Eats (n :: xs) ts rest) : Fails (lit ['.']) ts := by
  cases h with
  | cons h1 h2 =>
    refine fails_dot ?_
    intro y l e
    simp only [List.cons.injEq, Token.word.injEq] at e
    obtain ⟨c, hc, hi⟩ := hn.1
    cases n with
    | nil => cases hc
    | cons d n =>
      cases hc
      simp only [List.cons_append, List.cons.injEq] at e
      rw [e.1.1] at hi
      revert hi
      decide

theorem yields_referencePart {p : Bool × Text} {ts rest : List Token} (hn : Ident p.2) (h : Eats (partTexts p) ts rest) (hr : ∀ m, rest ≠ .mark ',' :: m) :
    Yields referencePart ts (partText p) rest := by
  have hnf : Yields (fun t => match lit [','] t with
    | .ok .. => Res.fail
    | _ => .ok () t : Parser Unit) rest () rest := by
    intro s hs
    have := fails_mark mark_comma hr s hs
    exact ⟨s, by simp only [this], hs⟩
  obtain ⟨b, n⟩ := p
  cases b with
  | true =>
    obtain ⟨mid, h1, h2⟩ := eats_period h
    exact yields_bind (yields_opt h1) (yields_bind (eats_ident hn h2) (yields_bind hnf (yields_pure _ _)))
  | false => exact yields_bind (yields_none (fails_period hn h)) (yields_bind (eats_ident hn h) (yields_bind hnf (yields_pure _ _)))

theorem fails_referencePart {f : Text} {ts m : List Token} (hf : Ident f) (h : Eats [['.'], f] ts (.mark ',' :: m)) : Fails referencePart ts := by
  have hnf : Fails (fun t => match lit [','] t with
    | .ok .. => Res.fail
    | _ => .ok () t : Parser Unit) (.mark ',' :: m) := by
    intro s hs
    obtain ⟨r, e, _⟩ := yields_mark m s hs
    simp only [e]
  obtain ⟨mid, h1, h2⟩ := eats_period h
  exact fails_then (yields_opt h1) (fails_then (eats_ident hf h2) (fails_bind hnf))

theorem yields_parts {f : Text} {rest m : List Token} (hf : Ident f) (hr : Eats [['.'], f] rest (.mark ',' :: m)) : ∀ {parts : List (Bool × Text)} {ts : List Token}, (∀ p ∈ parts, Ident p.2) →
    Eats (parts.flatMap partTexts) ts rest → Yields (many referencePart) ts (parts.map partText) rest
  | [], ts, _, h => by
    cases h
    exact yields_nil (fails_referencePart hf hr)
  | p :: parts, ts, hp, h => by
    rw [List.flatMap_cons] at h
    obtain ⟨mid, h1, h2⟩ := eats_split h
    have hm : ∃ w l, mid = .word w :: l := by
      cases parts with
      | nil => cases h2; exact eats_word hr
      | cons p' parts =>
        rw [List.flatMap_cons] at h2
        unfold partTexts at h2
        split at h2
        · exact eats_word h2
        · exact eats_word h2
    obtain ⟨w, l, rfl⟩ := hm
    exact yields_cons consumes_referencePart rfl (yields_referencePart (hp p (List.mem_cons_self ..)) h1 (by simp)) (yields_parts hf hr (fun p h => hp p (List.mem_cons_of_mem _ h)) h2)

theorem yields_explicitReference {s f q : Text} {l : List Token} (rest : List Token) (h : FieldPath s f l) (hq : Dotted q) :
    Yields explicitReferenceDeco (key "@explicit_reference" :: inParens (l ++ [.mark ',', .word q]) ++ rest) (.explicitReference s f q) rest := by
  obtain ⟨hne, hp, hf, hg, hc⟩ := h
  rename_i parts groups
  have hx : ∀ x ∈ groups.flatten, x ≠ [] := by
    intro x hx
    rw [hg] at hx
    have hi : ∀ n, Ident n → n ≠ [] := by rintro _ h rfl; obtain ⟨c, hc, _⟩ := h.1; cases hc
    rcases List.mem_append.mp hx with hx | hx
    · obtain ⟨p, hp', hx⟩ := List.mem_flatMap.mp hx
      split at hx
      · rcases List.mem_cons.mp hx with rfl | hx
        · simp
        · rw [List.mem_singleton.mp hx]
          exact hi _ (hp p hp')
      · rw [List.mem_singleton.mp hx]
        exact hi _ (hp p hp')
    · rcases List.mem_cons.mp hx with rfl | hx
      · simp
      · rw [List.mem_singleton.mp hx]
        exact hi _ hf
  have he := groups_eats (l := .mark ',' :: .word q :: .mark ')' :: rest) hc hx
  rw [hg] at he
  obtain ⟨mid, h1, h2⟩ := eats_split he
  obtain ⟨mid', h3, h4⟩ := eats_period h2
  have hps := yields_parts hf h2 hp h1
  have hsplit : Yields (many1 referencePart) (groups.map (fun g => Token.word g.flatten) ++ .mark ',' :: .word q :: .mark ')' :: rest) (parts.map partText) mid := by
    cases parts with
    | nil => exact absurd rfl hne
    | cons p parts =>
      have h1' : Eats (partTexts p ++ parts.flatMap partTexts) (groups.map (fun g => Token.word g.flatten) ++ .mark ',' :: .word q :: .mark ')' :: rest) mid := h1
      obtain ⟨mid2, k1, k2⟩ := eats_split h1'
      have hm : ∃ w l, mid2 = .word w :: l := by
        cases parts with
        | nil => cases k2; exact eats_word h2
        | cons p' parts =>
          rw [List.flatMap_cons] at k2
          unfold partTexts at k2
          split at k2
          · exact eats_word k2
          · exact eats_word k2
      obtain ⟨w, l, rfl⟩ := hm
      exact yields_many1 (yields_referencePart (hp p (List.mem_cons_self ..)) k1 (by simp)) (yields_parts hf h2 (fun p h => hp p (List.mem_cons_of_mem _ h)) k2)
  simp only [inParens, List.append_assoc, List.cons_append, List.nil_append]
  exact yields_bind (yields_kw' "@explicit_reference" _) (yields_bind (yields_must (yields_mark _)) (yields_bind (yields_must (yields_bind hsplit (yields_pure _ _))) (yields_bind (yields_must h3)
    (yields_bind (yields_must (eats_ident hf h4)) (yields_bind (yields_must (yields_mark _)) (yields_bind (yields_must (yields_qualified hq _)) (yields_bind (yields_must (yields_mark _)) (yields_pure _ _))))))))

/-! ## Archives -/

theorem notAt_outside {r : Text} (h : Edge r) : notAt r = .ok () r := by
  unfold notAt
  split
  · exact absurd (h '@' rfl) (by unfold Outside Space Mark; decide)
  · rfl

theorem yields_optional (rest : List Token) : Yields optionalDeco (key "@optional" :: rest) .optional rest := by
  intro s hs
  obtain ⟨r, e, hw, hr⟩ := word_text hs
  have hk : keyword "@optional".toList s = .ok () r := keyword_text (k := "@optional".toList) (y := []) (r := r) (inner_of (by decide)) (stops_nil _) (by rw [List.append_nil]; exact e) (by rw [List.append_nil]; exact hw)
  refine ⟨r, ?_, hr⟩
  unfold optionalDeco
  rw [bind_eq]
  unfold seq
  rw [hk]
  simp only
  rw [bind_eq]
  unfold seq
  rw [notAt_outside hw.ends.edge]
  rfl

theorem yields_resourceDecoration {d : PResDeco} {l : List Token} (rest : List Token) (h : ResourceDecoration d l) : Yields resourceDecoration (l ++ rest) d rest := by
  cases h with
  | explicitReference hf hq => exact yields_left (yields_explicitReference rest hf hq)
  | optional => exact yields_right (fails_bind (fails_kw "@explicit_reference" (notKey_other (by decide)))) (yields_optional rest)

theorem fails_resourceDecoration {ts : List Token} (h : ∀ k, NotKey ('@' :: k) ts) : Fails resourceDecoration ts :=
  fails_orElse (fails_bind (fails_kw "@explicit_reference" (h _))) (fails_bind (fails_kw "@optional" (h _)))

theorem each_noComment {ds : List PResDeco} {dl ts : List Token} (h : Each ResourceDecoration ds dl) (hn : NoComment ts) : NoComment (dl ++ ts) := by
  cases h with
  | nil => exact hn
  | cons h _ => cases h <;> exact fun _ e => by cases e

theorem yields_resourceDecl {r : PResource} {l : List Token} (rest : List Token) (h : Resource r l) : Yields resourceDecl (l ++ rest) r rest := by
  obtain ⟨hd, hds, hn, ht⟩ := h
  simp only [List.append_assoc, List.cons_append, List.nil_append]
  exact yields_doc hd (fun _ => each_noComment hds (fun _ e => by cases e)) fun _ =>
    yields_bind (yields_every consumes_resourceDecoration rfl (fun _ _ rest h => yields_resourceDecoration rest h) hds (fails_resourceDecoration fun _ => ident_at hn))
      (yields_bind (yields_identifier hn _) (yields_bind (yields_mark _) (yields_bind (yields_must (yields_resourceType ht)) (yields_bind (yields_must (yields_mark _)) (yields_pure _ _)))))

theorem fails_resourceDecl {c : Char} {m : List Token} : Fails resourceDecl (.mark c :: m) :=
  fails_doc (doc := []) (.inl rfl) (fun _ _ e => by cases e) fun _ => fails_then (yields_nil (fails_resourceDecoration fun _ => notKey_mark)) (fails_bind fails_ident_mark)

theorem yields_boundDeco {b : Text × List Text} {l : List Token} (rest : List Token) (h : Bound b l) : Yields boundDeco (l ++ rest) b rest := by
  obtain ⟨hn, hq⟩ := h
  simp only [inParens, List.append_assoc, List.cons_append, List.nil_append]
  exact yields_bind (yields_kw' "@bound_implicitly" _) (yields_bind (yields_must (yields_mark _)) (yields_bind (yields_must (yields_identifier hn _)) (yields_bind (yields_must (yields_mark _)) (yields_bind
    (yields_must (yields_commas consumes_qualified (by decide) (fun _ _ _ _ h _ => yields_path h) hq (fails_bind (fails_mark mark_comma (by simp)))))
    (yields_bind (yields_must (yields_mark _)) (yields_pure _ _))))))

theorem yields_archiveDecl {a : PArchive} {doc l rest : List Token} (hd : Doc doc) (h : Archive a l) : Yields archiveDecl (doc ++ (l ++ rest)) a rest := by
  obtain ⟨hb, hn, hr⟩ := h
  simp only [List.append_assoc, List.cons_append, List.nil_append]
  refine yields_doc hd (fun _ => ?_) fun _ => ?_
  · cases hb with
    | nil => exact fun _ e => by cases e
    | cons h _ => cases h; exact fun _ e => by cases e
  · exact yields_bind (yields_every consumes_boundDeco rfl (fun _ _ rest h => yields_boundDeco rest h) hb (fails_bind (fails_kw "@bound_implicitly" (notKey_other (by decide)))))
      (yields_bind (yields_kw' "archive" _) (yields_bind (yields_must (yields_identifier hn _)) (yields_bind (yields_must (yields_mark _))
      (yields_bind (yields_must (yields_every consumes_resourceDecl rfl (fun _ _ rest h => yields_resourceDecl rest h) hr fails_resourceDecl)) (yields_bind (yields_must (yields_mark _)) (yields_pure _ _))))))

/-! ## Namespaces -/

section
variable {doc ts : List Token} (hd : Doc doc) (hn : doc = [] → NoComment ts)
include hd hn

theorem fails_enumDecl (h : NotKey "enum".toList ts) : Fails enumDecl (doc ++ ts) := fails_doc hd hn fun _ => fails_bind (fails_kw "enum" h)
theorem fails_structDecl (h : NotKey "struct".toList ts) : Fails structDecl (doc ++ ts) := fails_doc hd hn fun _ => fails_bind (fails_kw "struct" h)
theorem fails_constantDecl (h : NotKey "const".toList ts) : Fails constantDecl (doc ++ ts) := fails_doc hd hn fun _ => fails_bind (fails_kw "const" h)
theorem fails_archiveDecl (h : NotKey "archive".toList ts) (h' : NotKey "@bound_implicitly".toList ts) : Fails archiveDecl (doc ++ ts) :=
  fails_doc hd hn fun _ => fails_then (yields_nil (fails_bind (fails_kw "@bound_implicitly" h'))) (fails_bind (fails_kw "archive" h))

end

theorem entry_enumeration {e : PEnum} {doc l rest : List Token} (hd : Doc doc) (h : Enumeration e l) : Yields entry (doc ++ (l ++ rest)) (.enumeration e) rest :=
  yields_left (yields_bind (yields_enumDecl hd h) (yields_pure _ _))

theorem entry_struct {e : PStruct} {doc l rest : List Token} (hd : Doc doc) (h : Struct e l) : Yields entry (doc ++ (l ++ rest)) (.struct e) rest := by
  refine yields_right (fails_bind ?_) (yields_left (yields_bind (yields_structDecl hd h) (yields_pure _ _)))
  cases h
  exact fails_enumDecl hd (fun _ _ e => by cases e) (notKey_other (by decide))

theorem entry_archive {e : PArchive} {doc l rest : List Token} (hd : Doc doc) (h : Archive e l) : Yields entry (doc ++ (l ++ rest)) (.archive e) rest := by
  have : ∃ w l', l = .word w :: l' ∧ (w = "archive".toList ∨ w = "@bound_implicitly".toList) := by
    obtain ⟨hb, _, _⟩ := h
    cases hb with
    | nil => exact ⟨_, _, rfl, .inl rfl⟩
    | cons h _ => cases h; exact ⟨_, _, rfl, .inr rfl⟩
  obtain ⟨w, l', e', hw⟩ := this
  have hn : doc = [] → NoComment (l ++ rest) := fun _ _ e => by rw [e'] at e; cases e
  refine yields_right (fails_bind (fails_enumDecl hd hn ?_)) (yields_right (fails_bind (fails_structDecl hd hn ?_)) (yields_left (yields_bind (yields_archiveDecl hd h) (yields_pure _ _))))
  all_goals rw [e']; refine notKey_other ?_; rcases hw with rfl | rfl <;> decide

theorem entry_constant {e : PConstant} {doc l rest : List Token} (hd : Doc doc) (h : Constant e l) : Yields entry (doc ++ (l ++ rest)) (.constant e) rest := by
  have : ∃ l', l = key "const" :: l' := by cases h; exact ⟨_, rfl⟩
  obtain ⟨l', e'⟩ := this
  have hn : doc = [] → NoComment (l ++ rest) := fun _ _ e => by rw [e'] at e; cases e
  refine yields_right (fails_bind (fails_enumDecl hd hn ?_)) (yields_right (fails_bind (fails_structDecl hd hn ?_)) (yields_right (fails_bind (fails_archiveDecl hd hn ?_ ?_)) (yields_left
    (yields_bind (yields_constantDecl hd h) (yields_pure _ _)))))
  all_goals rw [e']; exact notKey_other (by decide)

theorem entry_comment {ts : List Token} (h : ∀ w l, ts ≠ .word w :: l) : Yields entry (.comment :: ts) .comment ts := by
  have hk : ∀ k, NotKey k ts := fun k _ _ e => absurd e (h _ _)
  have hd : Doc [.comment] := .inr rfl
  exact yields_right (fails_bind (fails_enumDecl hd (fun e => by cases e) (hk _))) (yields_right (fails_bind (fails_structDecl hd (fun e => by cases e) (hk _))) (yields_right
    (fails_bind (fails_archiveDecl hd (fun e => by cases e) (hk _) (hk _))) (yields_right (fails_bind (fails_constantDecl hd (fun e => by cases e) (hk _))) (yields_bind (yields_comment _) (yields_pure _ _)))))

theorem fails_entry {c : Char} {m : List Token} : Fails entry (.mark c :: m) := by
  have hd : Doc [] := .inl rfl
  have hn : ([] : List Token) = [] → NoComment (.mark c :: m) := fun _ _ e => by cases e
  exact fails_orElse (fails_bind (fails_enumDecl hd hn notKey_mark)) (fails_orElse (fails_bind (fails_structDecl hd hn notKey_mark)) (fails_orElse (fails_bind (fails_archiveDecl hd hn notKey_mark notKey_mark))
    (fails_orElse (fails_bind (fails_constantDecl hd hn notKey_mark)) (fails_bind (fails_comment fun _ e => by cases e)))))

theorem yields_entries {name : Text} {b : PBlock} {l m : List Token} {c : Char} (h : Entries name b l) :
    (∃ es, Yields (many entry) (l ++ .mark c :: m) es (.mark c :: m) ∧ blockOf name es = b) ∧
    ∃ es, Yields (many entry) (.comment :: (l ++ .mark c :: m)) es (.mark c :: m) ∧ blockOf name es = b := by
  have one : ∀ {ts mid : List Token} {e : PEntry} {es : List PEntry}, Yields entry ts e mid → Yields (many entry) mid es (.mark c :: m) → Yields (many entry) ts (e :: es) (.mark c :: m) :=
    fun h h' => yields_cons consumes_entry entry_nil h h'
  have d0 : Doc [] := .inl rfl
  have d1 : Doc [.comment] := .inr rfl
  induction h with
  | nil => exact ⟨⟨[], yields_nil fails_entry, rfl⟩, [.comment], one (entry_comment fun _ _ e => by cases e) (yields_nil fails_entry), rfl⟩
  | comment h ih =>
    obtain ⟨es, h1, h2⟩ := ih.2
    exact ⟨⟨es, h1, h2⟩, .comment :: es, one (entry_comment fun _ _ e => by cases e) h1, h2⟩
  | enumeration h _ ih =>
    obtain ⟨⟨es, h1, h2⟩, _⟩ := ih
    rw [List.append_assoc]
    exact ⟨⟨_, one (entry_enumeration (doc := []) d0 h) h1, by rw [← h2]; rfl⟩, _, one (entry_enumeration (doc := [.comment]) d1 h) h1, by rw [← h2]; rfl⟩
  | struct h _ ih =>
    obtain ⟨⟨es, h1, h2⟩, _⟩ := ih
    rw [List.append_assoc]
    exact ⟨⟨_, one (entry_struct (doc := []) d0 h) h1, by rw [← h2]; rfl⟩, _, one (entry_struct (doc := [.comment]) d1 h) h1, by rw [← h2]; rfl⟩
  | archive h _ ih =>
    obtain ⟨⟨es, h1, h2⟩, _⟩ := ih
    rw [List.append_assoc]
    exact ⟨⟨_, one (entry_archive (doc := []) d0 h) h1, by rw [← h2]; rfl⟩, _, one (entry_archive (doc := [.comment]) d1 h) h1, by rw [← h2]; rfl⟩
  | constant h _ ih =>
    obtain ⟨⟨es, h1, h2⟩, _⟩ := ih
    rw [List.append_assoc]
    exact ⟨⟨_, one (entry_constant (doc := []) d0 h) h1, by rw [← h2]; rfl⟩, _, one (entry_constant (doc := [.comment]) d1 h) h1, by rw [← h2]; rfl⟩

theorem yields_namespaceDecl {b : PBlock} {l : List Token} (rest : List Token) (h : Namespace b l) (hr : NoComment rest) : Yields namespaceDecl (l ++ rest) b rest := by
  obtain ⟨hk, he, hd⟩ := h
  simp only [List.append_assoc, List.cons_append]
  obtain ⟨mid, h1, h2⟩ := yields_keyPath hk (by decide)
  obtain ⟨⟨es, h3, rfl⟩, _⟩ := yields_entries he
  exact yields_bind h1 (yields_bind h2 (yields_bind (yields_mark _) (yields_bind h3 (yields_bind (yields_mark _) (yields_doc hd (fun _ => hr) fun _ => yields_pure _ _)))))

theorem namespace_first {b : PBlock} {l rest : List Token} (h : Namespace b l) : NoComment (l ++ rest) := by
  obtain ⟨hk, _, _⟩ := h
  obtain ⟨y, l', rfl, _⟩ := keyPath_first hk
  exact fun _ e => by cases e

theorem yields_grammar {bs : List PBlock} {ts : List Token} (h : Schema bs ts) : Yields flatdataGrammar ts bs [] := by
  obtain ⟨he, hne⟩ := h
  rename_i k l
  have hl : Yields (many1 namespaceDecl) l bs [] := by
    cases he with
    | nil => exact absurd rfl hne
    | @cons x l xs ls h1 h2 =>
      have hx : NoComment ls := by
        cases h2 with
        | nil => exact fun _ e => by cases e
        | cons h _ => exact namespace_first h
      have := yields_each (p := namespaceDecl) (F := NoComment) (rest := []) consumes_namespaceDecl rfl (fun a l rest h hr => yields_namespaceDecl rest h hr) (fun a l rest h => namespace_first h) h2
        (fails_bind (fails_kw "namespace" fun _ _ e => by cases e)) (fun _ e => by cases e)
      rw [List.append_nil] at this
      exact yields_many1 (yields_namespaceDecl _ h1 hx) this
  have hx : NoComment l := by
    cases he with
    | nil => exact absurd rfl hne
    | cons h _ => exact namespace_first h
  have hc : ∀ k, ∃ us, Yields (many comment) (List.replicate k .comment ++ l) us l := by
    intro k
    induction k with
    | zero => exact ⟨[], yields_nil (fails_comment hx)⟩
    | succ k ih =>
      obtain ⟨us, h⟩ := ih
      exact ⟨_, yields_cons consumes_comment rfl (yields_comment _) h⟩
  obtain ⟨us, h⟩ := hc k
  exact yields_bind h hl

/-! ## The property -/

/-- **C101.** A text is accepted, with this result, if and only if its tokens are a schema of the language that declares it. -/
theorem C101_language {s : Text} (hs : s ≠ []) (blocks : List PBlock) : parseSource s = .ok blocks ↔ ∃ ts, Tokens s ts ∧ Schema blocks ts := by
  unfold parseSource
  rw [if_neg hs]
  constructor
  · intro h
    obtain ⟨ts, ht⟩ := tokens_total s
    cases e : flatdataGrammar s with
    | ok bs r =>
      rw [e] at h
      simp only at h
      split at h
      · rename_i hr
        cases h
        obtain ⟨rest, h1, l, h2, rfl⟩ := only_grammar s ts _ r ht e
        rw [(skipWs_tokens h1).mp hr, List.append_nil] at ht
        exact ⟨l, ht, h2⟩
      · cases h
    | fail => rw [e] at h; cases h
    | fatal => rw [e] at h; cases h
  · rintro ⟨ts, ht, h⟩
    obtain ⟨r, e, hr⟩ := yields_grammar h s ht
    rw [e]
    simp only
    rw [if_pos ((skipWs_tokens hr).mpr rfl)]
    rfl

/-- **C101.** The other texts are rejected as unparsable. -/
theorem C101_rejected {s : Text} (hs : s ≠ []) : parseSource s = .error .parsingError ↔ ∀ ts, Tokens s ts → ∀ blocks, ¬ Schema blocks ts := by
  constructor
  · intro h ts ht bs hb
    have := (C101_language hs bs).mpr ⟨ts, ht, hb⟩
    rw [h] at this
    cases this
  · intro h
    cases e : parseSource s with
    | ok bs =>
      obtain ⟨ts, ht, hb⟩ := (C101_language hs bs).mp e
      exact absurd hb (h ts ht bs)
    | error x =>
      unfold parseSource at e
      rw [if_neg hs] at e
      split at e
      · split at e
        · cases e
        · cases e; rfl
      · cases e; rfl

/-- **C101.** The language is unambiguous. -/
theorem C101_unambiguous {s : Text} {ts : List Token} {blocks blocks' : List PBlock} (ht : Tokens s ts) (h : Schema blocks ts) (h' : Schema blocks' ts) : blocks = blocks' := by
  obtain ⟨r, e, _⟩ := yields_grammar h s ht
  obtain ⟨r', e', _⟩ := yields_grammar h' s ht
  rw [e] at e'
  cases e'
  rfl

end Props
