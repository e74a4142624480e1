import Verif.Lemmas.GenSyntax
import Verif.Props.Gen.Format

/-!
# C101: the language that is accepted
-/

namespace Props
open Gen Gen.Syn Spec Spec.Syntax Parser

/-! ## Phrases that end with a word -/

/-- A phrase at the beginning of the tokens. -/
def Whole {α : Type} (P : Phrase α) (a : α) (ts rest : List Token) : Prop := ∃ l, P a l ∧ ts = l ++ rest

/-- A phrase whose last word may be a beginning of a word. -/
def Ends {α : Type} (P : Phrase α) (a : α) (ts rest : List Token) : Prop :=
  ∃ l x y m, P a (l ++ [.word x]) ∧ ts = l ++ .word (x ++ y) :: m ∧ rest = left y m

theorem ends_mark {α : Type} {P : Phrase α} {a : α} {ts m : List Token} {c : Char} (h : Ends P a ts (.mark c :: m)) : Whole P a ts (.mark c :: m) := by
  obtain ⟨l, x, y, m', h1, rfl, h2⟩ := h
  obtain ⟨rfl, rfl⟩ := left_mark h2.symm
  exact ⟨_, h1, by simp⟩

/-! ## Soundness -/

theorem only_doc : Only (opt comment) fun _ ts rest => ∃ doc, Doc doc ∧ ts = doc ++ rest :=
  (only_opt only_comment).mono fun _ ts rest h => by
    rcases h with ⟨_, rfl⟩ | ⟨_, _, rfl⟩
    · exact ⟨[], .inl rfl, rfl⟩
    · exact ⟨[.comment], .inr rfl, rfl⟩

theorem mark_comma : Mark ',' := by unfold Mark; decide
theorem mark_colon : Mark ':' := by unfold Mark; decide
theorem mark_semi : Mark ';' := by unfold Mark; decide
theorem mark_equals : Mark '=' := by unfold Mark; decide
theorem mark_open : Mark '(' := by unfold Mark; decide
theorem mark_close : Mark ')' := by unfold Mark; decide
theorem mark_brace : Mark '{' := by unfold Mark; decide
theorem mark_endbrace : Mark '}' := by unfold Mark; decide
theorem mark_less : Mark '<' := by unfold Mark; decide
theorem mark_greater : Mark '>' := by unfold Mark; decide

theorem only_commas {α : Type} {p : Parser α} {P : Phrase α} (h : Only p (Ends P)) : Only (delimitedList p) (Ends (Commas P)) := by
  intro s ts as r hs e
  obtain ⟨rest, h1, a, mid, h2, as', mid', h3, rfl, rfl⟩ := only_bind h (fun a => only_bind (only_many (only_bind (only_mark mark_comma) fun _ => h)) fun as => only_pure _) s ts as r hs e
  refine ⟨_, h1, ?_⟩
  clear h1 hs e
  induction h3 generalizing a ts with
  | nil =>
    obtain ⟨l, x, y, m, k1, k2, k3⟩ := h2
    exact ⟨l, x, y, m, .one k1, k2, k3⟩
  | @cons b bs ts' mid rest hb _ ih =>
    obtain ⟨_, mid1, rfl, hb⟩ := hb
    obtain ⟨l', x, y, m, k1, rfl, rfl⟩ := ih _ _ hb
    obtain ⟨l, j1, rfl⟩ := ends_mark h2
    refine ⟨l ++ .mark ',' :: l', x, y, m, ?_, by simp, rfl⟩
    have := Commas.more j1 k1
    simpa using this

theorem only_name : Only identifier (Ends Name) := only_identifier.mono fun n ts rest h => by
  obtain ⟨h1, y, l, rfl, rfl, _⟩ := h
  exact ⟨[], n, y, l, .mk h1, rfl, rfl⟩

theorem only_path : Only qualifiedIdentifier (Ends Syntax.Path) := only_qualified.mono fun n ts rest h => by
  obtain ⟨h1, y, l, rfl, rfl, _⟩ := h
  exact ⟨[], n, y, l, .mk h1, rfl, rfl⟩

theorem name_mark {n : Text} {ts m : List Token} {c : Char} (h : Ends Name n ts (.mark c :: m)) : Ident n ∧ ts = .word n :: .mark c :: m := by
  obtain ⟨l, ⟨h1⟩, rfl⟩ := ends_mark h
  exact ⟨h1, rfl⟩

theorem path_mark {n : Text} {ts m : List Token} {c : Char} (h : Ends Syntax.Path n ts (.mark c :: m)) : Dotted n ∧ ts = .word n :: .mark c :: m := by
  obtain ⟨l, ⟨h1⟩, rfl⟩ := ends_mark h
  exact ⟨h1, rfl⟩

theorem only_enumValue : Only enumValue (Ends EnumValue) := by
  refine (only_bind only_doc fun _ => only_bind only_name fun n => only_bind (only_opt (only_bind (only_mark mark_equals) fun _ => only_signed)) fun v => only_pure _).mono ?_
  rintro _ ts rest ⟨_, m1, ⟨doc, hd, rfl⟩, n, m2, h2, v, m3, h3, rfl, rfl⟩
  rcases h3 with ⟨rfl, rfl⟩ | ⟨v, rfl, _, m4, rfl, t, h4, y, l, rfl, rfl, _⟩
  · obtain ⟨l, x, y, m, h1, rfl, rfl⟩ := h2
    generalize hw : l ++ [.word x] = w at h1
    obtain ⟨h1⟩ := h1
    cases l with
    | nil =>
      simp only [List.nil_append, List.cons.injEq, Token.word.injEq, and_true] at hw
      subst hw
      exact ⟨doc, x, y, m, .implicit h1 hd, by simp, rfl⟩
    | cons c l => simp at hw
  · obtain ⟨h1, rfl⟩ := name_mark h2
    refine ⟨doc ++ [.word n, .mark '='], t, y, l, ?_, by simp, rfl⟩
    have := EnumValue.explicit h1 hd h4
    simpa using this

/-- A keyword, and a name after it. -/
theorem key_name {k n : Text} {ts mid : List Token} {rest : List Token} (h : Cut k isKeywordChar ts mid) (h' : Ends Name n mid rest) : ∃ y m, ts = .word k :: .word (n ++ y) :: m ∧
    rest = left y m ∧ Ident n := by
  obtain ⟨l, x, y, m, h1, rfl, rfl⟩ := h'
  generalize hw : l ++ [.word x] = w at h1
  obtain ⟨h1⟩ := h1
  cases l with
  | cons c l => simp at hw
  | nil =>
    simp only [List.nil_append, List.cons.injEq, Token.word.injEq, and_true] at hw
    subst hw
    obtain ⟨c, hc, hi⟩ := h1.1
    cases x with
    | nil => cases hc
    | cons d x =>
      cases hc
      refine ⟨y, m, cut_word h ?_, rfl, h1⟩
      have := idStart_iff.mpr hi
      unfold isIdStart at this
      unfold isKeywordChar
      simp only [Bool.or_eq_true, decide_eq_true_eq] at this ⊢
      tauto

theorem key_name_mark {k n : Text} {ts mid m : List Token} {c : Char} (h : Cut k isKeywordChar ts mid) (h' : Ends Name n mid (.mark c :: m)) :
    ts = .word k :: .word n :: .mark c :: m ∧ Ident n := by
  obtain ⟨y, l, rfl, h1, h2⟩ := key_name h h'
  obtain ⟨rfl, rfl⟩ := left_mark h1.symm
  rw [List.append_nil]
  exact ⟨rfl, h2⟩

/-- A width, or none. -/
theorem only_width : Only (opt (do lit [':']; bitWidth)) fun w ts rest => (w = none ∧ rest = ts) ∨ ∃ n t y l, w = some n ∧ Numeral 10 t n ∧
    ts = .mark ':' :: .word (t ++ y) :: l ∧ rest = left y l :=
  (only_opt (only_bind (only_mark mark_colon) fun _ => only_bitWidth)).mono fun w ts rest h => by
    rcases h with h | ⟨n, rfl, _, mid, rfl, t, h1, y, l, rfl, rfl, _⟩
    · exact .inl h
    · exact .inr ⟨n, t, y, l, rfl, h1, rfl, rfl⟩

theorem width_mark {w : Option Nat} {ts m : List Token} {c : Char} (h : (w = none ∧ .mark c :: m = ts) ∨ ∃ n t y l, w = some n ∧ Numeral 10 t n ∧
    ts = .mark ':' :: .word (t ++ y) :: l ∧ .mark c :: m = left y l) : ∃ wl d r, Width w wl ∧ ts = wl ++ .mark c :: m ∧ ts = .mark d :: r := by
  rcases h with ⟨rfl, rfl⟩ | ⟨n, t, y, l, rfl, h1, rfl, h2⟩
  · exact ⟨[], c, m, .none, rfl, rfl⟩
  · obtain ⟨rfl, rfl⟩ := left_mark h2.symm
    exact ⟨[.mark ':', .word t], _, _, .some h1, by simp, rfl⟩

theorem enum_inner (s : String) (h : ∀ c ∈ s.toList, c ∉ [' ', '\n', '\t', '\r', '{', '}', '(', ')', '<', '>', ':', ';', ',', '=', '/'] := by decide)
    (hne : s.toList ≠ [] := by decide) : Only (keyword s.toList) fun _ ts rest => Cut s.toList isKeywordChar ts rest := only_keyword (inner_of h) hne

/-- With an optional comment before it. -/
def WithDoc {α : Type} (P : Phrase α) (a : α) (ts rest : List Token) : Prop := ∃ doc l, Doc doc ∧ P a l ∧ ts = doc ++ (l ++ rest)

theorem only_enumDecl : Only enumDecl (WithDoc Enumeration) := by
  refine (only_bind only_doc fun _ => only_bind (enum_inner "enum") fun _ => only_bind only_name fun n => only_bind (only_mark mark_colon) fun _ =>
    only_bind only_basicType fun ty => only_bind only_width fun w => only_bind (only_mark mark_brace) fun _ => only_bind (only_commas only_enumValue) fun vs =>
    only_bind (only_opt (only_mark mark_comma)) fun _ => only_bind (only_mark mark_endbrace) fun _ => only_pure _).mono ?_
  rintro _ ts rest ⟨_, _, ⟨doc, hd, rfl⟩, _, _, h1, n, _, h2, _, _, rfl, ty, _, h4, w, _, h5, _, mB, rfl, vs, _, h6, _, _, h7, _, _, rfl, rfl, rfl⟩
  obtain ⟨rfl, hn⟩ := key_name_mark h1 h2
  obtain ⟨wl, d, r, hw, rfl, hr⟩ := width_mark h5
  rw [hr] at h4
  have h4 := cut_mark h4
  rw [← hr] at h4
  subst h4
  have : ∃ comma, (comma = [] ∨ comma = [Token.mark ',']) ∧ ∃ vl, Commas EnumValue vs vl ∧ mB = vl ++ (comma ++ .mark '}' :: rest) := by
    rcases h7 with ⟨_, rfl⟩ | ⟨_, _, rfl⟩
    · obtain ⟨vl, k1, k2⟩ := ends_mark h6
      exact ⟨[], .inl rfl, vl, k1, k2⟩
    · obtain ⟨vl, k1, k2⟩ := ends_mark h6
      exact ⟨[.mark ','], .inr rfl, vl, k1, k2⟩
  obtain ⟨comma, hc, vl, hv, rfl⟩ := this
  exact ⟨doc, _, hd, .mk hn hw hv hc, by simp [key]⟩

/-- A keyword, and a keyword after it. -/
theorem key_key {k k' : Text} {ts mid rest : List Token} (h : Cut k isKeywordChar ts mid) (h' : Cut k' isKeywordChar mid rest) (hk : ∃ c w, k' = c :: w ∧ isKeywordChar c = true) :
    ts = .word k :: mid := by
  obtain ⟨y, l, rfl, rfl, _⟩ := h'
  obtain ⟨c, w, rfl, hc⟩ := hk
  exact cut_word h hc

theorem only_constantDecl : Only constantDecl (WithDoc Constant) := by
  refine (only_bind only_doc fun _ => only_bind (enum_inner "const") fun _ => only_bind only_basicType fun ty => only_bind only_name fun n =>
    only_bind (only_mark mark_equals) fun _ => only_bind only_signed fun v => only_bind (only_mark mark_semi) fun _ => only_pure _).mono ?_
  rintro _ ts rest ⟨_, _, ⟨doc, hd, rfl⟩, _, _, h1, ty, _, h2, n, _, h3, _, _, rfl, v, _, ⟨t, ht, h4⟩, _, _, rfl, rfl, rfl⟩
  have h4 := cut_mark h4
  subst h4
  have h1 := key_key h1 h2 (by cases ty <;> exact ⟨_, _, rfl, by decide⟩)
  subst h1
  obtain ⟨rfl, hn⟩ := key_name_mark h2 h3
  exact ⟨doc, _, hd, .mk hn ht, by simp [key]⟩

/-! ### Structures -/

theorem only_rangeDeco : Only rangeDeco (Whole FieldDecoration) := by
  refine (only_bind only_doc fun _ => only_bind (enum_inner "@range") fun _ => only_bind (only_must (only_mark mark_open)) fun _ => only_bind (only_must only_name) fun n =>
    only_bind (only_must (only_mark mark_close)) fun _ => only_pure _).mono ?_
  rintro _ ts rest ⟨_, _, ⟨doc, hd, rfl⟩, _, _, h1, _, _, rfl, n, _, h3, _, _, rfl, rfl, rfl⟩
  have h1 := cut_mark h1
  subst h1
  obtain ⟨hn, rfl⟩ := name_mark h3
  exact ⟨_, .range hn hd, by simp [key, inParens]⟩

theorem only_constRef : Only constRef (Whole FieldDecoration) := by
  refine (only_bind (enum_inner "@const") fun _ => only_bind (only_must (only_mark mark_open)) fun _ => only_bind (only_must only_path) fun n =>
    only_bind (only_must (only_mark mark_close)) fun _ => only_pure _).mono ?_
  rintro _ ts rest ⟨_, _, h1, _, _, rfl, n, _, h3, _, _, rfl, rfl, rfl⟩
  have h1 := cut_mark h1
  subst h1
  obtain ⟨hn, rfl⟩ := path_mark h3
  exact ⟨_, .constRef hn, by simp [key, inParens]⟩

theorem only_invalidValue : Only invalidValue (Whole FieldDecoration) := by
  refine (only_bind (enum_inner "@optional") fun _ => only_bind (only_must (only_mark mark_open)) fun _ => only_bind (only_must only_path) fun n =>
    only_bind (only_must (only_mark mark_close)) fun _ => only_pure _).mono ?_
  rintro _ ts rest ⟨_, _, h1, _, _, rfl, n, _, h3, _, _, rfl, rfl, rfl⟩
  have h1 := cut_mark h1
  subst h1
  obtain ⟨hn, rfl⟩ := path_mark h3
  exact ⟨_, .invalidValue hn, by simp [key, inParens]⟩

theorem only_fieldDecoration : Only fieldDecoration (Whole FieldDecoration) :=
  (only_orElse only_rangeDeco (only_orElse only_constRef only_invalidValue)).mono fun _ _ _ h => by
    rcases h with h | h | h <;> exact h

theorem star_each {α : Type} {P : Phrase α} {as : List α} {ts rest : List Token} (h : Star (Whole P) as ts rest) : ∃ l, Each P as l ∧ ts = l ++ rest := by
  induction h with
  | nil => exact ⟨[], .nil, rfl⟩
  | cons h _ ih =>
    obtain ⟨l, h1, rfl⟩ := h
    obtain ⟨ls, h2, rfl⟩ := ih
    exact ⟨l ++ ls, .cons h1 h2, by simp⟩

theorem only_fieldDecl : Only fieldDecl (Whole Syntax.Field) := by
  refine (only_bind only_doc fun _ => only_bind (only_many only_fieldDecoration) fun ds => only_bind only_name fun n => only_bind (only_must (only_mark mark_colon)) fun _ =>
    only_bind (only_must only_path) fun ty => only_bind only_width fun w => only_bind (only_must (only_mark mark_semi)) fun _ => only_pure _).mono ?_
  rintro _ ts rest ⟨_, _, ⟨doc, hd, rfl⟩, ds, _, h1, n, _, h2, _, _, rfl, ty, _, h3, w, _, h4, _, _, rfl, rfl, rfl⟩
  obtain ⟨dl, hds, rfl⟩ := star_each h1
  obtain ⟨wl, d, r, hw, rfl, hr⟩ := width_mark h4
  rw [hr] at h3
  obtain ⟨hty, rfl⟩ := path_mark h3
  obtain ⟨hn, rfl⟩ := name_mark h2
  exact ⟨_, .mk hd hds hn hty hw, by simp [← hr]⟩

theorem only_structDecl : Only structDecl (WithDoc Struct) := by
  refine (only_bind only_doc fun _ => only_bind (enum_inner "struct") fun _ => only_bind (only_must only_name) fun n => only_bind (only_must (only_mark mark_brace)) fun _ =>
    only_bind (only_must (only_many1 only_fieldDecl)) fun fs => only_bind (only_must (only_mark mark_endbrace)) fun _ => only_pure _).mono ?_
  rintro _ ts rest ⟨_, _, ⟨doc, hd, rfl⟩, _, _, h1, n, _, h2, _, _, rfl, fs, _, ⟨hne, h3⟩, _, _, rfl, rfl, rfl⟩
  obtain ⟨fl, hfs, rfl⟩ := star_each h3
  obtain ⟨rfl, hn⟩ := key_name_mark h1 h2
  exact ⟨doc, _, hd, .mk hn hfs hne, by simp [key]⟩

/-! ### Types of resources -/

/-- On no text with these tokens the expression fails. -/
def NoFail {α : Type} (p : Parser α) (ts : List Token) : Prop := ∀ s, Tokens s ts → p s ≠ .fail

theorem nofail_yields {α : Type} {p : Parser α} {ts rest : List Token} {a : α} (h : Yields p ts a rest) : NoFail p ts := by
  intro s hs e
  obtain ⟨r, h1, _⟩ := h s hs
  rw [e] at h1
  cases h1

theorem nofail_then {α β : Type} {p : Parser α} {f : α → Parser β} {ts mid : List Token} {a : α} (h : Yields p ts a mid) (h' : NoFail (f a) mid) : NoFail (p >>= f) ts := by
  intro s hs
  obtain ⟨r, e, hr⟩ := h s hs
  rw [bind_eq]
  unfold seq
  rw [e]
  exact h' r hr

/-- On no text. -/
def Never {α : Type} (p : Parser α) : Prop := ∀ s, p s ≠ .fail

theorem never_pure {α : Type} (a : α) : Never (pure a : Parser α) := fun _ e => by cases e

theorem never_must {α β : Type} {p : Parser α} {f : α → Parser β} (h : ∀ a, Never (f a)) : Never (must p >>= f) := by
  intro s
  rw [bind_eq]
  unfold seq must
  cases e : p s with
  | ok a r => exact h a r
  | fail => simp
  | fatal => simp

theorem Never.on {α : Type} {p : Parser α} (h : Never p) (ts : List Token) : NoFail p ts := fun s _ => h s

theorem only_orElse' {α : Type} {p q : Parser α} {R R' : α → List Token → List Token → Prop} (h : Only p R) (h' : Only q R') :
    Only (orElse p q) fun a ts rest => R a ts rest ∨ (R' a ts rest ∧ ¬ NoFail p ts) := by
  intro s ts a r hs e
  unfold orElse at e
  cases hp : p s with
  | ok b r1 =>
    rw [hp] at e
    cases e
    obtain ⟨rest, h1, h2⟩ := h s ts _ _ hs hp
    exact ⟨rest, h1, .inl h2⟩
  | fail =>
    rw [hp] at e
    obtain ⟨rest, h1, h2⟩ := h' s ts _ _ hs e
    exact ⟨rest, h1, .inr ⟨h2, fun hn => hn s hs hp⟩⟩
  | fatal => rw [hp] at e; cases e

theorem only_vectorType : Only vectorType (Whole ResourceType) := by
  refine (only_bind (enum_inner "vector") fun _ => only_bind (only_must (only_mark mark_less)) fun _ => only_bind (only_must only_path) fun n =>
    only_bind (only_must (only_mark mark_greater)) fun _ => only_pure _).mono ?_
  rintro _ ts rest ⟨_, _, h1, _, _, rfl, n, _, h3, _, _, rfl, rfl, rfl⟩
  have h1 := cut_mark h1
  subst h1
  obtain ⟨hn, rfl⟩ := path_mark h3
  exact ⟨_, .vector hn, by simp [key]⟩

theorem only_multivectorType : Only multivectorType (Whole ResourceType) := by
  refine (only_bind (enum_inner "multivector") fun _ => only_bind (only_must (only_mark mark_less)) fun _ => only_bind (only_must only_bitWidth) fun n =>
    only_bind (only_must (only_mark mark_comma)) fun _ => only_bind (only_must (only_commas only_path)) fun qs =>
    only_bind (only_must (only_mark mark_greater)) fun _ => only_pure _).mono ?_
  rintro _ ts rest ⟨_, _, h1, _, _, rfl, n, _, ⟨t, ht, h2⟩, _, _, rfl, qs, _, h3, _, _, rfl, rfl, rfl⟩
  have h1 := cut_mark h1
  subst h1
  have h2 := cut_mark h2
  subst h2
  obtain ⟨ql, hq, rfl⟩ := ends_mark h3
  exact ⟨_, .multivector ht hq, by simp [key]⟩

/-- A keyword and a name with dots. -/
theorem keyPath_mark {k : String} {q : Text} {ts mid rest : List Token} {c : Char} (h : Cut k.toList isKeywordChar ts mid) (h' : Ends Syntax.Path q mid (.mark c :: rest)) :
    Whole (KeyPath k) q ts (.mark c :: rest) := by
  obtain ⟨hq, rfl⟩ := path_mark h'
  obtain ⟨y, l, rfl, h1, h2⟩ := h
  cases y with
  | nil =>
    rw [left_nil] at h1
    subst h1
    exact ⟨_, .apart hq, by simp [key]⟩
  | cons d y =>
    rw [left_cons] at h1
    simp only [List.cons.injEq, Token.word.injEq] at h1
    obtain ⟨rfl, rfl⟩ := h1
    refine ⟨_, .together hq ?_, by simp⟩
    obtain ⟨e, he, h3⟩ := hq.1
    cases he
    rcases h3 with h3 | rfl
    · have h4 := h2 d rfl
      have h5 := idStart_iff.mpr h3
      unfold isIdStart at h5
      unfold isKeywordChar at h4
      simp only [Bool.or_eq_true, decide_eq_true_eq] at h5
      simp only [Bool.or_eq_false_iff, decide_eq_false_iff_not] at h4
      obtain ⟨⟨⟨h4, _⟩, h6⟩, _⟩ := h4
      rw [h4] at h5
      simp [h6] at h5
    · rfl

theorem yields_kw (s : String) {y : Text} (hy : Stops isKeywordChar y) (l : List Token)
    (h : ∀ c ∈ s.toList, c ∉ [' ', '\n', '\t', '\r', '{', '}', '(', ')', '<', '>', ':', ';', ',', '=', '/'] := by decide) :
    Yields (keyword s.toList) (.word (s.toList ++ y) :: l) () (left y l) := yields_keyword (inner_of h) hy l

/-- The words before which a type is expected are not types. -/
theorem reserved_nofail {q : Text} {l : List Token} (hq : Dotted q) (h : ReservedType q) :
    NoFail rawDataType (.word q :: l) ∨ NoFail vectorType (.word q :: l) ∨ NoFail multivectorType (.word q :: l) ∨ NoFail archiveType (.word q :: l) := by
  have nv : ∀ {y}, Stops isKeywordChar y → NoFail vectorType (.word ("vector".toList ++ y) :: l) := fun hy =>
    nofail_then (yields_kw "vector" hy l) (Never.on (never_must fun _ => never_must fun _ => never_must fun _ => never_pure _) _)
  have nm : ∀ {y}, Stops isKeywordChar y → NoFail multivectorType (.word ("multivector".toList ++ y) :: l) := fun hy =>
    nofail_then (yields_kw "multivector" hy l) (Never.on (never_must fun _ => never_must fun _ => never_must fun _ => never_must fun _ => never_must fun _ => never_pure _) _)
  have nr : ∀ {y}, Stops isKeywordChar y → NoFail rawDataType (.word ("raw_data".toList ++ y) :: l) := fun hy =>
    nofail_then (yields_kw "raw_data" hy l) (Never.on (never_pure _) _)
  have hdot : ∀ y, Stops isKeywordChar ('.' :: y) := fun y c hc => by cases hc; decide
  rcases h with h | ⟨k, hk, y, rfl⟩
  · simp only [List.map_cons, List.map_nil, List.mem_cons, List.not_mem_nil, or_false] at h
    rcases h with rfl | rfl | rfl
    · exact .inl (nr (stops_nil _))
    · exact .inr (.inl (nv (stops_nil _)))
    · exact .inr (.inr (.inl (nm (stops_nil _))))
  · rw [List.append_assoc] at hq ⊢
    simp only [List.map_cons, List.map_nil, List.mem_cons, List.not_mem_nil, or_false] at hk
    rcases hk with rfl | rfl | rfl | rfl
    · exact .inl (nr (hdot y))
    · exact .inr (.inl (nv (hdot y)))
    · exact .inr (.inr (.inl (nm (hdot y))))
    · refine .inr (.inr (.inr (nofail_then (yields_none (fails_comment (by simp))) (nofail_then (yields_kw "archive" (hdot y) l) ?_))))
      rw [left_cons]
      refine nofail_then (yields_qualified ⟨⟨'.', rfl, .inr rfl⟩, fun c hc => hq.2 c ?_⟩ l) (Never.on (never_pure _) _)
      exact List.mem_append_right _ hc

/-- A phrase, if a mark is after it. -/
def Before {α : Type} (P : Phrase α) (a : α) (ts rest : List Token) : Prop := ∀ c m, rest = .mark c :: m → Whole P a ts rest

theorem only_resourceType : Only resourceType (Before ResourceType) := by
  refine (only_orElse' (only_bind (enum_inner "raw_data") fun _ => only_pure _) (only_orElse' only_vectorType (only_orElse' only_multivectorType (only_orElse'
    (only_bind only_doc fun _ => only_bind (enum_inner "archive") fun _ => only_bind only_path fun q => only_pure _) (only_bind only_path fun q => only_pure _))))).mono ?_
  rintro a ts _ h c rest rfl
  rcases h with ⟨_, _, h, rfl, rfl⟩ | ⟨h | ⟨h | ⟨⟨_, _, ⟨doc, hd, rfl⟩, _, _, h1, q, _, h2, rfl, rfl⟩ | ⟨⟨q, _, h, rfl, rfl⟩, n4⟩, n3⟩, n2⟩, n1⟩
  · rw [cut_mark h]
    exact ⟨_, .rawData, rfl⟩
  · exact h
  · exact h
  · obtain ⟨l, hl, rfl⟩ := keyPath_mark h1 h2
    exact ⟨_, .archive hd hl, by simp⟩
  · obtain ⟨hq, rfl⟩ := path_mark h
    refine ⟨_, .object hq fun hr => ?_, rfl⟩
    rcases reserved_nofail (l := .mark c :: rest) hq hr with h | h | h | h
    · exact n1 h
    · exact n2 h
    · exact n3 h
    · exact n4 h

/-! ### References -/

/-- The words begin with these texts, one after the other. -/
inductive Eats : List Text → List Token → List Token → Prop
  | nil {ts} : Eats [] ts ts
  | cons {x xs y l rest} : (x ≠ ['.'] → Stops isIdChar y) → Eats xs (left y l) rest → Eats (x :: xs) (.word (x ++ y) :: l) rest

theorem eats_append {xs ys : List Text} {ts mid rest : List Token} (h : Eats xs ts mid) (h' : Eats ys mid rest) : Eats (xs ++ ys) ts rest := by
  induction h with
  | nil => exact h'
  | cons h1 _ ih => exact .cons h1 (ih h')

theorem eats_cut {x : Text} {ts rest : List Token} (h : Cut x isIdChar ts rest) : Eats [x] ts rest := by
  obtain ⟨y, l, rfl, rfl, h1⟩ := h
  exact .cons (fun _ => h1) .nil

theorem eats_dot {ts rest : List Token} (h : Cut ['.'] (fun _ => false) ts rest) : Eats [['.']] ts rest := by
  obtain ⟨y, l, rfl, rfl, _⟩ := h
  exact .cons (fun h => absurd rfl h) .nil

/-- The words that were read. -/
theorem eats_groups {xs : List Text} {ts m : List Token} {c : Char} (h : Eats xs ts (.mark c :: m)) (hx : ∀ x ∈ xs, x = ['.'] ∨ Ident x) : ∃ groups : List (List Text),
    groups.flatten = xs ∧ (∀ g ∈ groups, g ≠ [] ∧ g.IsChain fun a b => a = ['.'] ∨ b = ['.']) ∧ ts = groups.map (fun g => .word g.flatten) ++ .mark c :: m := by
  generalize hr : Token.mark c :: m = rest at h
  induction h with
  | nil => exact ⟨[], rfl, by simp, by simp [hr]⟩
  | @cons x xs y l rest h1 h2 ih =>
    subst hr
    obtain ⟨groups, rfl, h3, h4⟩ := ih (fun x h => hx x (List.mem_cons_of_mem _ h)) rfl
    cases y with
    | nil =>
      rw [left_nil] at h4
      subst h4
      refine ⟨[x] :: groups, by simp, ?_, by simp⟩
      intro g hg
      rcases List.mem_cons.mp hg with rfl | hg
      · exact ⟨by simp, by simp⟩
      · exact h3 g hg
    | cons d y =>
      rw [left_cons] at h4
      cases groups with
      | nil => cases h4
      | cons g gs =>
        simp only [List.map_cons, List.cons_append, List.cons.injEq, Token.word.injEq] at h4
        obtain ⟨h4, rfl⟩ := h4
        refine ⟨(x :: g) :: gs, by simp, ?_, by simp [h4]⟩
        intro g' hg'
        rcases List.mem_cons.mp hg' with rfl | hg'
        · refine ⟨by simp, ?_⟩
          obtain ⟨h5, h6⟩ := h3 g (List.mem_cons_self ..)
          cases g with
          | nil => exact absurd rfl h5
          | cons z g =>
            refine .cons_cons ?_ h6
            by_contra hn
            push Not at hn
            rcases hx z (by simp) with hz | hz
            · exact hn.2 hz
            · obtain ⟨e, he, hi⟩ := hz.1
              cases z with
              | nil => cases he
              | cons e' z =>
                cases he
                simp only [List.flatten_cons, List.cons_append, List.cons.injEq] at h4
                obtain ⟨rfl, _⟩ := h4
                have := h1 hn.1 d rfl
                rw [idChar_iff.mpr (.inl hi)] at this
                cases this
        · exact h3 g' (List.mem_cons_of_mem _ hg')

theorem groups_eats : ∀ {groups : List (List Text)} {l : List Token}, (∀ g ∈ groups, g ≠ [] ∧ g.IsChain fun a b => a = ['.'] ∨ b = ['.']) →
    (∀ x ∈ groups.flatten, x ≠ []) → Eats groups.flatten (groups.map (fun g => Token.word g.flatten) ++ l) l
  | [], l, _, _ => .nil
  | g :: gs, l, h, hx => by
    have ih := groups_eats (groups := gs) (l := l) (fun g hg => h g (List.mem_cons_of_mem _ hg)) fun x hx' => hx x (by
      rw [List.flatten_cons]; exact List.mem_append_right _ hx')
    obtain ⟨h1, h2⟩ := h g (List.mem_cons_self ..)
    have hx' : ∀ x ∈ g, x ≠ [] := fun x hx' => hx x (by rw [List.flatten_cons]; exact List.mem_append_left _ hx')
    rw [List.flatten_cons, List.map_cons, List.cons_append]
    refine eats_append (mid := gs.map (fun g => Token.word g.flatten) ++ l) ?_ ih
    clear ih hx h
    induction g with
    | nil => exact absurd rfl h1
    | cons x g ih =>
      rw [List.flatten_cons]
      cases g with
      | nil => exact .cons (fun _ => stops_nil _) (by rw [List.flatten_nil, left_nil]; exact .nil)
      | cons z g =>
        rw [List.isChain_cons_cons] at h2
        have := ih (by simp) h2.2 fun x h => hx' x (List.mem_cons_of_mem _ h)
        refine .cons (fun hn => ?_) ?_
        · have := h2.1.resolve_left hn
          subst this
          intro c hc
          cases hc
          decide
        · have hz := hx' z (by simp)
          obtain ⟨c, z, rfl⟩ := List.exists_cons_of_ne_nil hz
          simp only [List.flatten_cons, List.cons_append] at this ⊢
          rw [left_cons]
          exact this

/-- The texts of a part of a reference. -/
def partTexts (p : Bool × Text) : List Text := if p.1 then [['.'], p.2] else [p.2]

def partText (p : Bool × Text) : Text := if p.1 then '.' :: p.2 else p.2

theorem only_referencePart : Only referencePart fun a ts rest => ∃ p : Bool × Text, a = partText p ∧ Ident p.2 ∧ Eats (partTexts p) ts rest := by
  have hnf : Only (fun t => match lit [','] t with
    | .ok .. => Res.fail
    | _ => .ok () t : Parser Unit) fun _ ts rest => rest = ts := by
    intro s ts a r hs e
    simp only at e
    split at e
    · cases e
    · cases e; exact ⟨ts, hs, rfl⟩
  refine (only_bind (only_opt only_dot) fun d => only_bind only_identifier fun n => only_bind hnf fun _ => only_pure _).mono ?_
  rintro _ ts rest ⟨d, _, h1, n, _, ⟨hn, h2⟩, _, _, rfl, rfl, rfl⟩
  rcases h1 with ⟨rfl, rfl⟩ | ⟨_, rfl, h1⟩
  · exact ⟨(false, n), rfl, hn, eats_cut h2⟩
  · exact ⟨(true, n), rfl, hn, eats_append (eats_dot h1) (eats_cut h2)⟩

theorem parts_eats {ps : List Text} {ts rest : List Token} (h : Star (fun a ts rest => ∃ p : Bool × Text, a = partText p ∧ Ident p.2 ∧ Eats (partTexts p) ts rest) ps ts rest) :
    ∃ parts : List (Bool × Text), ps = parts.map partText ∧ (∀ p ∈ parts, Ident p.2) ∧ Eats (parts.flatMap partTexts) ts rest := by
  induction h with
  | nil => exact ⟨[], rfl, by simp, .nil⟩
  | cons h _ ih =>
    obtain ⟨p, rfl, k1, k2⟩ := h
    obtain ⟨ps, rfl, k3, k4⟩ := ih
    refine ⟨p :: ps, rfl, ?_, by rw [List.flatMap_cons]; exact eats_append k2 k4⟩
    intro p' hp'
    rcases List.mem_cons.mp hp' with rfl | hp'
    · exact k1
    · exact k3 p' hp'

theorem only_explicitReferenceDeco : Only explicitReferenceDeco (Whole ResourceDecoration) := by
  refine (only_bind (enum_inner "@explicit_reference") fun _ => only_bind (only_must (only_mark mark_open)) fun _ =>
    only_bind (only_must (only_bind (only_many1 only_referencePart) fun _ => only_pure _)) fun s => only_bind (only_must only_dot) fun _ =>
    only_bind (only_must only_identifier) fun f => only_bind (only_must (only_mark mark_comma)) fun _ => only_bind (only_must only_path) fun q =>
    only_bind (only_must (only_mark mark_close)) fun _ => only_pure _).mono ?_
  rintro _ ts rest ⟨_, _, h1, _, mid, rfl, s, _, ⟨ps, _, ⟨hne, h2⟩, rfl, rfl⟩, _, _, h3, f, _, ⟨hf, h4⟩, _, _, rfl, q, _, h5, _, _, rfl, rfl, rfl⟩
  have h1 := cut_mark h1
  subst h1
  obtain ⟨hq, rfl⟩ := path_mark h5
  obtain ⟨parts, rfl, k1, k2⟩ := parts_eats h2
  have he := eats_append k2 (eats_append (eats_dot h3) (eats_cut h4))
  obtain ⟨groups, k3, k4, rfl⟩ := eats_groups he (by
    intro x hx
    rcases List.mem_append.mp hx with hx | hx
    · obtain ⟨p, hp, hx⟩ := List.mem_flatMap.mp hx
      unfold partTexts at hx
      split at hx
      · rcases List.mem_cons.mp hx with rfl | hx
        · exact .inl rfl
        · rw [List.mem_singleton.mp hx]
          exact .inr (k1 p hp)
      · rw [List.mem_singleton.mp hx]
        exact .inr (k1 p hp)
    · rcases List.mem_cons.mp hx with rfl | hx
      · exact .inl rfl
      · rw [List.mem_singleton.mp hx]
        exact .inr hf)
  have hp := FieldPath.mk (parts := parts) (f := f) (groups := groups) (by rintro rfl; exact hne rfl) k1 hf k3 k4
  have e : (parts.map partText).flatten = parts.flatMap fun p => if p.1 then '.' :: p.2 else p.2 := rfl
  rw [e]
  exact ⟨_, .explicitReference hp hq, by simp [key, inParens]⟩

/-! ### Archives -/

/-- `@optional`, perhaps at the beginning of a word. -/
def Opted (a : PResDeco) (ts rest : List Token) : Prop :=
  a = .optional ∧ ∃ y l, ts = .word ("@optional".toList ++ y) :: l ∧ rest = left y l ∧ Stops isKeywordChar y ∧ y.head? ≠ some '@'

theorem only_optionalDeco : Only optionalDeco Opted := by
  intro s ts a r hs e
  have hi : Inner "@optional".toList := inner_of (by decide)
  by_cases h : ∃ y l, ts = .word ("@optional".toList ++ y) :: l ∧ Stops isKeywordChar y
  · obtain ⟨y, l, rfl, hy⟩ := h
    obtain ⟨u, hu, hw, ht⟩ := word_text hs
    have hk := keyword_text hi hy hu hw
    unfold optionalDeco at e
    rw [bind_eq] at e
    unfold seq at e
    rw [hk] at e
    simp only at e
    rw [bind_eq] at e
    unfold seq notAt at e
    split at e
    · rename_i heq
      split at heq
      · cases heq
      · rename_i hne
        cases heq
        cases e
        refine ⟨left y l, tokens_left hw ht, rfl, y, l, rfl, rfl, hy, fun hy' => ?_⟩
        cases y with
        | nil => cases hy'
        | cons c y =>
          cases hy'
          exact hne _ rfl
    · cases e
    · cases e
  · have := fails_keyword hi (by decide) (ts := ts) (fun y l e hy => h ⟨y, l, e, hy⟩)
    have := fails_bind (f := fun _ => do notAt; pure PResDeco.optional) this s hs
    rw [show optionalDeco = keyword "@optional".toList >>= fun _ => do notAt; pure PResDeco.optional from rfl, this] at e
    cases e

/-- Decorations and the name after them. -/
theorem decos_name {ds : List PResDeco} {n : Text} {ts mid m : List Token} {c : Char} (h : Star (fun a ts rest => Whole ResourceDecoration a ts rest ∨ Opted a ts rest) ds ts mid)
    (h' : Ends Name n mid (.mark c :: m)) : ∃ dl, Each ResourceDecoration ds dl ∧ Ident n ∧ ts = dl ++ .word n :: .mark c :: m := by
  obtain ⟨hn, rfl⟩ := name_mark h'
  generalize hr : Token.word n :: .mark c :: m = rest at h
  suffices ∃ dl, Each ResourceDecoration ds dl ∧ ts = dl ++ rest by
    obtain ⟨dl, h1, rfl⟩ := this
    exact ⟨dl, h1, hn, rfl⟩
  clear h'
  induction h with
  | nil => exact ⟨[], .nil, rfl⟩
  | @cons a as ts mid rest h1 h2 ih =>
    obtain ⟨dl, k1, hmid⟩ := ih hr
    rcases h1 with ⟨l, k2, rfl⟩ | ⟨rfl, y, l, rfl, k2, k3, k4⟩
    · exact ⟨l ++ dl, .cons k2 k1, by simp [hmid]⟩
    · cases y with
      | nil =>
        rw [left_nil] at k2
        exact ⟨key "@optional" :: dl, .cons (l := [key "@optional"]) .optional k1, by simp [key, ← k2, hmid]⟩
      | cons d y =>
        rw [left_cons] at k2
        exfalso
        cases h2 with
        | nil =>
          rw [← hr] at k2
          simp only [List.cons.injEq, Token.word.injEq] at k2
          obtain ⟨rfl, _⟩ := k2
          obtain ⟨e, he, hi⟩ := hn.1
          cases he
          have h4 := k3 d rfl
          have h5 := idStart_iff.mpr hi
          unfold isIdStart at h5
          unfold isKeywordChar at h4
          simp only [Bool.or_eq_true, decide_eq_true_eq] at h5
          simp only [Bool.or_eq_false_iff, decide_eq_false_iff_not] at h4
          obtain ⟨⟨⟨h4, _⟩, h6⟩, _⟩ := h4
          rw [h4] at h5
          simp [h6] at h5
        | cons h3 _ =>
          have : d = '@' := by
            rcases h3 with ⟨l', k5, k6⟩ | ⟨_, y', l', k5, _⟩
            · cases k5 <;> (rw [k6] at k2; simp [key, inParens] at k2; exact k2.1.1.symm)
            · rw [k5] at k2
              simp at k2
              exact k2.1.1.symm
          subst this
          exact k4 rfl

theorem only_resourceDecl : Only resourceDecl (Whole Resource) := by
  refine (only_bind only_doc fun _ => only_bind (only_many (only_orElse only_explicitReferenceDeco only_optionalDeco)) fun ds => only_bind only_name fun n =>
    only_bind (only_mark mark_colon) fun _ => only_bind (only_must only_resourceType) fun ty => only_bind (only_must (only_mark mark_semi)) fun _ => only_pure _).mono ?_
  rintro _ ts rest ⟨_, _, ⟨doc, hd, rfl⟩, ds, _, h1, n, _, h2, _, _, rfl, ty, _, h3, _, _, rfl, rfl, rfl⟩
  obtain ⟨dl, k1, hn, rfl⟩ := decos_name h1 h2
  obtain ⟨tl, k2, rfl⟩ := h3 _ _ rfl
  exact ⟨_, .mk hd k1 hn k2, by simp⟩

theorem only_boundDeco : Only boundDeco (Whole Bound) := by
  refine (only_bind (enum_inner "@bound_implicitly") fun _ => only_bind (only_must (only_mark mark_open)) fun _ => only_bind (only_must only_name) fun n =>
    only_bind (only_must (only_mark mark_colon)) fun _ => only_bind (only_must (only_commas only_path)) fun rs => only_bind (only_must (only_mark mark_close)) fun _ => only_pure _).mono ?_
  rintro _ ts rest ⟨_, _, h1, _, _, rfl, n, _, h2, _, _, rfl, qs, _, h3, _, _, rfl, rfl, rfl⟩
  have h1 := cut_mark h1
  subst h1
  obtain ⟨ql, hq, rfl⟩ := ends_mark h3
  obtain ⟨hn, rfl⟩ := name_mark h2
  exact ⟨_, .mk hn hq, by simp [key, inParens]⟩

theorem only_archiveDecl : Only archiveDecl (WithDoc Archive) := by
  refine (only_bind only_doc fun _ => only_bind (only_many only_boundDeco) fun bs => only_bind (enum_inner "archive") fun _ => only_bind (only_must only_name) fun n =>
    only_bind (only_must (only_mark mark_brace)) fun _ => only_bind (only_must (only_many only_resourceDecl)) fun rs => only_bind (only_must (only_mark mark_endbrace)) fun _ => only_pure _).mono ?_
  rintro _ ts rest ⟨_, _, ⟨doc, hd, rfl⟩, bs, _, h0, _, _, h1, n, _, h2, _, _, rfl, rs, _, h3, _, _, rfl, rfl, rfl⟩
  obtain ⟨rl, hrs, rfl⟩ := star_each h3
  obtain ⟨rfl, hn⟩ := key_name_mark h1 h2
  obtain ⟨bl, hbs, rfl⟩ := star_each h0
  exact ⟨doc, _, hd, .mk hbs hn hrs, by simp [key]⟩

/-! ### Namespaces -/

/-- An entry. -/
def OneEntry : PEntry → List Token → List Token → Prop
  | .enumeration e => WithDoc Enumeration e
  | .struct s => WithDoc Struct s
  | .archive a => WithDoc Archive a
  | .constant c => WithDoc Constant c
  | .comment => fun ts rest => ts = .comment :: rest

theorem only_entry : Only entry OneEntry := by
  refine (only_orElse (only_bind only_enumDecl fun _ => only_pure _) (only_orElse (only_bind only_structDecl fun _ => only_pure _) (only_orElse (only_bind only_archiveDecl fun _ => only_pure _)
    (only_orElse (only_bind only_constantDecl fun _ => only_pure _) (only_bind only_comment fun _ => only_pure _))))).mono ?_
  rintro _ ts rest (⟨_, _, h, rfl, rfl⟩ | ⟨_, _, h, rfl, rfl⟩ | ⟨_, _, h, rfl, rfl⟩ | ⟨_, _, h, rfl, rfl⟩ | ⟨_, _, h, rfl, rfl⟩) <;> exact h

theorem entries_doc {name : Text} {b : PBlock} {doc ls : List Token} (hd : Doc doc) (h : Entries name b ls) : Entries name b (doc ++ ls) := by
  rcases hd with rfl | rfl
  · exact h
  · exact .comment h

theorem star_entries {name : Text} {es : List PEntry} {ts rest : List Token} (h : Star OneEntry es ts rest) : ∃ l, Entries name (blockOf name es) l ∧ ts = l ++ rest := by
  induction h with
  | nil => exact ⟨[], .nil, rfl⟩
  | @cons a as ts mid rest h _ ih =>
    obtain ⟨ls, h2, rfl⟩ := ih
    cases a with
    | enumeration e =>
      obtain ⟨doc, l, hd, hl, rfl⟩ := h
      exact ⟨_, entries_doc hd (.enumeration hl h2), by simp⟩
    | struct e =>
      obtain ⟨doc, l, hd, hl, rfl⟩ := h
      exact ⟨_, entries_doc hd (.struct hl h2), by simp⟩
    | archive e =>
      obtain ⟨doc, l, hd, hl, rfl⟩ := h
      exact ⟨_, entries_doc hd (.archive hl h2), by simp⟩
    | constant e =>
      obtain ⟨doc, l, hd, hl, rfl⟩ := h
      exact ⟨_, entries_doc hd (.constant hl h2), by simp⟩
    | comment =>
      cases h
      exact ⟨_, .comment h2, rfl⟩

theorem only_namespaceDecl : Only namespaceDecl (Whole Namespace) := by
  refine (only_bind (enum_inner "namespace") fun _ => only_bind only_path fun n => only_bind (only_mark mark_brace) fun _ => only_bind (only_many only_entry) fun es =>
    only_bind (only_mark mark_endbrace) fun _ => only_bind only_doc fun _ => only_pure _).mono ?_
  rintro _ ts rest ⟨_, _, h1, n, _, h2, _, _, rfl, es, _, h3, _, _, rfl, _, _, ⟨doc, hd, rfl⟩, rfl, rfl⟩
  obtain ⟨l, hl, rfl⟩ := star_entries (name := n) h3
  obtain ⟨nl, hn, rfl⟩ := keyPath_mark h1 h2
  exact ⟨_, .mk hn hl hd, by simp⟩

theorem star_comments {as : List Unit} {ts rest : List Token} (h : Star (fun _ ts rest => ts = .comment :: rest) as ts rest) : ∃ k, ts = List.replicate k .comment ++ rest := by
  induction h with
  | nil => exact ⟨0, rfl⟩
  | cons h _ ih =>
    obtain ⟨k, rfl⟩ := ih
    subst h
    exact ⟨k + 1, rfl⟩

theorem only_grammar : Only flatdataGrammar (Whole Schema) := by
  refine (only_bind (only_many only_comment) fun _ => only_many1 only_namespaceDecl).mono ?_
  rintro bs ts rest ⟨_, _, h1, hne, h2⟩
  obtain ⟨k, rfl⟩ := star_comments h1
  obtain ⟨l, h3, rfl⟩ := star_each h2
  exact ⟨_, .mk (k := k) h3 hne, by simp⟩

theorem skipWs_tokens {s : Text} {ts : List Token} (h : Tokens s ts) : skipWs s = [] ↔ ts = [] := by
  have b := tokens_begin h
  generalize skipWs s = u at *
  cases b with
  | nil => simp
  | mark => simp
  | word hw => simp [hw.nonempty]
  | comment => simp

end Props
