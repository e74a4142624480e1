import Verif.Model.Gen.Grammar
import Verif.Spec.Lexical

/-! # The parser yields lexical names only -/

namespace Gen
open Parser Spec

theorem seq_ok {α β : Type} {p : Parser α} {f : α → Parser β} {t : Text} {b : β} {r : Text} (h : (p >>= f) t = .ok b r) :
    ∃ a u, p t = .ok a u ∧ f a u = .ok b r := by
  change seq p f t = _ at h
  unfold seq at h
  split at h
  · rename_i a u hp; exact ⟨a, u, hp, h⟩
  · cases h
  · cases h

theorem pure_ok {α : Type} {a b : α} {t r : Text} (h : (pure a : Parser α) t = .ok b r) : b = a ∧ r = t := by
  change Res.ok a t = _ at h
  cases h; exact ⟨rfl, rfl⟩

theorem orElse_ok {α : Type} {p q : Parser α} {t : Text} {a : α} {r : Text} (h : orElse p q t = .ok a r) :
    p t = .ok a r ∨ q t = .ok a r := by
  unfold orElse at h
  split at h
  · exact .inr h
  · exact .inl h

theorem must_ok {α : Type} {p : Parser α} {t : Text} {a : α} {r : Text} (h : must p t = .ok a r) : p t = .ok a r := by
  unfold must at h
  split at h
  · cases h
  · exact h

theorem opt_ok {α : Type} {p : Parser α} {t : Text} {a : Option α} {r : Text} (h : opt p t = .ok a r) :
    (∃ x, a = some x ∧ p t = .ok x r) ∨ (a = none ∧ r = t) := by
  unfold opt at h
  split at h
  · rename_i x u hp; cases h; exact .inl ⟨x, rfl, hp⟩
  · cases h; exact .inr ⟨rfl, rfl⟩
  · cases h

/-- Every value of a parser satisfies `Q`. -/
def Yields {α : Type} (p : Parser α) (Q : α → Prop) : Prop := ∀ t a r, p t = .ok a r → Q a

theorem yields_many {α : Type} {p : Parser α} {Q : α → Prop} (hp : Yields p Q) : Yields (many p) fun l => ∀ a ∈ l, Q a := by
  have key : ∀ n t l r, manyN p n t = .ok l r → ∀ a ∈ l, Q a := by
    intro n
    induction n with
    | zero => intro t l r h; cases h; simp
    | succ n ih =>
      intro t l r h
      simp only [manyN] at h
      split at h
      · rename_i a u hpu
        split at h
        · rename_i as v hv
          cases h
          intro x hx
          rcases List.mem_cons.mp hx with rfl | hx
          · exact hp t x u hpu
          · exact ih _ _ _ hv x hx
        · cases h
        · cases h
      · cases h; simp
      · cases h
  exact fun t l r h => key _ t l r h

theorem yields_many1 {α : Type} {p : Parser α} {Q : α → Prop} (hp : Yields p Q) :
    Yields (many1 p) fun l => l ≠ [] ∧ ∀ a ∈ l, Q a := by
  intro t l r h
  unfold many1 at h
  obtain ⟨a, u, h1, h⟩ := seq_ok h
  obtain ⟨as, v, h2, h⟩ := seq_ok h
  obtain ⟨rfl, _⟩ := pure_ok h
  refine ⟨by simp, ?_⟩
  intro x hx
  rcases List.mem_cons.mp hx with rfl | hx
  · exact hp _ _ _ h1
  · exact yields_many hp _ _ _ h2 x hx

theorem yields_orElse {α : Type} {p q : Parser α} {Q : α → Prop} (hp : Yields p Q) (hq : Yields q Q) : Yields (orElse p q) Q := by
  intro t a r h
  rcases orElse_ok h with h | h
  · exact hp t a r h
  · exact hq t a r h

theorem yields_delimitedList {α : Type} {p : Parser α} {Q : α → Prop} (hp : Yields p Q) :
    Yields (delimitedList p) fun l => l ≠ [] ∧ ∀ a ∈ l, Q a := by
  intro t l r h
  unfold delimitedList at h
  obtain ⟨a, u, h1, h⟩ := seq_ok h
  obtain ⟨as, v, h2, h⟩ := seq_ok h
  obtain ⟨rfl, _⟩ := pure_ok h
  refine ⟨by simp, ?_⟩
  intro x hx
  rcases List.mem_cons.mp hx with rfl | hx
  · exact hp _ _ _ h1
  · refine yields_many (Q := Q) ?_ _ _ _ h2 x hx
    intro t a r h
    obtain ⟨_, _, _, h⟩ := seq_ok h
    exact hp _ _ _ h

theorem isIdStart_iff (c : Char) : isIdStart c = true ↔ IdStart c := by
  simp only [isIdStart, isAlpha, IdStart, Bool.or_eq_true, decide_eq_true_eq]
  constructor
  · rintro ((h | h) | h)
    · exact .inl h
    · exact .inr (.inl h)
    · exact .inr (.inr h)
  · rintro (h | h | h)
    · exact .inl (.inl h)
    · exact .inl (.inr h)
    · exact .inr h

theorem isIdChar_iff (c : Char) : isIdChar c = true ↔ IdChar c := by
  have h : isIdChar c = (isIdStart c || isNum c) := by
    unfold isIdChar isIdStart
    cases isAlpha c <;> cases isNum c <;> simp
  rw [h, Bool.or_eq_true, isIdStart_iff]
  simp [IdChar, isNum]

theorem idStart_idChar {c : Char} (h : IdStart c) : IdChar c := .inl h

theorem mem_takeWhile {α : Type} {p : α → Bool} {l : List α} {x : α} (h : x ∈ l.takeWhile p) : p x = true := by
  induction l with
  | nil => simp at h
  | cons a l ih =>
    rw [List.takeWhile_cons] at h
    split at h
    · rename_i ha
      rcases List.mem_cons.mp h with rfl | h
      · exact ha
      · exact ih h
    · simp at h

theorem word_ok {init body : Char → Bool} {t w r : Text} (h : word init body t = .ok w r) :
    ∃ c u, skipWs t = c :: u ∧ init c = true ∧ w = c :: u.takeWhile body ∧ r = u.dropWhile body := by
  unfold word wordHere at h
  split at h
  · cases h
  · rename_i c u hu
    split at h
    · rename_i hc; cases h; exact ⟨c, u, hu, hc, rfl, rfl⟩
    · cases h

theorem yields_identifier : Yields identifier Ident := by
  intro t w r h
  obtain ⟨c, u, _, hc, rfl, _⟩ := word_ok h
  refine ⟨⟨c, by simp, (isIdStart_iff c).mp hc⟩, ?_⟩
  intro x hx
  rcases List.mem_cons.mp hx with rfl | hx
  · exact idStart_idChar ((isIdStart_iff x).mp hc)
  · exact (isIdChar_iff x).mp (mem_takeWhile hx)

theorem yields_qualified : Yields qualifiedIdentifier Dotted := by
  intro t w r h
  obtain ⟨c, u, _, hc, rfl, _⟩ := word_ok h
  simp only [Bool.or_eq_true, decide_eq_true_eq, isIdStart_iff] at hc
  refine ⟨⟨c, by simp, hc⟩, ?_⟩
  intro x hx
  rcases List.mem_cons.mp hx with rfl | hx
  · exact hc.imp_left idStart_idChar
  · have := mem_takeWhile hx
    simpa only [Bool.or_eq_true, decide_eq_true_eq, isIdChar_iff] using this

theorem ident_dotted {n : Text} (h : Ident n) : Dotted n :=
  ⟨by obtain ⟨c, hc, hs⟩ := h.1; exact ⟨c, hc, .inl hs⟩, fun c hc => .inl (h.2 c hc)⟩

theorem yields_enumDecl : Yields enumDecl fun e => Ident e.name ∧ e.values ≠ [] ∧ ∀ v ∈ e.values, Ident v.1 := by
  intro t e r h
  unfold enumDecl at h
  obtain ⟨_, _, _, h⟩ := seq_ok h
  obtain ⟨_, _, _, h⟩ := seq_ok h
  obtain ⟨n, _, hn, h⟩ := seq_ok h
  obtain ⟨_, _, _, h⟩ := seq_ok h
  obtain ⟨ty, _, _, h⟩ := seq_ok h
  obtain ⟨w, _, _, h⟩ := seq_ok h
  obtain ⟨_, _, _, h⟩ := seq_ok h
  obtain ⟨vs, _, hvs, h⟩ := seq_ok h
  obtain ⟨_, _, _, h⟩ := seq_ok h
  obtain ⟨_, _, _, h⟩ := seq_ok h
  obtain ⟨rfl, _⟩ := pure_ok h
  have hv : Yields enumValue fun v => Ident v.1 := by
    intro t v r h
    unfold enumValue at h
    obtain ⟨_, _, _, h⟩ := seq_ok h
    obtain ⟨n, _, hn, h⟩ := seq_ok h
    obtain ⟨_, _, _, h⟩ := seq_ok h
    obtain ⟨rfl, _⟩ := pure_ok h
    exact yields_identifier _ _ _ hn
  exact ⟨yields_identifier _ _ _ hn, yields_delimitedList hv _ _ _ hvs⟩

theorem yields_fieldDecl : Yields fieldDecl LexicalField := by
  intro t f r h
  unfold fieldDecl at h
  obtain ⟨_, _, _, h⟩ := seq_ok h
  obtain ⟨ds, _, hds, h⟩ := seq_ok h
  obtain ⟨n, _, hn, h⟩ := seq_ok h
  obtain ⟨_, _, _, h⟩ := seq_ok h
  obtain ⟨ty, _, hty, h⟩ := seq_ok h
  obtain ⟨w, _, _, h⟩ := seq_ok h
  obtain ⟨_, _, _, h⟩ := seq_ok h
  obtain ⟨rfl, _⟩ := pure_ok h
  refine ⟨yields_identifier _ _ _ hn, yields_qualified _ _ _ (must_ok hty), ?_⟩
  refine yields_many (Q := fun d : PFieldDeco => match d with
    | .range n => Ident n
    | .constRef n => Dotted n
    | .invalidValue n => Dotted n) ?_ _ _ _ hds
  refine yields_orElse ?_ (yields_orElse ?_ ?_)
  · intro t d r h
    unfold rangeDeco at h
    obtain ⟨_, _, _, h⟩ := seq_ok h
    obtain ⟨_, _, _, h⟩ := seq_ok h
    obtain ⟨_, _, _, h⟩ := seq_ok h
    obtain ⟨n, _, hn, h⟩ := seq_ok h
    obtain ⟨_, _, _, h⟩ := seq_ok h
    obtain ⟨rfl, _⟩ := pure_ok h
    exact yields_identifier _ _ _ (must_ok hn)
  · intro t d r h
    unfold constRef at h
    obtain ⟨_, _, _, h⟩ := seq_ok h
    obtain ⟨_, _, _, h⟩ := seq_ok h
    obtain ⟨n, _, hn, h⟩ := seq_ok h
    obtain ⟨_, _, _, h⟩ := seq_ok h
    obtain ⟨rfl, _⟩ := pure_ok h
    exact yields_qualified _ _ _ (must_ok hn)
  · intro t d r h
    unfold invalidValue at h
    obtain ⟨_, _, _, h⟩ := seq_ok h
    obtain ⟨_, _, _, h⟩ := seq_ok h
    obtain ⟨n, _, hn, h⟩ := seq_ok h
    obtain ⟨_, _, _, h⟩ := seq_ok h
    obtain ⟨rfl, _⟩ := pure_ok h
    exact yields_qualified _ _ _ (must_ok hn)

theorem yields_structDecl : Yields structDecl fun s => Ident s.name ∧ s.fields ≠ [] ∧ ∀ f ∈ s.fields, LexicalField f := by
  intro t s r h
  unfold structDecl at h
  obtain ⟨_, _, _, h⟩ := seq_ok h
  obtain ⟨_, _, _, h⟩ := seq_ok h
  obtain ⟨n, _, hn, h⟩ := seq_ok h
  obtain ⟨_, _, _, h⟩ := seq_ok h
  obtain ⟨fs, _, hfs, h⟩ := seq_ok h
  obtain ⟨_, _, _, h⟩ := seq_ok h
  obtain ⟨rfl, _⟩ := pure_ok h
  exact ⟨yields_identifier _ _ _ (must_ok hn), yields_many1 yields_fieldDecl _ _ _ (must_ok hfs)⟩

theorem yields_resourceType : Yields resourceType LexicalType := by
  refine yields_orElse ?_ (yields_orElse ?_ (yields_orElse ?_ (yields_orElse ?_ ?_)))
  · intro t d r h
    unfold rawDataType at h
    obtain ⟨_, _, _, h⟩ := seq_ok h
    obtain ⟨rfl, _⟩ := pure_ok h
    trivial
  · intro t d r h
    unfold vectorType at h
    obtain ⟨_, _, _, h⟩ := seq_ok h
    obtain ⟨_, _, _, h⟩ := seq_ok h
    obtain ⟨n, _, hn, h⟩ := seq_ok h
    obtain ⟨_, _, _, h⟩ := seq_ok h
    obtain ⟨rfl, _⟩ := pure_ok h
    exact yields_qualified _ _ _ (must_ok hn)
  · intro t d r h
    unfold multivectorType at h
    obtain ⟨_, _, _, h⟩ := seq_ok h
    obtain ⟨_, _, _, h⟩ := seq_ok h
    obtain ⟨w, _, _, h⟩ := seq_ok h
    obtain ⟨_, _, _, h⟩ := seq_ok h
    obtain ⟨ts, _, hts, h⟩ := seq_ok h
    obtain ⟨_, _, _, h⟩ := seq_ok h
    obtain ⟨rfl, _⟩ := pure_ok h
    exact yields_delimitedList yields_qualified _ _ _ (must_ok hts)
  · intro t d r h
    unfold archiveType at h
    obtain ⟨_, _, _, h⟩ := seq_ok h
    obtain ⟨_, _, _, h⟩ := seq_ok h
    obtain ⟨n, _, hn, h⟩ := seq_ok h
    obtain ⟨rfl, _⟩ := pure_ok h
    exact yields_qualified _ _ _ hn
  · intro t d r h
    unfold objectType at h
    obtain ⟨n, _, hn, h⟩ := seq_ok h
    obtain ⟨rfl, _⟩ := pure_ok h
    exact yields_qualified _ _ _ hn

theorem yields_referencePart : Yields referencePart fun n => Dotted n ∧ n ≠ [] := by
  intro t d r h
  unfold referencePart at h
  obtain ⟨o, _, _, h⟩ := seq_ok h
  obtain ⟨n, _, hn, h⟩ := seq_ok h
  obtain ⟨_, _, _, h⟩ := seq_ok h
  obtain ⟨rfl, _⟩ := pure_ok h
  have hn := yields_identifier _ _ _ hn
  cases o with
  | none =>
    refine ⟨ident_dotted hn, ?_⟩
    rintro rfl
    obtain ⟨c, hc, _⟩ := hn.1
    simp at hc
  | some u =>
    refine ⟨⟨⟨'.', by simp, .inr rfl⟩, ?_⟩, by simp⟩
    intro c hc
    rcases List.mem_cons.mp hc with rfl | hc
    · exact .inr rfl
    · exact .inl (hn.2 c hc)

theorem yields_referencePrefix : Yields referencePrefix Dotted := by
  intro t d r h
  unfold referencePrefix at h
  obtain ⟨l, _, hl, h⟩ := seq_ok h
  obtain ⟨rfl, _⟩ := pure_ok h
  have := yields_many1 yields_referencePart _ _ _ hl
  refine ⟨?_, ?_⟩
  · cases l with
    | nil => exact absurd rfl this.1
    | cons a l =>
      obtain ⟨⟨⟨c, hc, hs⟩, _⟩, _⟩ := this.2 a (by simp)
      cases a with
      | nil => simp at hc
      | cons x xs => simp at hc; subst hc; exact ⟨x, by simp, hs⟩
  · intro c hc
    obtain ⟨a, ha, hc⟩ := List.mem_flatten.mp hc
    exact (this.2 a ha).1.2 c hc

theorem yields_resourceDecl : Yields resourceDecl LexicalResource := by
  intro t f r h
  unfold resourceDecl at h
  obtain ⟨_, _, _, h⟩ := seq_ok h
  obtain ⟨ds, _, hds, h⟩ := seq_ok h
  obtain ⟨n, _, hn, h⟩ := seq_ok h
  obtain ⟨_, _, _, h⟩ := seq_ok h
  obtain ⟨ty, _, hty, h⟩ := seq_ok h
  obtain ⟨_, _, _, h⟩ := seq_ok h
  obtain ⟨rfl, _⟩ := pure_ok h
  refine ⟨yields_identifier _ _ _ hn, yields_resourceType _ _ _ (must_ok hty), ?_⟩
  refine yields_many (Q := fun d : PResDeco => match d with
    | .explicitReference s f n => Dotted s ∧ Ident f ∧ Dotted n
    | .optional => True) ?_ _ _ _ hds
  refine yields_orElse ?_ ?_
  · intro t d r h
    unfold explicitReferenceDeco at h
    obtain ⟨_, _, _, h⟩ := seq_ok h
    obtain ⟨_, _, _, h⟩ := seq_ok h
    obtain ⟨s, _, hs, h⟩ := seq_ok h
    obtain ⟨_, _, _, h⟩ := seq_ok h
    obtain ⟨f, _, hf, h⟩ := seq_ok h
    obtain ⟨_, _, _, h⟩ := seq_ok h
    obtain ⟨n, _, hn, h⟩ := seq_ok h
    obtain ⟨_, _, _, h⟩ := seq_ok h
    obtain ⟨rfl, _⟩ := pure_ok h
    exact ⟨yields_referencePrefix _ _ _ (must_ok hs), yields_identifier _ _ _ (must_ok hf), yields_qualified _ _ _ (must_ok hn)⟩
  · intro t d r h
    unfold optionalDeco at h
    obtain ⟨_, _, _, h⟩ := seq_ok h
    obtain ⟨_, _, _, h⟩ := seq_ok h
    obtain ⟨rfl, _⟩ := pure_ok h
    trivial

theorem yields_archiveDecl : Yields archiveDecl fun a => Ident a.name ∧
    (∀ g ∈ a.bounds, Ident g.1 ∧ g.2 ≠ [] ∧ ∀ r ∈ g.2, Dotted r) ∧ ∀ r ∈ a.resources, LexicalResource r := by
  intro t f r h
  unfold archiveDecl at h
  obtain ⟨_, _, _, h⟩ := seq_ok h
  obtain ⟨bs, _, hbs, h⟩ := seq_ok h
  obtain ⟨_, _, _, h⟩ := seq_ok h
  obtain ⟨n, _, hn, h⟩ := seq_ok h
  obtain ⟨_, _, _, h⟩ := seq_ok h
  obtain ⟨rs, _, hrs, h⟩ := seq_ok h
  obtain ⟨_, _, _, h⟩ := seq_ok h
  obtain ⟨rfl, _⟩ := pure_ok h
  refine ⟨yields_identifier _ _ _ (must_ok hn), ?_, yields_many yields_resourceDecl _ _ _ (must_ok hrs)⟩
  refine yields_many ?_ _ _ _ hbs
  intro t g r h
  unfold boundDeco at h
  obtain ⟨_, _, _, h⟩ := seq_ok h
  obtain ⟨_, _, _, h⟩ := seq_ok h
  obtain ⟨n, _, hn, h⟩ := seq_ok h
  obtain ⟨_, _, _, h⟩ := seq_ok h
  obtain ⟨rs, _, hrs, h⟩ := seq_ok h
  obtain ⟨_, _, _, h⟩ := seq_ok h
  obtain ⟨rfl, _⟩ := pure_ok h
  exact ⟨yields_identifier _ _ _ (must_ok hn), yields_delimitedList yields_qualified _ _ _ (must_ok hrs)⟩

theorem yields_constantDecl : Yields constantDecl fun c => Ident c.name := by
  intro t f r h
  unfold constantDecl at h
  obtain ⟨_, _, _, h⟩ := seq_ok h
  obtain ⟨_, _, _, h⟩ := seq_ok h
  obtain ⟨_, _, _, h⟩ := seq_ok h
  obtain ⟨n, _, hn, h⟩ := seq_ok h
  obtain ⟨_, _, _, h⟩ := seq_ok h
  obtain ⟨_, _, _, h⟩ := seq_ok h
  obtain ⟨_, _, _, h⟩ := seq_ok h
  obtain ⟨rfl, _⟩ := pure_ok h
  exact yields_identifier _ _ _ hn

/-- The lexical conditions on one entry. -/
def LexicalEntry : PEntry → Prop
  | .enumeration e => Ident e.name ∧ e.values ≠ [] ∧ ∀ v ∈ e.values, Ident v.1
  | .struct s => Ident s.name ∧ s.fields ≠ [] ∧ ∀ f ∈ s.fields, LexicalField f
  | .archive a => Ident a.name ∧ (∀ g ∈ a.bounds, Ident g.1 ∧ g.2 ≠ [] ∧ ∀ r ∈ g.2, Dotted r) ∧
      ∀ r ∈ a.resources, LexicalResource r
  | .constant c => Ident c.name
  | .comment => True

theorem yields_entry : Yields entry LexicalEntry := by
  refine yields_orElse ?_ (yields_orElse ?_ (yields_orElse ?_ (yields_orElse ?_ ?_)))
  · intro t e r h
    obtain ⟨x, _, hx, h⟩ := seq_ok h
    obtain ⟨rfl, _⟩ := pure_ok h
    exact yields_enumDecl _ _ _ hx
  · intro t e r h
    obtain ⟨x, _, hx, h⟩ := seq_ok h
    obtain ⟨rfl, _⟩ := pure_ok h
    exact yields_structDecl _ _ _ hx
  · intro t e r h
    obtain ⟨x, _, hx, h⟩ := seq_ok h
    obtain ⟨rfl, _⟩ := pure_ok h
    exact yields_archiveDecl _ _ _ hx
  · intro t e r h
    obtain ⟨x, _, hx, h⟩ := seq_ok h
    obtain ⟨rfl, _⟩ := pure_ok h
    exact yields_constantDecl _ _ _ hx
  · intro t e r h
    obtain ⟨x, _, hx, h⟩ := seq_ok h
    obtain ⟨rfl, _⟩ := pure_ok h
    trivial

theorem blockOf_lexical {n : Text} {es : List PEntry} (hn : Dotted n) (he : ∀ e ∈ es, LexicalEntry e) : Lexical (blockOf n es) := by
  refine ⟨hn, ?_, ?_, ?_, ?_⟩
  · intro c hc
    obtain ⟨e, hem, h⟩ := List.mem_filterMap.mp hc
    cases e <;> simp at h
    subst h; exact he _ hem
  · intro c hc
    obtain ⟨e, hem, h⟩ := List.mem_filterMap.mp hc
    cases e <;> simp at h
    subst h; exact he _ hem
  · intro c hc
    obtain ⟨e, hem, h⟩ := List.mem_filterMap.mp hc
    cases e <;> simp at h
    subst h; exact he _ hem
  · intro c hc
    obtain ⟨e, hem, h⟩ := List.mem_filterMap.mp hc
    cases e <;> simp at h
    subst h; exact he _ hem

theorem parseSource_lexical {t : Text} {bs : List PBlock} (h : parseSource t = .ok bs) : ∀ b ∈ bs, Lexical b := by
  unfold parseSource at h
  split at h
  · simp only [pure, Except.pure, Except.ok.injEq] at h; subst h; simp
  · split at h
    · rename_i bs' r hp
      split at h
      · simp only [pure, Except.pure, Except.ok.injEq] at h; subst h
        unfold flatdataGrammar at hp
        obtain ⟨_, _, _, hp⟩ := seq_ok hp
        refine (yields_many1 (Q := Lexical) ?_ _ _ _ hp).2
        intro t b r h
        unfold namespaceDecl at h
        obtain ⟨_, _, _, h⟩ := seq_ok h
        obtain ⟨n, _, hn, h⟩ := seq_ok h
        obtain ⟨_, _, _, h⟩ := seq_ok h
        obtain ⟨es, _, hes, h⟩ := seq_ok h
        obtain ⟨_, _, _, h⟩ := seq_ok h
        obtain ⟨_, _, _, h⟩ := seq_ok h
        obtain ⟨rfl, _⟩ := pure_ok h
        exact blockOf_lexical (yields_qualified _ _ _ hn) (yields_many yields_entry _ _ _ hes)
      · cases h
    · cases h

end Gen
