import Verif.Spec.Tokens
import Verif.Lemmas.GenGrammar

/-!
# The grammar sees tokens only
-/

namespace Gen
open Spec Parser

/-! ## Progress of repetitions -/

/-- A match uses up some of the text. -/
def Consumes {α : Type} (p : Parser α) : Prop := ∀ t a r, p t = .ok a r → r.length < t.length
/-- A match leaves no more than there was. -/
def NotLonger {α : Type} (p : Parser α) : Prop := ∀ t a r, p t = .ok a r → r.length ≤ t.length

theorem Consumes.notLonger {α : Type} {p : Parser α} (h : Consumes p) : NotLonger p := fun t a r e => Nat.le_of_lt (h t a r e)

theorem bind_eq {α β : Type} (p : Parser α) (f : α → Parser β) : (p >>= f) = seq p f := rfl
theorem map_eq {α β : Type} (p : Parser α) (f : α → β) : (f <$> p) = seq p (fun a => pure (f a)) := rfl

theorem notLonger_pure {α : Type} (a : α) : NotLonger (pure a : Parser α) := by
  intro t b r h; cases h; exact Nat.le_refl _

theorem notLonger_seq {α β : Type} {p : Parser α} {f : α → Parser β} (h : NotLonger p) (hf : ∀ a, NotLonger (f a)) : NotLonger (p >>= f) := by
  intro t b r e
  obtain ⟨a, u, e1, e2⟩ := seq_ok e
  exact Nat.le_trans (hf a _ _ _ e2) (h _ _ _ e1)

theorem consumes_seq {α β : Type} {p : Parser α} {f : α → Parser β} (h : Consumes p) (hf : ∀ a, NotLonger (f a)) : Consumes (p >>= f) := by
  intro t b r e
  obtain ⟨a, u, e1, e2⟩ := seq_ok e
  exact Nat.lt_of_le_of_lt (hf a _ _ _ e2) (h _ _ _ e1)

theorem consumes_seq' {α β : Type} {p : Parser α} {f : α → Parser β} (h : NotLonger p) (hf : ∀ a, Consumes (f a)) : Consumes (p >>= f) := by
  intro t b r e
  obtain ⟨a, u, e1, e2⟩ := seq_ok e
  exact Nat.lt_of_lt_of_le (hf a _ _ _ e2) (h _ _ _ e1)

theorem consumes_orElse {α : Type} {p q : Parser α} (h : Consumes p) (h' : Consumes q) : Consumes (orElse p q) := by
  intro t b r e
  unfold orElse at e
  split at e
  · exact h' _ _ _ e
  · exact h _ _ _ e

theorem notLonger_opt {α : Type} {p : Parser α} (h : NotLonger p) : NotLonger (opt p) := by
  intro t b r e
  unfold opt at e
  split at e
  · cases e; exact h _ _ _ ‹_›
  · cases e; exact Nat.le_refl _
  · cases e

theorem notLonger_must {α : Type} {p : Parser α} (h : NotLonger p) : NotLonger (must p) := by
  intro t b r e
  unfold must at e
  split at e
  · cases e
  · exact h _ _ _ e

theorem consumes_must {α : Type} {p : Parser α} (h : Consumes p) : Consumes (must p) := by
  intro t b r e
  unfold must at e
  split at e
  · cases e
  · exact h _ _ _ e

theorem notLonger_manyN {α : Type} {p : Parser α} (h : NotLonger p) : ∀ n, NotLonger (manyN p n)
  | 0 => by intro t b r e; cases e; exact Nat.le_refl _
  | n + 1 => by
    intro t b r e
    unfold manyN at e
    split at e
    · split at e
      · cases e; exact Nat.le_trans (notLonger_manyN h n _ _ _ ‹_›) (h _ _ _ ‹_›)
      · cases e
      · cases e
    · cases e; exact Nat.le_refl _
    · cases e

theorem notLonger_many {α : Type} {p : Parser α} (h : NotLonger p) : NotLonger (many p) := fun t => notLonger_manyN h t.length t

theorem consumes_many1 {α : Type} {p : Parser α} (h : Consumes p) : Consumes (many1 p) :=
  consumes_seq h fun _ => notLonger_seq (notLonger_many h.notLonger) fun _ => notLonger_pure _

theorem skipWs_length (t : Text) : (skipWs t).length ≤ t.length := by
  induction t with
  | nil => exact Nat.le_refl _
  | cons c t ih =>
    unfold skipWs at *
    rw [List.dropWhile_cons]
    split
    · simp only [List.length_cons]; omega
    · exact Nat.le_refl _

theorem stripPrefix_some : ∀ {s t r : Text}, stripPrefix s t = some r → t = s ++ r
  | [], t, r, h => by cases h; rfl
  | c :: s, [], r, h => by cases h
  | c :: s, d :: t, r, h => by
    unfold stripPrefix at h
    split at h
    · rw [stripPrefix_some h, ‹c = d›]; rfl
    · cases h

theorem strip_len {s t r : Text} (h : stripPrefix s t = some r) : t.length = s.length + r.length := by
  rw [stripPrefix_some h, List.length_append]

theorem consumes_lit {s : Text} (hs : s ≠ []) : Consumes (lit s) := by
  intro t a r e
  unfold lit at e
  split at e
  · cases e
    have := skipWs_length t
    have hl := strip_len ‹stripPrefix _ _ = some _›
    have := List.length_pos_iff.mpr hs
    omega
  · cases e

theorem consumes_keyword {s : Text} (hs : s ≠ []) : Consumes (keyword s) := by
  intro t a r e
  have h0 := skipWs_length t
  have h1 := List.length_pos_iff.mpr hs
  unfold keyword at e
  split at e
  · cases e
    have hl := strip_len ‹stripPrefix _ _ = some _›
    omega
  · split at e
    · cases e
    · cases e
      have hl := strip_len ‹stripPrefix _ _ = some _›
      omega
  · cases e

theorem consumes_wordHere (init body : Char → Bool) : Consumes (wordHere init body) := by
  intro t a r e
  unfold wordHere at e
  split at e
  · cases e
  · split at e
    · cases e
      exact Nat.lt_succ_of_le (List.dropWhile_sublist body).length_le
    · cases e

theorem consumes_word (init body : Char → Bool) : Consumes (word init body) := fun t a r e =>
  Nat.lt_of_lt_of_le (consumes_wordHere init body _ a r e) (skipWs_length t)

theorem notLonger_lit (s : Text) : NotLonger (lit s) := by
  intro t a r e
  unfold lit at e
  split at e
  · cases e
    have := skipWs_length t
    have hl := strip_len ‹stripPrefix _ _ = some _›
    omega
  · cases e

theorem notLonger_keyword (s : Text) : NotLonger (keyword s) := by
  by_cases hs : s = []
  · subst hs
    intro t a r e
    have h0 := skipWs_length t
    unfold keyword at e
    simp only [stripPrefix] at e
    split at e
    · cases e; simp
    · split at e
      · cases e
      · cases e
        rename_i h _
        simp only [Option.some.injEq] at h
        rw [h] at h0
        exact h0
    · cases e
  · exact (consumes_keyword hs).notLonger

theorem consumes_identifier : Consumes identifier := consumes_word _ _
theorem consumes_qualified : Consumes qualifiedIdentifier := consumes_word _ _
theorem consumes_bitWidth : Consumes bitWidth := consumes_seq (consumes_word _ _) fun _ => notLonger_pure _

theorem consumes_basicTypeOf : ∀ bs, (∀ b ∈ bs, b.text ≠ []) → Consumes (basicTypeOf bs)
  | [], _ => by intro t a r e; cases e
  | b :: bs, h => consumes_orElse (consumes_seq (consumes_keyword (h b (List.mem_cons_self ..))) fun _ => notLonger_pure _)
      (consumes_basicTypeOf bs fun b hb => h b (List.mem_cons_of_mem _ hb))

theorem consumes_basicType : Consumes basicType := consumes_basicTypeOf _ (by decide)

theorem notLonger_hex : NotLonger hexLiteral := by
  intro t a r e
  unfold hexLiteral at e
  split at e
  · cases e
  · split at e
    · cases e
      have hl := strip_len ‹stripPrefix _ _ = some _›
      have := consumes_wordHere _ _ _ _ _ ‹wordHere _ _ _ = _›
      omega
    · cases e
    · cases e

theorem notLonger_dec : NotLonger decLiteral := by
  intro t a r e
  unfold decLiteral at e
  split at e
  · split at e
    · cases e
    · cases e
      exact (consumes_wordHere _ _ _ _ _ ‹wordHere _ _ _ = _›).le
  · cases e
  · cases e

theorem notLonger_orElse {α : Type} {p q : Parser α} (h : NotLonger p) (h' : NotLonger q) : NotLonger (orElse p q) := by
  intro t b r e
  unfold orElse at e
  split at e
  · exact h' _ _ _ e
  · exact h _ _ _ e

theorem notLonger_signed : NotLonger signedLiteral := by
  intro t a r e
  have h0 := skipWs_length t
  unfold signedLiteral at e
  split at e
  · have := notLonger_seq (notLonger_orElse notLonger_hex notLonger_dec) (fun n => notLonger_pure (-((n : Nat) : Int))) _ _ _ e
    have hl := strip_len ‹stripPrefix _ _ = some _›
    omega
  · have := notLonger_seq (notLonger_orElse notLonger_hex notLonger_dec) (fun n => notLonger_pure ((n : Nat) : Int)) _ _ _ e
    omega

theorem blockEnd_length : ∀ {t : Text} {a : Unit} {r : Text}, blockCommentEnd t = .ok a r → r.length ≤ t.length
  | [], a, r, e => by cases e
  | c :: t, a, r, e => by
    unfold blockCommentEnd at e
    split at e
    · cases e
      have := congrArg List.length (stripPrefix_some ‹stripPrefix _ _ = some _›)
      rw [List.length_append] at this
      omega
    · have := blockEnd_length e
      simp only [List.length_cons]; omega

theorem lineEnd_length (t : Text) : (lineCommentEnd t).length ≤ t.length := by
  induction t using lineCommentEnd.induct with
  | case1 => exact Nat.le_refl _
  | case2 t ih => rw [lineCommentEnd]; simp only [List.length_cons]; omega
  | case3 t h => rw [lineCommentEnd]; simp; exact h
  | case4 c t _ _ ih => rw [lineCommentEnd]; simp only [*, if_false, List.length_cons]; omega; assumption

theorem consumes_comment : Consumes comment := by
  intro t a r e
  have h0 := skipWs_length t
  unfold comment at e
  split at e
  · have := blockEnd_length e
    have hl := strip_len ‹stripPrefix _ _ = some _›
    simp only [List.length_cons] at hl
    omega
  · split at e
    · cases e
      rename_i u hu
      have := lineEnd_length u
      have hl := strip_len hu
      simp only [List.length_cons] at hl
      omega
    · cases e

theorem notLonger_optComment : NotLonger (opt comment) := notLonger_opt consumes_comment.notLonger

theorem consumes_delimited {α : Type} {p : Parser α} (h : Consumes p) : Consumes (delimitedList p) :=
  consumes_seq h fun _ => notLonger_seq (notLonger_many (consumes_seq (consumes_lit (by simp)) fun _ => h.notLonger).notLonger) fun _ => notLonger_pure _

theorem consumes_enumValue : Consumes enumValue :=
  consumes_seq' notLonger_optComment fun _ => consumes_seq consumes_identifier fun _ =>
    notLonger_seq (notLonger_opt (notLonger_seq (notLonger_lit _) fun _ => notLonger_signed)) fun _ => notLonger_pure _

theorem consumes_enumDecl : Consumes enumDecl :=
  consumes_seq' notLonger_optComment fun _ => consumes_seq (consumes_keyword (by decide)) fun _ =>
    notLonger_seq consumes_identifier.notLonger fun _ => notLonger_seq (notLonger_lit _) fun _ => notLonger_seq consumes_basicType.notLonger fun _ =>
    notLonger_seq (notLonger_opt (notLonger_seq (notLonger_lit _) fun _ => consumes_bitWidth.notLonger)) fun _ => notLonger_seq (notLonger_lit _) fun _ =>
    notLonger_seq (consumes_delimited consumes_enumValue).notLonger fun _ => notLonger_seq (notLonger_opt (notLonger_lit _)) fun _ =>
    notLonger_seq (notLonger_lit _) fun _ => notLonger_pure _

theorem consumes_deco {α β : Type} {k : Text} (hk : k ≠ []) {p : Parser α} (h : NotLonger p) (f : α → β) :
    Consumes (do keyword k; must (lit ['(']); let n ← must p; must (lit [')']); pure (f n) : Parser β) :=
  consumes_seq (consumes_keyword hk) fun _ => notLonger_seq (notLonger_must (notLonger_lit _)) fun _ => notLonger_seq (notLonger_must h) fun _ =>
    notLonger_seq (notLonger_must (notLonger_lit _)) fun _ => notLonger_pure _

theorem consumes_fieldDecoration : Consumes fieldDecoration :=
  consumes_orElse (consumes_seq' notLonger_optComment fun _ => consumes_deco (by decide) consumes_identifier.notLonger _)
    (consumes_orElse (consumes_deco (by decide) consumes_qualified.notLonger _) (consumes_deco (by decide) consumes_qualified.notLonger _))

theorem consumes_fieldDecl : Consumes fieldDecl :=
  consumes_seq' notLonger_optComment fun _ => consumes_seq' (notLonger_many consumes_fieldDecoration.notLonger) fun _ =>
    consumes_seq consumes_identifier fun _ => notLonger_seq (notLonger_must (notLonger_lit _)) fun _ => notLonger_seq (notLonger_must consumes_qualified.notLonger) fun _ =>
    notLonger_seq (notLonger_opt (notLonger_seq (notLonger_lit _) fun _ => consumes_bitWidth.notLonger)) fun _ => notLonger_seq (notLonger_must (notLonger_lit _)) fun _ => notLonger_pure _

theorem consumes_structDecl : Consumes structDecl :=
  consumes_seq' notLonger_optComment fun _ => consumes_seq (consumes_keyword (by decide)) fun _ => notLonger_seq (notLonger_must consumes_identifier.notLonger) fun _ =>
    notLonger_seq (notLonger_must (notLonger_lit _)) fun _ => notLonger_seq (notLonger_must (consumes_many1 consumes_fieldDecl).notLonger) fun _ =>
    notLonger_seq (notLonger_must (notLonger_lit _)) fun _ => notLonger_pure _

theorem consumes_resourceType : Consumes resourceType :=
  consumes_orElse (consumes_seq (consumes_keyword (by decide)) fun _ => notLonger_pure _)
    (consumes_orElse (consumes_seq (consumes_keyword (by decide)) fun _ => notLonger_seq (notLonger_must (notLonger_lit _)) fun _ =>
        notLonger_seq (notLonger_must consumes_qualified.notLonger) fun _ => notLonger_seq (notLonger_must (notLonger_lit _)) fun _ => notLonger_pure _)
      (consumes_orElse (consumes_seq (consumes_keyword (by decide)) fun _ => notLonger_seq (notLonger_must (notLonger_lit _)) fun _ =>
          notLonger_seq (notLonger_must consumes_bitWidth.notLonger) fun _ => notLonger_seq (notLonger_must (notLonger_lit _)) fun _ =>
          notLonger_seq (notLonger_must (consumes_delimited consumes_qualified).notLonger) fun _ => notLonger_seq (notLonger_must (notLonger_lit _)) fun _ => notLonger_pure _)
        (consumes_orElse (consumes_seq' notLonger_optComment fun _ => consumes_seq (consumes_keyword (by decide)) fun _ =>
            notLonger_seq consumes_qualified.notLonger fun _ => notLonger_pure _)
          (consumes_seq consumes_qualified fun _ => notLonger_pure _))))

theorem notLonger_notComma : NotLonger (fun t => match lit [','] t with
    | .ok .. => .fail
    | _ => .ok () t : Parser Unit) := by
  intro t a r e
  simp only at e
  split at e
  · cases e
  · cases e; exact Nat.le_refl _

theorem consumes_referencePart : Consumes referencePart :=
  consumes_seq' (notLonger_opt (notLonger_lit _)) fun _ => consumes_seq consumes_identifier fun _ => notLonger_seq notLonger_notComma fun _ => notLonger_pure _

theorem consumes_referencePrefix : Consumes referencePrefix := consumes_seq (consumes_many1 consumes_referencePart) fun _ => notLonger_pure _

theorem notLonger_notAt : NotLonger notAt := by
  intro t a r e
  unfold notAt at e
  split at e
  · cases e
  · cases e; exact Nat.le_refl _

theorem consumes_resourceDecoration : Consumes resourceDecoration :=
  consumes_orElse (consumes_seq (consumes_keyword (by decide)) fun _ => notLonger_seq (notLonger_must (notLonger_lit _)) fun _ =>
      notLonger_seq (notLonger_must consumes_referencePrefix.notLonger) fun _ => notLonger_seq (notLonger_must (notLonger_lit _)) fun _ =>
      notLonger_seq (notLonger_must consumes_identifier.notLonger) fun _ => notLonger_seq (notLonger_must (notLonger_lit _)) fun _ =>
      notLonger_seq (notLonger_must consumes_qualified.notLonger) fun _ => notLonger_seq (notLonger_must (notLonger_lit _)) fun _ => notLonger_pure _)
    (consumes_seq (consumes_keyword (by decide)) fun _ => notLonger_seq notLonger_notAt fun _ => notLonger_pure _)

theorem consumes_boundDeco : Consumes boundDeco :=
  consumes_seq (consumes_keyword (by decide)) fun _ => notLonger_seq (notLonger_must (notLonger_lit _)) fun _ =>
    notLonger_seq (notLonger_must consumes_identifier.notLonger) fun _ => notLonger_seq (notLonger_must (notLonger_lit _)) fun _ =>
    notLonger_seq (notLonger_must (consumes_delimited consumes_qualified).notLonger) fun _ => notLonger_seq (notLonger_must (notLonger_lit _)) fun _ => notLonger_pure _

theorem consumes_resourceDecl : Consumes resourceDecl :=
  consumes_seq' notLonger_optComment fun _ => consumes_seq' (notLonger_many consumes_resourceDecoration.notLonger) fun _ =>
    consumes_seq consumes_identifier fun _ => notLonger_seq (notLonger_lit _) fun _ => notLonger_seq (notLonger_must consumes_resourceType.notLonger) fun _ =>
    notLonger_seq (notLonger_must (notLonger_lit _)) fun _ => notLonger_pure _

theorem consumes_archiveDecl : Consumes archiveDecl :=
  consumes_seq' notLonger_optComment fun _ => consumes_seq' (notLonger_many consumes_boundDeco.notLonger) fun _ =>
    consumes_seq (consumes_keyword (by decide)) fun _ => notLonger_seq (notLonger_must consumes_identifier.notLonger) fun _ =>
    notLonger_seq (notLonger_must (notLonger_lit _)) fun _ => notLonger_seq (notLonger_must (notLonger_many consumes_resourceDecl.notLonger)) fun _ =>
    notLonger_seq (notLonger_must (notLonger_lit _)) fun _ => notLonger_pure _

theorem consumes_constantDecl : Consumes constantDecl :=
  consumes_seq' notLonger_optComment fun _ => consumes_seq (consumes_keyword (by decide)) fun _ => notLonger_seq consumes_basicType.notLonger fun _ =>
    notLonger_seq consumes_identifier.notLonger fun _ => notLonger_seq (notLonger_lit _) fun _ => notLonger_seq notLonger_signed fun _ => notLonger_seq (notLonger_lit _) fun _ => notLonger_pure _

theorem consumes_entry : Consumes entry :=
  consumes_orElse (consumes_seq consumes_enumDecl fun _ => notLonger_pure _)
    (consumes_orElse (consumes_seq consumes_structDecl fun _ => notLonger_pure _)
      (consumes_orElse (consumes_seq consumes_archiveDecl fun _ => notLonger_pure _)
        (consumes_orElse (consumes_seq consumes_constantDecl fun _ => notLonger_pure _) (consumes_seq consumes_comment fun _ => notLonger_pure _))))

theorem consumes_namespaceDecl : Consumes namespaceDecl :=
  consumes_seq (consumes_keyword (by decide)) fun _ => notLonger_seq consumes_qualified.notLonger fun _ => notLonger_seq (notLonger_lit _) fun _ =>
    notLonger_seq (notLonger_many consumes_entry.notLonger) fun _ => notLonger_seq (notLonger_lit _) fun _ => notLonger_seq notLonger_optComment fun _ => notLonger_pure _

/-- More fuel makes no difference. -/
theorem manyN_enough {α : Type} {p : Parser α} (h : Consumes p) (h0 : p [] = .fail) : ∀ n t, t.length ≤ n → manyN p n t = many p t := by
  have key : ∀ n m t, t.length ≤ n → t.length ≤ m → manyN p n t = manyN p m t := by
    intro n
    induction n with
    | zero =>
      intro m t ht hm
      have : t = [] := List.length_eq_zero_iff.mp (by omega)
      subst this
      cases m with
      | zero => rfl
      | succ m => unfold manyN; rw [h0]
    | succ n ih =>
      intro m t ht hm
      cases m with
      | zero =>
        have : t = [] := List.length_eq_zero_iff.mp (by omega)
        subst this
        unfold manyN; rw [h0]
      | succ m =>
        unfold manyN
        cases e : p t with
        | ok a r =>
          have := h _ _ _ e
          simp only
          rw [ih m r (by omega) (by omega)]
        | fail => rfl
        | fatal => rfl
  intro n t ht
  exact key n _ t ht (Nat.le_refl _)

end Gen
