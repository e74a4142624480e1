import Verif.Model.Gen.Documentation
import Verif.Spec.Documentation
import Verif.Props.Gen.Format
import Verif.Props.Gen.Literals

/-!
# C102: comments of a schema stay comments in the generated sources
-/

namespace Props
open Gen

/-! ## Lines -/

theorem strSplitlines_nobreak : ∀ (t : Text), ∀ l ∈ strSplitlines t, ∀ c ∈ l, isLineBreak c = false := by
  intro t
  induction t using strSplitlines.induct with
  | case1 => simp [strSplitlines]
  | case2 t ih => rw [strSplitlines]; intro l hl; rcases List.mem_cons.1 hl with rfl | hl; simp; exact ih l hl
  | case3 c t hne hb ih =>
    rw [strSplitlines, if_pos hb]
    · intro l hl; rcases List.mem_cons.1 hl with rfl | hl; simp; exact ih l hl
    · exact hne
  | case4 c t hne hb e ih =>
    rw [strSplitlines, if_neg hb, e]
    · intro l hl; simp at hl; subst hl; simpa using hb
    · exact hne
  | case5 c t hne hb w ws e ih =>
    rw [strSplitlines, if_neg hb, e]
    · intro l hl
      rw [e] at ih
      rcases List.mem_cons.1 hl with rfl | hl
      · intro x hx
        rcases List.mem_cons.1 hx with rfl | hx
        · simpa using hb
        · exact ih w (by simp) x hx
      · exact ih l (by simp [hl])
    · exact hne

theorem nobreak_lf {l : Text} (h : ∀ c ∈ l, isLineBreak c = false) : ∀ c ∈ l, c ≠ '\n' ∧ c ≠ '\r' := by
  intro c hc
  have := h c hc
  constructor <;> (rintro rfl; revert this; decide)

theorem removeFirst_mem (old : Text) : ∀ (t : Text), ∀ c ∈ removeFirst old t, c ∈ t := by
  intro t
  induction t with
  | nil => simp [removeFirst]
  | cons x t ih =>
    intro c hc
    rw [removeFirst] at hc
    split at hc
    · rename_i r e
      rw [stripPrefix_some e]
      exact List.mem_append_right _ hc
    · rcases List.mem_cons.1 hc with rfl | hc
      · simp
      · exact List.mem_cons_of_mem _ (ih c hc)

/-- Lines that are passed over one by one are passed over together. -/
theorem joined_skips {R : Text → Text → Prop} (h0 : ∀ s, R s s) (hn : ∀ s r, R s r → R ('\n' :: s) r) {lines : List Text} (s : Text)
    (hs : ∃ u, s = '\n' :: u) (h : ∀ l ∈ lines, ∀ s r, Spec.LineEnd s → R s r → R (l ++ s) r) : R (joinTexts ['\n'] lines ++ s) s := by
  induction lines with
  | nil => exact h0 s
  | cons l ls ih =>
    cases ls with
    | nil => exact h l (by simp) _ _ (Or.inr hs) (h0 s)
    | cons m ms =>
      rw [joinTexts, List.append_assoc, List.append_assoc]
      · refine h l (by simp) _ _ (Or.inr ⟨_, rfl⟩) (hn _ _ (ih fun x hx => h x (by simp [hx])))
      · simp

/-! ## Python -/

theorem pySkips_trans {s u r : Text} (h : Spec.PySkips s u) (h' : Spec.PySkips u r) : Spec.PySkips s r := by
  induction h with
  | none => exact h'
  | blank hc _ ih => exact .blank hc (ih h')
  | comment hb he _ ih => exact .comment hb he (ih h')

theorem pySkips_blanks (n : Nat) {s r : Text} (h : Spec.PySkips s r) : Spec.PySkips (List.replicate n ' ' ++ s) r := by
  induction n with
  | zero => exact h
  | succ n ih => rw [List.replicate_succ]; exact .blank (Or.inl rfl) ih

theorem pythonDocLine_chars {l : Text} (h : ∀ c ∈ l, isLineBreak c = false) : ∀ c ∈ pythonDocLine l, isLineBreak c = false := by
  intro c hc
  rcases List.mem_cons.1 hc with rfl | hc
  · decide
  · rcases List.mem_cons.1 hc with rfl | hc
    · decide
    · exact h c (removeFirst_mem _ _ c (removeFirst_mem _ _ c (removeFirst_mem _ _ c (removeFirst_mem _ _ c hc))))

/-- A line that is empty, or `#` and no line break. -/
def HashLine (l : Text) : Prop := l = [] ∨ ∃ n b, l = List.replicate n ' ' ++ '#' :: b ∧ ∀ c ∈ b, c ≠ '\n' ∧ c ≠ '\r'

theorem hashLine_skips {l : Text} (h : HashLine l) {s r : Text} (hs : Spec.LineEnd s) (hr : Spec.PySkips s r) : Spec.PySkips (l ++ s) r := by
  rcases h with rfl | ⟨n, b, rfl, hb⟩
  · exact hr
  · rw [List.append_assoc]
    exact pySkips_blanks n (.comment hb (Or.inl hs) hr)

theorem hashLine_doc {l : Text} (h : ∀ c ∈ l, isLineBreak c = false) : HashLine (pythonDocLine l) := by
  have := pythonDocLine_chars h
  exact Or.inr ⟨0, _, rfl, nobreak_lf fun c hc => this c (List.mem_cons_of_mem _ hc)⟩

/-- **C102.** Python, structures: whatever the comment of a declaration is, all of it is comment in the generated module, and
what follows it is read as if it were not there. -/
theorem C102_python (d rest : Text) : Spec.PySkips (toPythonDoc d ++ '\n' :: rest) rest := by
  refine pySkips_trans (joined_skips (R := Spec.PySkips) (fun _ => .none) (fun _ _ h => .blank (by simp) h) _ ⟨_, rfl⟩ ?_)
    (.blank (by simp) .none)
  intro l hl s r hs hr
  obtain ⟨w, hw, rfl⟩ := List.mem_map.1 hl
  exact hashLine_skips (hashLine_doc (strSplitlines_nobreak d w hw)) hs hr

theorem strSplitlines_line {w : Text} (hw : ∀ c ∈ w, isLineBreak c = false) (t : Text) :
    strSplitlines (w ++ '\n' :: t) = w :: strSplitlines t := by
  induction w with
  | nil => rw [List.nil_append, strSplitlines, if_pos (by decide)]; simp
  | cons c w ih =>
    have hc := hw c (by simp)
    have hr : c ≠ '\r' := by rintro rfl; revert hc; decide
    rw [List.cons_append, strSplitlines, if_neg (by simp [hc]), ih fun x hx => hw x (by simp [hx])]
    simp [hr]

theorem strSplitlines_join {ls : List Text} (h : ∀ l ∈ ls, ∀ c ∈ l, isLineBreak c = false) (hne : ls ≠ []) :
    strSplitlines (joinTexts ['\n'] ls ++ ['\n']) = ls := by
  induction ls with
  | nil => exact absurd rfl hne
  | cons l ls ih =>
    cases ls with
    | nil => rw [joinTexts, strSplitlines_line (h l (by simp)) []]; rfl
    | cons m ms =>
      rw [joinTexts, List.append_assoc, List.append_assoc, List.singleton_append, strSplitlines_line (h l (by simp)),
        ih (fun x hx => h x (by simp [hx])) (by simp)]
      simp

theorem jinjaIndent_join (n : Nat) {ls : List Text} (h : ∀ l ∈ ls, ∀ c ∈ l, isLineBreak c = false) :
    ∃ ms, jinjaIndent n (joinTexts ['\n'] ls) = joinTexts ['\n'] ms ∧ ∀ m ∈ ms, m ∈ ls ∨ m = [] ∨ ∃ l ∈ ls, m = List.replicate n ' ' ++ l := by
  unfold jinjaIndent
  cases ls with
  | nil =>
    rw [joinTexts, List.nil_append, show strSplitlines ['\n'] = [[]] from by decide]
    exact ⟨[], rfl, by simp⟩
  | cons l ls =>
    rw [strSplitlines_join h (by simp)]
    refine ⟨_, rfl, ?_⟩
    intro m hm
    rcases List.mem_cons.1 hm with rfl | hm
    · exact Or.inl (by simp)
    · obtain ⟨w, hw, rfl⟩ := List.mem_map.1 hm
      split
      · exact Or.inr (Or.inl rfl)
      · exact Or.inr (Or.inr ⟨w, by simp [hw], rfl⟩)

/-- **C102.** Python, fields: the same for the indented comments in the list of fields. -/
theorem C102_python_field (d rest : Text) : Spec.PySkips (pythonFieldDoc d ++ '\n' :: rest) rest := by
  unfold pythonFieldDoc toPythonDoc
  rw [List.append_assoc]
  refine pySkips_blanks 12 ?_
  have hl : ∀ l ∈ (strSplitlines d).map pythonDocLine, ∀ c ∈ l, isLineBreak c = false := by
    intro l hl
    obtain ⟨w, hw, rfl⟩ := List.mem_map.1 hl
    exact pythonDocLine_chars (strSplitlines_nobreak d w hw)
  obtain ⟨ms, e, hm⟩ := jinjaIndent_join 8 hl
  rw [e]
  refine pySkips_trans (joined_skips (R := Spec.PySkips) (fun _ => .none) (fun _ _ h => .blank (by simp) h) _ ⟨_, rfl⟩ ?_)
    (.blank (by simp) .none)
  intro m hm' s r hs hr
  refine hashLine_skips ?_ hs hr
  rcases hm m hm' with h | rfl | ⟨l, h, rfl⟩
  · obtain ⟨w, hw, rfl⟩ := List.mem_map.1 h
    exact hashLine_doc (strSplitlines_nobreak d w hw)
  · exact Or.inl rfl
  · obtain ⟨w, hw, rfl⟩ := List.mem_map.1 h
    have := pythonDocLine_chars (strSplitlines_nobreak d w hw)
    exact Or.inr ⟨8, _, rfl, nobreak_lf fun c hc => this c (List.mem_cons_of_mem _ hc)⟩

/-- **C102.** Python: the documentation string of a structure or resource (python.jinja2:12, :37, :66) is the comment of its
declaration, to the letter. -/
theorem C102_docstring (d rest : Text) (h : ∀ c ∈ d, c ≠ '\r' ∧ c ≠ '\x00') :
    Spec.pyTriple (pyLiteral d ++ rest) = some (d, rest) := C58_python d rest h

/-! ## Go -/

theorem cSkips_trans {s u r : Text} (h : Spec.CSkips s u) (h' : Spec.CSkips u r) : Spec.CSkips s r := by
  induction h with
  | none => exact h'
  | blank hc _ ih => exact .blank hc (ih h')
  | line hb he _ ih => exact .line hb he (ih h')
  | block hb _ ih => exact .block hb (ih h')

theorem cSkips_blanks (n : Nat) {s r : Text} (h : Spec.CSkips s r) : Spec.CSkips (List.replicate n ' ' ++ s) r := by
  induction n with
  | zero => exact h
  | succ n ih => rw [List.replicate_succ]; exact .blank (Or.inl rfl) ih

/-- A line that is empty, or `//` and no line feed. -/
def SlashLine (l : Text) : Prop := l = [] ∨ ∃ n b, l = List.replicate n ' ' ++ '/' :: '/' :: b ∧ '\n' ∉ b

theorem slashLine_skips {l : Text} (h : SlashLine l) {s r : Text} (hs : Spec.LineEnd s) (hr : Spec.CSkips s r) : Spec.CSkips (l ++ s) r := by
  rcases h with rfl | ⟨n, b, rfl, hb⟩
  · exact hr
  · rw [List.append_assoc]
    exact cSkips_blanks n (.line hb hs hr)

theorem goLine_chars {d l : Text} (h : l ∈ ((strSplitlines d).filter fun s => !s.isEmpty).map fun s => '/' :: '/' :: ' ' :: s) :
    (∀ c ∈ l, isLineBreak c = false) ∧ ∃ b, l = '/' :: '/' :: b ∧ '\n' ∉ b := by
  obtain ⟨w, hw, rfl⟩ := List.mem_map.1 h
  have hb := strSplitlines_nobreak d w (List.mem_filter.1 hw).1
  have hn := nobreak_lf hb
  refine ⟨?_, ' ' :: w, rfl, ?_⟩
  · intro c hc
    simp only [List.mem_cons] at hc
    rcases hc with rfl | rfl | rfl | hc
    · decide
    · decide
    · decide
    · exact hb c hc
  · intro hc
    rcases List.mem_cons.1 hc with h | h
    · exact absurd h (by decide)
    · exact (hn _ h).1 rfl

/-- **C102.** Go, structures and vectors (whose template has blanks after the comment): whatever the comment of a declaration
is, all of it is comment in the generated source, and what follows it is read as if it were not there. -/
theorem C102_go (d rest : Text) (n : Nat) : Spec.CSkips (toGoDoc d ++ (List.replicate n ' ' ++ '\n' :: rest)) rest := by
  have key : ∀ ls : List Text, (∀ l ∈ ls, ∃ b, l = '/' :: '/' :: b ∧ '\n' ∉ b) →
      Spec.CSkips (joinTexts ['\n'] ls ++ (List.replicate n ' ' ++ '\n' :: rest)) rest := by
    intro ls
    induction ls with
    | nil => intro _; exact cSkips_blanks n (.blank (by simp) .none)
    | cons l ls ih =>
      intro h
      obtain ⟨b, rfl, hb⟩ := h l (by simp)
      cases ls with
      | nil =>
        rw [joinTexts, List.cons_append, List.cons_append, ← List.append_assoc]
        refine .line ?_ (Or.inr ⟨_, rfl⟩) (.blank (by simp) .none)
        simp [hb]
      | cons m ms =>
        rw [joinTexts, List.append_assoc, List.append_assoc, List.cons_append, List.cons_append]
        · exact .line hb (Or.inr ⟨_, rfl⟩) (.blank (by simp) (ih fun x hx => h x (by simp [hx])))
        · simp
  exact key _ fun l hl => (goLine_chars hl).2

/-- **C102.** Go, fields. -/
theorem C102_go_field (d rest : Text) : Spec.CSkips (goFieldDoc d ++ '\n' :: rest) rest := by
  unfold goFieldDoc toGoDoc
  rw [List.append_assoc]
  refine cSkips_blanks 8 ?_
  obtain ⟨ms, e, hm⟩ := jinjaIndent_join 8 fun l hl => (goLine_chars (d := d) hl).1
  rw [e]
  refine cSkips_trans (joined_skips (R := Spec.CSkips) (fun _ => .none) (fun _ _ h => .blank (by simp) h) _ ⟨_, rfl⟩ ?_)
    (.blank (by simp) .none)
  intro m hm' s r hs hr
  refine slashLine_skips ?_ hs hr
  rcases hm m hm' with h | rfl | ⟨l, h, rfl⟩
  · obtain ⟨b, rfl, hb⟩ := (goLine_chars h).2
    exact Or.inr ⟨0, b, rfl, hb⟩
  · exact Or.inl rfl
  · obtain ⟨b, rfl, hb⟩ := (goLine_chars h).2
    exact Or.inr ⟨8, b, rfl, hb⟩

/-! ## What the parser takes for a comment -/

/-- **C102.** What the parser takes for a comment, if a line or more text follows it. -/
theorem C102_comment {t r : Text} (h : comment t = .ok () r) (hr : r ≠ []) :
    ∃ ws d, t = ws ++ d ++ r ∧ (∀ c ∈ ws, Spec.Space c) ∧ Spec.DocText d := by
  have hws : t = t.takeWhile isWs ++ skipWs t := (List.takeWhile_append_dropWhile (p := isWs) (l := t)).symm
  have hsp : ∀ c ∈ t.takeWhile isWs, Spec.Space c := by
    intro c hc
    have := (List.all_eq_true.1 (List.all_takeWhile (p := isWs) (l := t))) c hc
    simpa [isWs, Spec.Space] using this
  unfold comment at h
  split at h
  · rename_i u hu
    obtain ⟨b, hb⟩ := blockEnd_split h
    obtain ⟨body, r', e, hm⟩ := block_minimal ⟨r, hb⟩
    have : r' = r := by
      have h2 := blockEnd_found hm r'
      rw [← e, h] at h2
      injection h2 with _ h3
      exact h3.symm
    subst this
    refine ⟨_, _, ?_, hsp, .block hm⟩
    rw [List.append_assoc]
    refine hws.trans ?_
    rw [stripPrefix_some hu, e]
    simp
  · split at h
    · rename_i u hu
      injection h with _ h
      obtain ⟨body, e, h1, h2⟩ := line_split u
      rw [h] at e h2
      rcases h2 with h2 | ⟨-, h2⟩
      · exact absurd h2 hr
      · refine ⟨_, _, ?_, hsp, .line h1 h2⟩
        rw [List.append_assoc]
        refine hws.trans ?_
        rw [stripPrefix_some hu, e]
        simp
    · cases h

/-! ## C++ -/

theorem cppSplice_noSplice {d : Text} (h : Spec.NoSplice d) (hl : d.getLast? ≠ some '\\') (t : Text) :
    Spec.cppSplice (d ++ t) = d ++ Spec.cppSplice t := by
  induction d with
  | nil => rfl
  | cons c d ih =>
    have ih' := ih (fun hx => h (hx.trans (List.suffix_cons c d).isInfix)) (by
      intro e; apply hl; cases d with
      | nil => simp at e
      | cons x d => simpa using e)
    rw [List.cons_append, Spec.cppSplice, ih', List.cons_append]
    rintro u rfl e
    cases d with
    | nil => exact hl rfl
    | cons x d =>
      obtain ⟨rfl, -⟩ := List.cons.inj e
      exact h ⟨[], d, rfl⟩

theorem cppSplice_line {body : Text} (t : Text) (h : ∀ a b, body = a ++ '\n' :: b → a.getLast? = some '\\')
    (hl : body.getLast? ≠ some '\\') : ∃ b, Spec.cppSplice (body ++ t) = b ++ Spec.cppSplice t ∧ '\n' ∉ b := by
  induction body using Spec.cppSplice.induct with
  | case1 => exact ⟨[], rfl, by simp⟩
  | case2 u ih =>
    have hu : ∀ a b, u = a ++ '\n' :: b → a ≠ [] → a.getLast? = some '\\' := by
      intro a b e hne
      have := h ('\\' :: '\n' :: a) b (by rw [e]; rfl)
      cases a with
      | nil => exact absurd rfl hne
      | cons x a => simpa using this
    have hu' : ∀ a b, u = a ++ '\n' :: b → a.getLast? = some '\\' := by
      intro a b e
      cases a with
      | nil => have := h ['\\', '\n'] b (by rw [e]; rfl); simp at this
      | cons x a => exact hu _ b e (by simp)
    obtain ⟨b, e, hb⟩ := ih hu' (by
      intro e; apply hl; cases u with
      | nil => simp at e
      | cons x u => simpa using e)
    exact ⟨b, by rw [List.cons_append, List.cons_append, Spec.cppSplice, e], hb⟩
  | case3 c u hne ih =>
    have hcn : c ≠ '\n' := by
      rintro rfl
      have := h [] u rfl
      simp at this
    have hu' : ∀ a b, u = a ++ '\n' :: b → a.getLast? = some '\\' := by
      intro a b e
      have := h (c :: a) b (by rw [e]; rfl)
      cases a with
      | nil =>
        simp at this
        subst this
        exact absurd e (by intro e; exact hne _ rfl e)
      | cons x a => simpa using this
    obtain ⟨b, e, hb⟩ := ih hu' (by
      intro e; apply hl; cases u with
      | nil => simp at e
      | cons x u => simpa using e)
    refine ⟨c :: b, ?_, by simp [hb, Ne.symm hcn]⟩
    rw [List.cons_append, Spec.cppSplice, e, List.cons_append]
    rintro v rfl e'
    cases u with
    | nil => exact hl rfl
    | cons x u =>
      rw [List.cons_append] at e'
      obtain ⟨rfl, -⟩ := List.cons.inj e'
      exact hne _ rfl rfl

/-- **C102.** C++: a comment of a schema is a comment of the header, unless it is a `/* … */` comment with a backslash at the end
of a line. -/
theorem C102_cpp {d : Text} (hd : Spec.DocText d) (h : (∃ u, d = '/' :: '*' :: u) → Spec.NoSplice d) (rest : Text) :
    Spec.CSkips (Spec.cppSplice (cppDoc d ++ '\n' :: rest)) (Spec.cppSplice rest) := by
  have hn : Spec.cppSplice ('\n' :: rest) = '\n' :: Spec.cppSplice rest := by rw [Spec.cppSplice]; simp
  unfold cppDoc
  cases hd with
  | block hb =>
    rename_i body
    rw [cppSplice_noSplice (h ⟨_, rfl⟩) (by
      rw [show '/' :: '*' :: (body ++ ['*', '/']) = ('/' :: '*' :: (body ++ ['*'])) ++ ['/'] by simp, List.getLast?_concat]; decide), hn]
    have := Spec.CSkips.block hb (s := '\n' :: Spec.cppSplice rest) (.blank (by simp) .none)
    simpa using this
  | line h1 h2 =>
    rename_i body
    obtain ⟨b, e, hb⟩ := cppSplice_line ('\n' :: rest) h1 h2
    have e' : Spec.cppSplice ('/' :: '/' :: body ++ '\n' :: rest) = '/' :: '/' :: Spec.cppSplice (body ++ '\n' :: rest) := by
      rw [List.cons_append, List.cons_append, Spec.cppSplice, Spec.cppSplice] <;> simp
    rw [e', e, hn]
    exact .line hb (Or.inr ⟨_, rfl⟩) (.blank (by simp) .none)

/-! ## Rust -/

theorem strRstrip_prefix (t : Text) : strRstrip t <+: t := by
  unfold strRstrip
  have := List.dropWhile_suffix isStrSpace (l := t.reverse)
  rw [← List.reverse_prefix, List.reverse_reverse] at this
  exact this

theorem strRstrip_cons {c : Char} (h : isStrSpace c = false) (t : Text) : strRstrip (c :: t) = c :: strRstrip t := by
  unfold strRstrip
  rw [List.reverse_cons, List.dropWhile_append]
  split
  · rename_i hd
    rw [List.isEmpty_iff.1 hd]
    simp [List.dropWhile, h]
  · simp

theorem prefix_head {s t : Text} (h : s <+: t) (hs : s ≠ []) : s.head? = t.head? := by
  obtain ⟨u, rfl⟩ := h
  cases s with
  | nil => exact absurd rfl hs
  | cons c s => rfl

/-- A line that Rust passes over. -/
def RustLine (l : Text) : Prop := l = [] ∨ (∃ b, l = '/' :: '/' :: '/' :: b ∧ b.head? ≠ some '/' ∧ '\n' ∉ b ∧ '\r' ∉ b) ∨
  ∃ b, l = '/' :: '/' :: b ∧ b.head? ≠ some '!' ∧ (b.head? = some '/' → b.tail.head? = some '/') ∧ '\n' ∉ b

theorem rustLine_skips {l : Text} (h : RustLine l) {s r : Text} (hs : Spec.LineEnd s) (hr : ∃ ds, Spec.RustDocs s ds r) :
    ∃ ds, Spec.RustDocs (l ++ s) ds r := by
  obtain ⟨ds, hr⟩ := hr
  rcases h with rfl | ⟨b, rfl, h1, h2, h3⟩ | ⟨b, rfl, h1, h2, h3⟩
  · exact ⟨ds, hr⟩
  · exact ⟨_, .doc h2 h3 h1 hs hr⟩
  · exact ⟨_, .line h3 h1 h2 hs hr⟩

/-- Blanks and tabs. -/
def Indent (t : Text) : Prop := ∀ c ∈ t, c = ' ' ∨ c = '\t'

/-- The lines that the filter turns into comments. -/
def StarLine (l : Text) : Prop := ∃ blanks r, l = blanks ++ r ∧ Indent blanks ∧
  (r = [] ∨ (∃ u, r = '*' :: u) ∨ (∃ u, r = '/' :: '*' :: u) ∨ ∃ u, r = '/' :: '/' :: u ∧ u.head? ≠ some '!')

theorem dropIndent {p : Char → Bool} (hp : p ' ' = true ∧ p '\t' = true) {b r : Text} (hb : Indent b) (hr : ∀ c ∈ r.head?, p c = false) :
    (b ++ r).dropWhile p = r := by
  induction b with
  | nil =>
    cases r with
    | nil => rfl
    | cons c r => rw [List.nil_append, List.dropWhile_cons_of_neg]; simpa using hr c (by simp)
  | cons c b ih =>
    rw [List.cons_append, List.dropWhile_cons_of_pos, ih fun x hx => hb x (by simp [hx])]
    rcases hb c (by simp) with rfl | rfl
    · exact hp.1
    · exact hp.2

theorem rustDocGroup_mem (r : Text) : ∀ c ∈ rustDocGroup r, c ∈ r := by
  intro c hc
  unfold rustDocGroup at hc
  have := (strRstrip_prefix _).subset hc
  split at this
  · exact List.mem_of_mem_dropLast (List.mem_of_mem_dropLast this)
  · exact this

theorem skipOneSpace_mem (r : Text) : ∀ c ∈ skipOneSpace r, c ∈ r := by
  intro c hc
  cases r with
  | nil => exact hc
  | cons x r =>
    rw [skipOneSpace] at hc
    split at hc
    · exact List.mem_cons_of_mem _ hc
    · exact hc

theorem rustDocSub_star {l x : Text} (hx : l.dropWhile (fun c => c = ' ' || c = '\t') = x) (h : (∃ u, x = '*' :: u) ∨ ∃ u, x = '/' :: '*' :: u) :
    ∃ g, rustDocSub l = '/' :: '/' :: '/' :: ' ' :: g ∧ ∀ c ∈ g, c ∈ l := by
  have hmem : ∀ c ∈ x, c ∈ l := by
    intro c hc
    rw [← hx] at hc
    exact (List.dropWhile_suffix _).subset hc
  have hs : ∀ {p r : Text}, stripPrefix p x = some r → ∀ c ∈ r, c ∈ l := by
    intro p r e c hc
    apply hmem
    rw [stripPrefix_some e]
    exact List.mem_append_right _ hc
  unfold rustDocSub
  dsimp only
  rw [hx]
  split
  · exact ⟨_, rfl, fun c hc => hs ‹_› c (skipOneSpace_mem _ c (rustDocGroup_mem _ c hc))⟩
  · split
    · exact ⟨_, rfl, fun c hc => hs ‹_› c (skipOneSpace_mem _ c (rustDocGroup_mem _ c hc))⟩
    · split
      · exact ⟨_, rfl, fun c hc => hs ‹_› c (rustDocGroup_mem _ c hc)⟩
      · split
        · exact ⟨_, rfl, fun c hc => hs ‹_› c (skipOneSpace_mem _ c (rustDocGroup_mem _ c hc))⟩
        · rename_i h1 h2 h3 h4
          rcases h with ⟨u, rfl⟩ | ⟨u, rfl⟩
          · simp_all [stripPrefix]
          · simp_all [stripPrefix]

theorem rustLine_star {l : Text} (h : StarLine l) (hn : '\n' ∉ l) (hr : '\r' ∉ l) : RustLine (strStrip (rustDocSub l)) := by
  obtain ⟨bl, r, rfl, hb, h⟩ := h
  have star : ((∃ u, r = '*' :: u) ∨ ∃ u, r = '/' :: '*' :: u) → RustLine (strStrip (rustDocSub (bl ++ r))) := by
    intro h'
    have hd := dropIndent (p := fun c => c = ' ' || c = '\t') (by decide) hb (r := r) (by
      rcases h' with ⟨u, rfl⟩ | ⟨u, rfl⟩ <;> simp)
    obtain ⟨g, e, hg⟩ := rustDocSub_star hd h'
    rw [e]
    unfold strStrip
    rw [List.dropWhile_cons_of_neg (by decide), strRstrip_cons (by decide), strRstrip_cons (by decide), strRstrip_cons (by decide)]
    have hp := strRstrip_prefix (' ' :: g)
    refine Or.inr (Or.inl ⟨_, rfl, ?_, ?_, ?_⟩)
    · by_cases h0 : strRstrip (' ' :: g) = []
      · rw [h0]; simp
      · rw [prefix_head hp h0]; simp
    · intro hc
      rcases List.mem_cons.1 (hp.subset hc) with h | h
      · exact absurd h (by decide)
      · exact hn (hg _ h)
    · intro hc
      rcases List.mem_cons.1 (hp.subset hc) with h | h
      · exact absurd h (by decide)
      · exact hr (hg _ h)
  rcases h with rfl | h | h | ⟨u, rfl, hu⟩
  · have hd := dropIndent (p := fun c => c = ' ' || c = '\t') (by decide) hb (r := []) (by simp)
    have e : rustDocSub (bl ++ []) = bl ++ [] := by
      unfold rustDocSub
      dsimp only
      rw [hd]
      simp [stripPrefix]
    rw [e]
    unfold strStrip
    rw [dropIndent (p := isStrSpace) (by decide) hb (by simp)]
    exact Or.inl rfl
  · exact star (Or.inl h)
  · exact star (Or.inr h)
  · have hd := dropIndent (p := fun c => c = ' ' || c = '\t') (by decide) hb (r := '/' :: '/' :: u) (by simp)
    have e : rustDocSub (bl ++ '/' :: '/' :: u) = bl ++ '/' :: '/' :: u := by
      unfold rustDocSub
      dsimp only
      rw [hd]
      simp [stripPrefix]
    rw [e]
    unfold strStrip
    rw [dropIndent (p := isStrSpace) (by decide) hb (by simp; decide), strRstrip_cons (by decide), strRstrip_cons (by decide)]
    have hp := strRstrip_prefix u
    have hmem : ∀ c ∈ strRstrip u, c ∈ bl ++ '/' :: '/' :: u := fun c hc => by simp [hp.subset hc]
    have h1 : (strRstrip u).head? ≠ some '!' := by
      by_cases h0 : strRstrip u = []
      · rw [h0]; simp
      · rw [prefix_head hp h0]; exact hu
    generalize strRstrip u = v at *
    by_cases hv : v.head? = some '/' → v.tail.head? = some '/'
    · exact Or.inr (Or.inr ⟨v, rfl, h1, hv, fun hc => hn (hmem _ hc)⟩)
    · push Not at hv
      obtain ⟨hv, hv'⟩ := hv
      cases v with
      | nil => simp at hv
      | cons c v =>
        simp at hv
        subst hv
        exact Or.inr (Or.inl ⟨v, rfl, hv', fun hc => hn (hmem _ (by simp [hc])), fun hc => hr (hmem _ (by simp [hc]))⟩)

theorem splitLines_first (d : Text) : ∃ w ws e, splitLines d = w :: ws ∧ d = w ++ e ∧ '\n' ∉ w ∧
    ((e = [] ∧ ws = []) ∨ ∃ e', e = '\n' :: e' ∧ ws = splitLines e') := by
  induction d with
  | nil => exact ⟨[], [], [], rfl, rfl, by simp, Or.inl ⟨rfl, rfl⟩⟩
  | cons c d ih =>
    by_cases hc : c = '\n'
    · subst hc
      exact ⟨[], _, _, by rw [splitLines, if_pos rfl], rfl, by simp, Or.inr ⟨d, rfl, rfl⟩⟩
    · obtain ⟨w, ws, e, h1, h2, h3, h4⟩ := ih
      refine ⟨c :: w, ws, e, by rw [splitLines, if_neg hc, h1], by rw [h2]; rfl, by simp [h3, Ne.symm hc], h4⟩

theorem splitLines_parts : ∀ (n : Nat) (d : Text), d.length ≤ n → ∀ l ∈ splitLines d, '\n' ∉ l ∧
    ((∃ e, d = l ++ e ∧ Spec.LineEnd e) ∨ ∃ a e, d = a ++ '\n' :: (l ++ e) ∧ Spec.LineEnd e) := by
  intro n
  induction n with
  | zero =>
    intro d hd l hl
    have : d = [] := List.length_eq_zero_iff.1 (by omega)
    subst this
    simp [splitLines] at hl; subst hl
    exact ⟨by simp, Or.inl ⟨[], rfl, Or.inl rfl⟩⟩
  | succ n ih =>
    intro d hd l hl
    obtain ⟨w, ws, e, h1, h2, h3, h4⟩ := splitLines_first d
    rw [h1] at hl
    rcases List.mem_cons.1 hl with rfl | hl
    · refine ⟨h3, Or.inl ⟨e, h2, ?_⟩⟩
      rcases h4 with ⟨rfl, -⟩ | ⟨e', rfl, -⟩
      · exact Or.inl rfl
      · exact Or.inr ⟨_, rfl⟩
    · rcases h4 with ⟨-, rfl⟩ | ⟨e', rfl, rfl⟩
      · simp at hl
      · have hlen : e'.length ≤ n := by rw [h2] at hd; simp at hd; omega
        obtain ⟨g1, g2⟩ := ih e' hlen l hl
        refine ⟨g1, Or.inr ?_⟩
        rcases g2 with ⟨e, rfl, he⟩ | ⟨a, e, rfl, he⟩
        · exact ⟨w, e, h2, he⟩
        · exact ⟨w ++ '\n' :: a, e, by rw [h2]; simp, he⟩

theorem starLine_of {b l e : Text} (h : ∃ blanks r, b = blanks ++ r ∧ (∀ c ∈ blanks, c = ' ' ∨ c = '\t') ∧
    (Spec.LineEnd r ∨ (∃ u, r = '*' :: u) ∨ (∃ u, r = '/' :: '*' :: u) ∨ ∃ u, r = '/' :: '/' :: u ∧ u.head? ≠ some '!'))
    (hl : b = l ++ e) (he : Spec.LineEnd e) (hn : '\n' ∉ l) : StarLine l := by
  obtain ⟨bl, r, h1, hb, h⟩ := h
  rw [hl] at h1
  rcases List.append_eq_append_iff.1 h1 with ⟨cs, h2, h3⟩ | ⟨as, h2, h3⟩
  · refine ⟨l, [], by simp, fun c hc => hb c (by rw [h2]; simp [hc]), Or.inl rfl⟩
  · refine ⟨bl, as, h2, hb, ?_⟩
    have hna : '\n' ∉ as := fun hc => hn (by rw [h2]; simp [hc])
    cases as with
    | nil => exact Or.inl rfl
    | cons c as =>
      refine Or.inr ?_
      rw [h3] at h
      rcases h with (h | ⟨u, h⟩) | ⟨u, h⟩ | ⟨u, h⟩ | ⟨u, h, hu⟩
      · simp at h
      · injection h with h _; subst h; simp at hna
      · injection h with h _; subst h; exact Or.inl ⟨as, rfl⟩
      · injection h with h h'; subst h
        cases as with
        | nil => rcases he with rfl | ⟨v, rfl⟩ <;> simp at h'
        | cons x as => injection h' with h' _; subst h'; exact Or.inr (Or.inl ⟨as, rfl⟩)
      · injection h with h h'; subst h
        cases as with
        | nil => rcases he with rfl | ⟨v, rfl⟩ <;> simp at h'
        | cons x as =>
          injection h' with h' h''; subst h'
          refine Or.inr (Or.inr ⟨as, rfl, ?_⟩)
          rw [← h''] at hu
          cases as with
          | nil => simp
          | cons y as => simpa using hu

theorem rustDocs_trans {s u r : Text} {ds es : List Text} (h : Spec.RustDocs s ds u) (h' : Spec.RustDocs u es r) : Spec.RustDocs s (ds ++ es) r := by
  induction h with
  | none => exact h'
  | blank hc _ ih => exact .blank hc (ih h')
  | line h1 h2 h3 h4 _ ih => exact .line h1 h2 h3 h4 (ih h')
  | doc h1 h2 h3 h4 _ ih => exact .doc h1 h2 h3 h4 (ih h')

/-- **C102.** Rust: a comment of a schema consists of comments and outer documentation comments in the generated source, if each
of its lines begins with `*`, `/*` or `//` or is empty, it is no inner documentation comment (`//!`) and has no carriage return. -/
theorem C102_rust {d : Text} (hd : Spec.DocText d) (hi : ¬ ∃ u, d = '/' :: '/' :: '!' :: u) (hs : Spec.Starred d) (hr : '\r' ∉ d) (rest : Text) :
    ∃ docs, Spec.RustDocs (rustDoc d ++ '\n' :: rest) docs rest := by
  have hline : ∀ l ∈ rustDocLines d, RustLine l := by
    intro l hl
    obtain ⟨w, hw, rfl⟩ := List.mem_map.1 hl
    obtain ⟨hn, h⟩ := splitLines_parts _ d (Nat.le_refl _) w hw
    have hwr : '\r' ∉ w := by
      rcases h with ⟨e, rfl, -⟩ | ⟨a, e, rfl, -⟩
      · exact fun hc => hr (by simp [hc])
      · exact fun hc => hr (by simp [hc])
    refine rustLine_star ?_ hn hwr
    rcases h with ⟨e, h, he⟩ | ⟨a, e, h, he⟩
    · refine starLine_of ⟨[], d, rfl, by simp, ?_⟩ h he hn
      cases hd with
      | block _ => exact Or.inr (Or.inr (Or.inl ⟨_, rfl⟩))
      | line _ _ =>
        rename_i body _ _
        refine Or.inr (Or.inr (Or.inr ⟨_, rfl, ?_⟩))
        intro hb
        cases body with
        | nil => simp at hb
        | cons c body => simp at hb; subst hb; exact hi ⟨_, rfl⟩
    · exact starLine_of (hs a (w ++ e) h) rfl he hn
  have hcut : ∀ l ∈ (if (rustDocLines d).getLast? = some ['/', '/', '/']
      then ((rustDocLines d).drop (if (rustDocLines d).head? = some ['/', '/', '/'] then 1 else 0)).dropLast
      else (rustDocLines d).drop (if (rustDocLines d).head? = some ['/', '/', '/'] then 1 else 0)), RustLine l := by
    intro l hl
    apply hline
    split at hl
    · exact List.mem_of_mem_drop (List.mem_of_mem_dropLast hl)
    · exact List.mem_of_mem_drop hl
  obtain ⟨ds, h⟩ := joined_skips (R := fun s r => ∃ ds, Spec.RustDocs s ds r) (fun _ => ⟨[], .none⟩) (fun _ _ ⟨ds, h⟩ => ⟨ds, .blank (by simp) h⟩)
    ('\n' :: rest) ⟨_, rfl⟩ fun l hl s r hs hr => rustLine_skips (hcut l hl) hs hr
  exact ⟨_, rustDocs_trans h (.blank (by simp) .none)⟩

theorem strRstrip_id {l : Text} (h : ∀ c ∈ l.getLast?, isStrSpace c = false) : strRstrip l = l := by
  unfold strRstrip
  rcases List.eq_nil_or_concat l with rfl | ⟨u, c, rfl⟩
  · rfl
  · have := h c (by simp)
    simp [this]

theorem visible_space {c : Char} (h : 33 ≤ c.toNat ∧ c.toNat ≤ 126) : isStrSpace c = false := by
  unfold isStrSpace
  rw [← Bool.not_eq_true, List.contains_iff_mem]
  simp
  omega

theorem splitLines_line {w : Text} (h : '\n' ∉ w) (t : Text) : splitLines (w ++ '\n' :: t) = w :: splitLines t := by
  induction w with
  | nil => rw [List.nil_append, splitLines, if_pos rfl]
  | cons c w ih =>
    have hc : c ≠ '\n' := by rintro rfl; simp at h
    rw [List.cons_append, splitLines, if_neg hc, ih (by intro hx; simp [hx] at h)]

theorem rustDocLine_usual {l : Text} (h : Spec.PlainLine l) :
    strStrip (rustDocSub (' ' :: '*' :: ' ' :: l)) = '/' :: '/' :: '/' :: (if l = [] then [] else ' ' :: l) := by
  have hl : strRstrip l = l := strRstrip_id fun c hc => visible_space (h.2.2.2 c hc)
  have h1 : rustDocSub (' ' :: '*' :: ' ' :: l) = '/' :: '/' :: '/' :: ' ' :: l := by
    unfold rustDocSub
    simp only [stripPrefix, rustDocGroup, skipOneSpace]
    simp only [List.dropWhile, decide_true, Bool.true_or, show isStrSpace ' ' = true from by decide]
    simp [stripPrefix, skipOneSpace, show isStrSpace ' ' = true from by decide]
    rw [if_neg, hl]
    exact fun hs => h.2.2.1 hs.isInfix
  rw [h1]
  unfold strStrip
  rw [List.dropWhile_cons_of_neg (by decide), strRstrip_cons (by decide), strRstrip_cons (by decide), strRstrip_cons (by decide)]
  by_cases h0 : l = []
  · subst h0; rfl
  · rw [if_neg h0]
    congr 3
    apply strRstrip_id
    intro c hc
    cases l with
    | nil => exact absurd rfl h0
    | cons x l => exact visible_space (h.2.2.2 c (by simpa using hc))

/-- **C102.** Rust: the documentation of an item consists of the lines of the comment, if it has the usual form. -/
theorem C102_rust_usual {lines : List Text} (h : ∀ l ∈ lines, Spec.PlainLine l) (rest : Text) :
    Spec.RustDocs (rustDoc (Spec.usualComment lines) ++ '\n' :: rest) (lines.map fun l => if l = [] then [] else ' ' :: l) rest := by
  have hs : splitLines (Spec.usualComment lines) = "/**".toList :: (lines.map (fun l => ' ' :: '*' :: ' ' :: l) ++ [" */".toList]) := by
    unfold Spec.usualComment
    rw [List.append_assoc, show "/**\n".toList = "/**".toList ++ ['\n'] from rfl, List.append_assoc, List.singleton_append,
      splitLines_line (by decide)]
    congr 1
    clear rest
    induction lines with
    | nil => decide
    | cons l ls ih =>
      have hl := h l (by simp)
      rw [List.flatMap_cons, List.append_assoc, List.append_assoc, List.singleton_append, splitLines_line (by simp [hl.1]),
        ih fun x hx => h x (by simp [hx])]
      rfl
  have hd : rustDocLines (Spec.usualComment lines) = ['/', '/', '/'] ::
      (lines.map (fun l => '/' :: '/' :: '/' :: (if l = [] then [] else ' ' :: l)) ++ [['/', '/', '/']]) := by
    unfold rustDocLines
    rw [hs, List.map_cons, List.map_append, List.map_map]
    congr 1
    congr 1
    apply List.map_congr_left
    intro l hl
    exact rustDocLine_usual (h l hl)
  have hr : rustDoc (Spec.usualComment lines) = joinTexts ['\n'] (lines.map fun l => '/' :: '/' :: '/' :: (if l = [] then [] else ' ' :: l)) := by
    unfold rustDoc
    dsimp only
    rw [hd, List.head?_cons, if_pos (by rw [← List.cons_append, List.getLast?_concat]), if_pos rfl, List.drop_succ_cons, List.drop_zero, List.dropLast_concat]
  rw [hr]
  clear hr hd hs
  have hbody : ∀ l : Text, Spec.PlainLine l → ∀ s ds r, Spec.LineEnd s → Spec.RustDocs s ds r →
      Spec.RustDocs ('/' :: '/' :: '/' :: (if l = [] then [] else ' ' :: l) ++ s) ((if l = [] then [] else ' ' :: l) :: ds) r := by
    intro l hl s ds r he hr
    refine .doc ?_ ?_ ?_ he hr
    · split <;> simp [hl.1]
    · split <;> simp [hl.2.1]
    · split <;> simp
  induction lines with
  | nil => exact .blank (by simp) .none
  | cons l ls ih =>
    cases ls with
    | nil =>
      rw [List.map_cons, List.map_nil, List.map_cons, List.map_nil, joinTexts]
      exact hbody l (h l (by simp)) _ _ _ (Or.inr ⟨_, rfl⟩) (.blank (by simp) .none)
    | cons m ms =>
      rw [List.map_cons, List.map_cons, joinTexts, List.append_assoc, List.append_assoc]
      · exact hbody l (h l (by simp)) _ _ _ (Or.inr ⟨_, rfl⟩) (.blank (by simp) (ih fun x hx => h x (by simp [hx])))
      · simp

end Props
