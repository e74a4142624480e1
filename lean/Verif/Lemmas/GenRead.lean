import Verif.Lemmas.GenShow

/-! # Reading whole texts -/

namespace Gen
open Parser Spec

/-! ## Decorations of resources, as in the grammar -/

theorem head_stop {p : Char → Bool} {c : Char} {r : Text} (h : p c = false) : ∀ x ∈ (c :: r).head?, p x = false := by
  intro x hx
  simp only [List.head?_cons, Option.mem_some_iff] at hx
  exact hx ▸ h

theorem part_read {n : Text} (hn : Ident n) {t r : Text} (ht : skipWs t = '.' :: (n ++ '.' :: r)) : referencePart t = .ok ('.' :: n) ('.' :: r) := by
  refine seq_intro (opt_some (lit_intro (s := ['.']) (r := n ++ '.' :: r) ht)) ?_
  refine seq_intro (identifier_intro hn (skip_ident hn _) (head_stop rfl)) ?_
  have hl : lit [','] ('.' :: r) = .fail := lit_fail (d := '.') rfl (by decide)
  refine seq_intro (a := ()) (u := '.' :: r) ?_ rfl
  simp only [hl]

theorem part_last {f : Text} (hf : Ident f) (r : Text) : referencePart ('.' :: (f ++ ',' :: r)) = .fail := by
  refine seq_intro (opt_some (lit_intro (s := ['.']) (r := f ++ ',' :: r) rfl)) ?_
  refine seq_intro (identifier_intro hf (skip_ident hf _) (head_stop rfl)) ?_
  have hl : lit [','] (',' :: r) = .ok () r := lit_intro rfl
  refine seq_fail ?_
  simp only [hl]

theorem head_stop' {P : Char → Prop} {c : Char} {r : Text} (h : P c) : ∀ x ∈ (c :: r).head?, P x := by
  intro x hx
  simp only [List.head?_cons, Option.mem_some_iff] at hx
  exact hx ▸ h

theorem pathText_ne {p : Path} (h : p ≠ []) : pathText p ≠ [] := by
  obtain ⟨k, p, rfl⟩ := List.exists_cons_of_ne_nil h
  simp [pathText]

theorem prefix_read {p : Path} (hp : p ≠ []) (hi : ∀ n ∈ p, Ident n) {f : Text} (hf : Ident f) (r : Text) :
    referencePrefix (' ' :: (pathText p ++ '.' :: (f ++ ',' :: r))) = .ok (pathText p) ('.' :: (f ++ ',' :: r)) := by
  obtain ⟨k, p, rfl⟩ := List.exists_cons_of_ne_nil hp
  have hm : many referencePart (p.flatMap (fun n => '.' :: n) ++ '.' :: (f ++ ',' :: r)) = .ok (p.map fun n => '.' :: n) ('.' :: (f ++ ',' :: r)) := by
    refine many_intro' (fun r => ∃ u, r = '.' :: u) ?_ (fun x _ r => ⟨_, rfl⟩) ⟨_, rfl⟩ (by simp) (part_last hf r)
    rintro n hn _ ⟨u, rfl⟩
    exact part_read (hi n (by simp [hn])) rfl
  have h1 : ∃ u, pathText p ++ '.' :: (f ++ ',' :: r) = '.' :: u := by
    cases p with
    | nil => exact ⟨_, rfl⟩
    | cons x p => exact ⟨_, rfl⟩
  obtain ⟨u, hu⟩ := h1
  have hfirst : referencePart (' ' :: (pathText (k :: p) ++ '.' :: (f ++ ',' :: r))) = .ok ('.' :: k) ('.' :: u) := by
    refine part_read (hi k (by simp)) ?_
    rw [skip_space, ← hu]
    simp only [pathText, List.flatMap_cons, List.cons_append, List.append_assoc]
    exact skip_char rfl
  rw [← hu] at hfirst
  refine seq_intro (seq_intro hfirst (seq_intro hm rfl)) ?_
  show Res.ok _ _ = _
  simp [pathText, List.flatMap_def]

/-- The decorations the grammar reads: the source is given by its path. -/
def OkDeco : PResDeco → Prop
  | .explicitReference s f d => (∃ p, p ≠ [] ∧ (∀ n ∈ p, Ident n) ∧ s = pathText p) ∧ Ident f ∧ Dotted d
  | .optional => True

theorem reads_grammar : Reads resourceDecoration OkDeco where
  read := by
    rintro (⟨s, f, d⟩ | _) r hok ⟨u, rfl⟩
    · obtain ⟨⟨p, hp, hi, rfl⟩, hf, hd⟩ := hok
      simp only [resDecoText, List.append_assoc, List.cons_append, List.nil_append]
      refine orElse_left ?_
      refine seq_intro (keyword_at (by rw [skip_nl4]; rfl) (by rfl)) ?_
      refine seq_intro (must_intro (lit_intro rfl)) ?_
      refine seq_intro (must_intro (prefix_read hp hi hf _)) ?_
      refine seq_intro (must_intro (lit_intro (r := f ++ ',' :: ' ' :: (d ++ ' ' :: ')' :: '\n' :: u)) rfl)) ?_
      refine seq_intro (must_intro (identifier_intro hf (skip_ident hf _) (head_stop rfl))) ?_
      refine seq_intro (must_intro (lit_intro rfl)) ?_
      refine seq_intro (must_intro (qualified_stops hd (stops_cons _ rfl))) ?_
      exact seq_intro (must_intro (lit_intro rfl)) rfl
    · simp only [resDecoText, List.append_assoc]
      refine orElse_right ?_ ?_
      · refine seq_fail (keyword_none ?_)
        rw [skip_nl4]; rfl
      · exact seq_intro (keyword_at (by rw [skip_nl4]; rfl) (by rfl)) rfl
  none := by
    intro t c r ht hc
    exact orElse_right (seq_fail (keyword_fail ht hc.symm)) (seq_fail (keyword_fail ht hc.symm))

/-! ## Decorations of resources, with the last dot before the field -/

def beforeLastDot (t : Text) : Text := ((t.reverse.dropWhile (· ≠ '.')).drop 1).reverse
def afterLastDot (t : Text) : Text := (t.reverse.takeWhile (· ≠ '.')).reverse

theorem lastDot {s f : Text} (hf : '.' ∉ f) : beforeLastDot (s ++ '.' :: f) = s ∧ afterLastDot (s ++ '.' :: f) = f := by
  have h : (s ++ '.' :: f).reverse = f.reverse ++ ('.' :: s.reverse) := by simp
  have := takeWhile_stop (p := fun c => decide (c ≠ '.')) (w := f.reverse) (r := '.' :: s.reverse) (by
    intro c hc
    simp only [ne_eq, decide_eq_true_eq]
    rintro rfl
    exact hf (by simpa using hc)) (head_stop (by decide))
  unfold beforeLastDot afterLastDot
  rw [h]
  constructor
  · rw [this.2]; simp
  · rw [this.1]; simp

def looseDecoration : Parser PResDeco :=
  orElse (do
    keyword "@explicit_reference".toList
    lit ['(']
    let x ← qualifiedIdentifier
    lit [',']
    let d ← qualifiedIdentifier
    lit [')']
    pure (.explicitReference (beforeLastDot x) (afterLastDot x) d)) optionalDeco

def LooseDeco : PResDeco → Prop
  | .explicitReference s f d => Dotted s ∧ Ident f ∧ Dotted d
  | .optional => True

theorem ident_nodot {f : Text} (h : Ident f) : '.' ∉ f := by
  intro hm
  have := h.2 _ hm
  revert this; decide

theorem dotted_dot {s f : Text} (hs : Dotted s) (hf : Ident f) : Dotted (s ++ '.' :: f) := by
  obtain ⟨⟨c, h1, h2⟩, h3⟩ := hs
  refine ⟨⟨c, ?_, h2⟩, ?_⟩
  · cases s with
    | nil => simp at h1
    | cons x s => exact h1
  · intro x hx
    simp only [List.mem_append, List.mem_cons] at hx
    rcases hx with hx | rfl | hx
    · exact h3 x hx
    · exact .inr rfl
    · exact .inl (hf.2 x hx)

theorem reads_loose : Reads looseDecoration LooseDeco where
  read := by
    rintro (⟨s, f, d⟩ | _) r hok ⟨u, rfl⟩
    · obtain ⟨hs, hf, hd⟩ := hok
      have e : resDecoText (.explicitReference s f d) ++ '\n' :: u =
          nl4 ++ ("@explicit_reference".toList ++ '(' :: ' ' :: ((s ++ '.' :: f) ++ ',' :: ' ' :: (d ++ ' ' :: ')' :: '\n' :: u))) := by
        simp only [resDecoText, List.append_assoc, List.cons_append, List.nil_append]
      rw [e]
      refine orElse_left ?_
      refine seq_intro (keyword_at (by rw [skip_nl4]; rfl) (by rfl)) ?_
      refine seq_intro (lit_intro (r := ' ' :: ((s ++ '.' :: f) ++ ',' :: ' ' :: (d ++ ' ' :: ')' :: '\n' :: u))) rfl) ?_
      refine seq_intro (qualified_stops (dotted_dot hs hf) (stops_cons _ rfl)) ?_
      refine seq_intro (lit_intro rfl) ?_
      refine seq_intro (qualified_stops hd (stops_cons _ rfl)) ?_
      refine seq_intro (lit_intro rfl) ?_
      obtain ⟨h1, h2⟩ := lastDot (s := s) (ident_nodot hf)
      show Res.ok _ _ = _
      rw [h1, h2]
    · simp only [resDecoText, List.append_assoc]
      refine orElse_right ?_ ?_
      · refine seq_fail (keyword_none ?_)
        rw [skip_nl4]; rfl
      · exact seq_intro (keyword_at (by rw [skip_nl4]; rfl) (by rfl)) rfl
  none := by
    intro t c r ht hc
    exact orElse_right (seq_fail (keyword_fail ht hc.symm)) (seq_fail (keyword_fail ht hc.symm))

/-! ## Namespaces -/

def openText (n : Text) : Text := '\n' :: ("namespace".toList ++ ' ' :: (n ++ [' ', '{']))

/-- A definition in its namespaces, after a blank line. -/
def nestedText (ns : List Text) (e : PEntry) : Text :=
  '\n' :: (ns.flatMap openText ++ (entryText e ++ ns.flatMap fun _ => ['\n', '}']))

/-- What the schema of several definitions looks like. -/
def sourceText (es : List (List Text × PEntry)) : Text := es.flatMap (fun e => nestedText e.1 e.2) ++ ['\n', '\n']

theorem entryText_skip {ok : PResDeco → Prop} {e : PEntry} (h : NormalEntry ok e) (r : Text) :
    ∃ c u, skipWs (entryText e ++ r) = c :: u ∧ 'n' ≠ c := by
  cases e with
  | comment => exact h.elim
  | enumeration e => exact ⟨_, _, rfl, by decide⟩
  | struct s => exact ⟨_, _, rfl, by decide⟩
  | constant c => exact ⟨_, _, rfl, by decide⟩
  | archive a =>
    obtain ⟨c, u, h1, h2⟩ := archiveText_skip a r
    exact ⟨c, u, h1, by rcases h2 with rfl | rfl <;> decide⟩

theorem entryText_ne {ok : PResDeco → Prop} {e : PEntry} (h : NormalEntry ok e) : entryText e ≠ [] := by
  cases e with
  | comment => exact h.elim
  | enumeration e => exact List.cons_ne_nil _ _
  | struct s => exact List.cons_ne_nil _ _
  | constant c => exact List.cons_ne_nil _ _
  | archive a => simp [entryText, archiveText]

/-- The namespace of the grammar with one definition. -/
theorem namespace_read {n : Text} (hn : Dotted n) {e : PEntry} (he : NormalEntry OkDeco e) {r : Text} (hr : ∃ u, r = '\n' :: '\n' :: u ∧ ∀ c ∈ (skipWs u).head?, c ≠ '/') :
    namespaceDecl (nestedText [n] e ++ r) = .ok (blockOf n [e]) r := by
  have e1 : nestedText [n] e ++ r = '\n' :: '\n' :: ("namespace".toList ++ ' ' :: (n ++ ' ' :: '{' :: (entryText e ++ '\n' :: '}' :: r))) := by
    simp only [nestedText, openText, List.flatMap_cons, List.flatMap_nil, List.append_nil, List.append_assoc, List.cons_append, List.nil_append]
  rw [e1]
  refine seq_intro (keyword_at rfl (by rfl)) ?_
  refine seq_intro (qualified_stops hn (stops_cons _ rfl)) ?_
  refine seq_intro (lit_intro (s := ['{']) (r := entryText e ++ '\n' :: '}' :: r) rfl) ?_
  have hm := many_intro (p := entry) (txt := entryText) (v := id) (l := [e]) (stop := '\n' :: '}' :: r) (fun x hx r => by
    simp only [List.mem_singleton] at hx
    subst hx
    exact entry_read reads_grammar he r) (fun x hx => by
    simp only [List.mem_singleton] at hx
    subst hx
    exact entryText_ne he) (entry_none resourceDecoration r)
  rw [List.map_id, List.flatMap_cons, List.flatMap_nil, List.append_nil] at hm
  refine seq_intro hm ?_
  refine seq_intro (lit_intro (s := ['}']) (r := r) rfl) ?_
  obtain ⟨u, rfl, hu⟩ := hr
  have hc : comment ('\n' :: '\n' :: u) = .fail := by
    have hs : skipWs ('\n' :: '\n' :: u) = skipWs u := rfl
    cases h : skipWs u with
    | nil => unfold comment; rw [hs, h]; rfl
    | cons c v => exact comment_fail (hs.trans h) (hu c (by rw [h]; rfl))
  exact seq_intro (opt_none hc) rfl

theorem nestedText_head {n : Text} (e : PEntry) (r : Text) :
    ∃ u, nestedText [n] e ++ r = '\n' :: '\n' :: 'n' :: 'a' :: 'm' :: u := ⟨_, rfl⟩

/-- What `parseSource` makes of a list of definitions, each in a namespace of its own. -/
theorem source_read {es : List (Text × PEntry)} (hes : es ≠ []) (hn : ∀ e ∈ es, Dotted e.1) (he : ∀ e ∈ es, NormalEntry OkDeco e.2) :
    parseSource (sourceText (es.map fun e => ([e.1], e.2))) = .ok (es.map fun e => blockOf e.1 [e.2]) := by
  have e0 : sourceText (es.map fun e => ([e.1], e.2)) = es.flatMap (fun e => nestedText [e.1] e.2) ++ ['\n', '\n'] := by
    unfold sourceText
    rw [List.flatMap_map]
  rw [e0]
  have hread : many1 namespaceDecl (es.flatMap (fun e => nestedText [e.1] e.2) ++ ['\n', '\n']) = .ok (es.map fun e => blockOf e.1 [e.2]) ['\n', '\n'] := by
    have key : ∀ (e : Text × PEntry), Dotted e.1 → NormalEntry OkDeco e.2 → ∀ r, (∃ u, r = '\n' :: '\n' :: u ∧ ∀ c ∈ (skipWs u).head?, c ≠ '/') →
        namespaceDecl (nestedText [e.1] e.2 ++ r) = .ok (blockOf e.1 [e.2]) r := fun e h1 h2 r hr => namespace_read h1 h2 hr
    have hR : ∀ (e : Text × PEntry) r, ∃ u, nestedText [e.1] e.2 ++ r = '\n' :: '\n' :: u ∧ ∀ c ∈ (skipWs u).head?, c ≠ '/' := by
      intro e r
      obtain ⟨u, hu⟩ := nestedText_head (n := e.1) e.2 r
      exact ⟨_, hu, head_stop' (by decide)⟩
    have hstop : ∃ u, ['\n', '\n'] = '\n' :: '\n' :: u ∧ ∀ c ∈ (skipWs u).head?, c ≠ '/' := ⟨[], rfl, by intro c hc; simp [skipWs] at hc⟩
    have hs : namespaceDecl ['\n', '\n'] = .fail := seq_fail (keyword_none rfl)
    obtain ⟨x, es, rfl⟩ := List.exists_cons_of_ne_nil hes
    rw [List.flatMap_cons, List.append_assoc]
    have hm := many_intro' (p := namespaceDecl) (txt := fun e : Text × PEntry => nestedText [e.1] e.2) (v := fun e => blockOf e.1 [e.2]) (l := es) (stop := ['\n', '\n'])
      (fun r => ∃ u, r = '\n' :: '\n' :: u ∧ ∀ c ∈ (skipWs u).head?, c ≠ '/') (fun e hm r hr => key e (hn e (by simp [hm])) (he e (by simp [hm])) r hr)
      (fun e _ r => hR e r) hstop (fun e _ => by unfold nestedText; simp) hs
    refine seq_intro (key x (hn x (by simp)) (he x (by simp)) _ ?_) (seq_intro hm rfl)
    cases es with
    | nil => exact hstop
    | cons y es => rw [List.flatMap_cons, List.append_assoc]; exact hR y _
  have hcom : many comment (es.flatMap (fun e => nestedText [e.1] e.2) ++ ['\n', '\n']) = .ok [] (es.flatMap (fun e => nestedText [e.1] e.2) ++ ['\n', '\n']) := by
    refine many_none ?_
    obtain ⟨x, es, rfl⟩ := List.exists_cons_of_ne_nil hes
    rw [List.flatMap_cons, List.append_assoc]
    exact comment_fail (d := 'n') rfl (by decide)
  unfold parseSource
  rw [if_neg (by simp)]
  have : flatdataGrammar (es.flatMap (fun e => nestedText [e.1] e.2) ++ ['\n', '\n']) = .ok (es.map fun e => blockOf e.1 [e.2]) ['\n', '\n'] := seq_intro hcom hread
  rw [this]
  rfl

/-- Nested namespaces are not in the grammar. -/
theorem namespace_nested {a b : Text} {ns : List Text} (ha : Dotted a) {e : PEntry} {r : Text} :
    namespaceDecl (nestedText (a :: b :: ns) e ++ r) = .fail := by
  obtain ⟨u, e1⟩ : ∃ u, nestedText (a :: b :: ns) e ++ r = '\n' :: '\n' :: ("namespace".toList ++ ' ' :: (a ++ ' ' :: '{' :: ('\n' :: ("namespace".toList ++ u)))) := by
    refine ⟨' ' :: (b ++ ' ' :: '{' :: (ns.flatMap openText ++ (entryText e ++ ((a :: b :: ns).flatMap (fun _ => ['\n', '}']) ++ r)))), ?_⟩
    simp only [nestedText, openText, List.flatMap_cons, List.append_assoc, List.cons_append, List.nil_append]
  rw [e1]
  refine seq_intro (keyword_at rfl (by rfl)) ?_
  refine seq_intro (qualified_stops ha (stops_cons _ rfl)) ?_
  refine seq_intro (lit_intro (s := ['{']) (r := '\n' :: ("namespace".toList ++ u)) rfl) ?_
  have hc : comment ('\n' :: ("namespace".toList ++ u)) = .fail := comment_fail (d := 'n') rfl (by decide)
  have he : entry ('\n' :: ("namespace".toList ++ u)) = .fail := by
    refine orElse_right ?_ (orElse_right ?_ (orElse_right ?_ (orElse_right ?_ ?_)))
    · exact seq_fail (seq_intro (opt_none hc) (seq_fail (keyword_none rfl)))
    · exact seq_fail (seq_intro (opt_none hc) (seq_fail (keyword_none rfl)))
    · refine seq_fail (seq_intro (opt_none hc) ?_)
      exact seq_intro (many_none (seq_fail (keyword_none rfl))) (seq_fail (keyword_none rfl))
    · exact seq_fail (seq_intro (opt_none hc) (seq_fail (keyword_none rfl)))
    · exact seq_fail hc
  refine seq_intro (many_none he) ?_
  exact seq_fail rfl

/-- A text with definitions the first few of which are in simple namespaces, followed by one in a nested namespace. -/
theorem source_nested {es : List (Text × PEntry)} (hn : ∀ e ∈ es, Dotted e.1) (he : ∀ e ∈ es, NormalEntry OkDeco e.2) {a b : Text} {ns : List Text}
    (ha : Dotted a) {e : PEntry} {r : Text} :
    parseSource (es.flatMap (fun e => nestedText [e.1] e.2) ++ (nestedText (a :: b :: ns) e ++ r)) = .error .parsingError := by
  have key : ∀ (e : Text × PEntry), Dotted e.1 → NormalEntry OkDeco e.2 → ∀ r, (∃ u, r = '\n' :: '\n' :: u ∧ ∀ c ∈ (skipWs u).head?, c ≠ '/') →
      namespaceDecl (nestedText [e.1] e.2 ++ r) = .ok (blockOf e.1 [e.2]) r := fun e h1 h2 r hr => namespace_read h1 h2 hr
  have hR : ∀ (e : Text × PEntry) r, ∃ u, nestedText [e.1] e.2 ++ r = '\n' :: '\n' :: u ∧ ∀ c ∈ (skipWs u).head?, c ≠ '/' := by
    intro e r
    obtain ⟨u, hu⟩ := nestedText_head (n := e.1) e.2 r
    exact ⟨_, hu, head_stop' (by decide)⟩
  obtain ⟨v, hv⟩ : ∃ v, nestedText (a :: b :: ns) e ++ r = '\n' :: '\n' :: 'n' :: v := ⟨_, rfl⟩
  have hstop : ∃ u, nestedText (a :: b :: ns) e ++ r = '\n' :: '\n' :: u ∧ ∀ c ∈ (skipWs u).head?, c ≠ '/' := ⟨_, hv, head_stop' (by decide)⟩
  have hs : namespaceDecl (nestedText (a :: b :: ns) e ++ r) = .fail := namespace_nested ha
  generalize hstopdef : nestedText (a :: b :: ns) e ++ r = stop at hv hstop hs
  have hcom : many comment (es.flatMap (fun e => nestedText [e.1] e.2) ++ stop) = .ok [] (es.flatMap (fun e => nestedText [e.1] e.2) ++ stop) := by
    refine many_none ?_
    cases es with
    | nil => rw [hv]; exact comment_fail (d := 'n') rfl (by decide)
    | cons x es => rw [List.flatMap_cons, List.append_assoc]; exact comment_fail (d := 'n') rfl (by decide)
  unfold parseSource
  rw [if_neg (by rw [hv]; simp)]
  cases es with
  | nil =>
    have : flatdataGrammar ([].flatMap (fun e : Text × PEntry => nestedText [e.1] e.2) ++ stop) = .fail := seq_intro hcom (seq_fail hs)
    rw [this]
    rfl
  | cons x es =>
    have hread : many1 namespaceDecl ((x :: es).flatMap (fun e => nestedText [e.1] e.2) ++ stop) = .ok ((x :: es).map fun e => blockOf e.1 [e.2]) stop := by
      rw [List.flatMap_cons, List.append_assoc]
      have hm := many_intro' (p := namespaceDecl) (txt := fun e : Text × PEntry => nestedText [e.1] e.2) (v := fun e => blockOf e.1 [e.2]) (l := es) (stop := stop)
        (fun r => ∃ u, r = '\n' :: '\n' :: u ∧ ∀ c ∈ (skipWs u).head?, c ≠ '/') (fun e hm r hr => key e (hn e (by simp [hm])) (he e (by simp [hm])) r hr)
        (fun e _ r => hR e r) hstop (fun e _ => by unfold nestedText; simp) hs
      refine seq_intro (key x (hn x (by simp)) (he x (by simp)) _ ?_) (seq_intro hm rfl)
      cases es with
      | nil => exact hstop
      | cons y es => rw [List.flatMap_cons, List.append_assoc]; exact hR y _
    have : flatdataGrammar ((x :: es).flatMap (fun e => nestedText [e.1] e.2) ++ stop) = .ok ((x :: es).map fun e => blockOf e.1 [e.2]) stop := seq_intro hcom hread
    rw [this]
    simp only
    rw [if_neg (by rw [hv]; simp [skipWs, isWs])]
    rfl

/-! ## Nested namespaces -/

def openDecl : Parser Text := do
  keyword "namespace".toList
  let n ← word isIdChar isIdChar
  lit ['{']
  pure n

def nestedDecl : Parser (List Text × PEntry) := do
  let ns ← many openDecl
  let e ← entryG looseDecoration
  let _ ← many (lit ['}'])
  pure (ns, e)

/-- Components of namespaces. -/
def NsName (n : Text) : Prop := n ≠ [] ∧ ∀ c ∈ n, IdChar c

theorem nsName_head {n : Text} (h : NsName n) : ∃ c u, n = c :: u ∧ IdChar c := by
  obtain ⟨c, u, rfl⟩ := List.exists_cons_of_ne_nil h.1
  exact ⟨c, u, rfl, h.2 c (by simp)⟩

theorem idChar_ws {c : Char} (h : IdChar c) : isWs c = false := by
  rcases h with h | h
  · exact idStart_ws h
  · exact digit_ws h

theorem open_read {n : Text} (h : NsName n) (r : Text) : openDecl (openText n ++ r) = .ok n r := by
  have e1 : openText n ++ r = '\n' :: ("namespace".toList ++ ' ' :: (n ++ ' ' :: '{' :: r)) := by
    simp only [openText, List.append_assoc, List.cons_append, List.nil_append]
  rw [e1]
  refine seq_intro (keyword_at rfl (by rfl)) ?_
  obtain ⟨c, u, rfl, hc⟩ := nsName_head h
  refine seq_intro (word_intro (w := c :: u) (r := ' ' :: '{' :: r) ?_ ⟨c, rfl, (isIdChar_iff c).mpr hc⟩ (fun x hx => (isIdChar_iff x).mpr (h.2 x hx)) (head_stop rfl)) ?_
  · rw [skip_space]; exact skip_char (idChar_ws hc)
  exact seq_intro (lit_intro rfl) rfl

theorem nested_read {ns : List Text} (hne : ns ≠ []) (hns : ∀ n ∈ ns, NsName n) {e : PEntry} (he : NormalEntry LooseDeco e) {r : Text} (hr : lit ['}'] r = .fail) :
    nestedDecl (nestedText ns e ++ r) = .ok (ns, e) r := by
  obtain ⟨n, ms, rfl⟩ := List.exists_cons_of_ne_nil hne
  obtain ⟨rest, hrest⟩ : ∃ x, x = entryText e ++ (((n :: ms).flatMap fun _ => ['\n', '}']) ++ r) := ⟨_, rfl⟩
  have e1 : nestedText (n :: ms) e ++ r = '\n' :: (openText n ++ (ms.flatMap openText ++ rest)) := by
    rw [hrest]
    simp only [nestedText, List.flatMap_cons, List.append_assoc, List.cons_append]
  have hopen : many openDecl ('\n' :: (openText n ++ (ms.flatMap openText ++ rest))) = .ok (n :: ms) rest := by
    have h1 : openDecl ('\n' :: (openText n ++ (ms.flatMap openText ++ rest))) = .ok n (ms.flatMap openText ++ rest) :=
      open_read (hns n (by simp)) _
    have h2 := manyN_intro (p := openDecl) (txt := openText) (v := id) (l := ms) (stop := rest)
      (fun n hn r => open_read (hns n (by simp [hn])) r) (by
        obtain ⟨c, u, h1, h2⟩ := entryText_skip he (((n :: ms).flatMap fun _ => ['\n', '}']) ++ r)
        exact seq_fail (keyword_fail (by rw [hrest]; exact h1) h2)) (openText n ++ (ms.flatMap openText ++ rest)).length (by
        rw [List.length_append, List.length_append]
        have := length_flatMap_le (txt := openText) (l := ms) fun n _ => List.cons_ne_nil _ _
        omega)
    rw [List.map_id] at h2
    unfold many
    simp only [List.length_cons, manyN, h1, h2]
  have hclose : many (lit ['}']) (((n :: ms).flatMap fun _ => ['\n', '}']) ++ r) = .ok ((n :: ms).map fun _ => ()) r :=
    many_intro (v := fun _ => ()) (fun n _ r => lit_intro rfl) (fun n _ => List.cons_ne_nil _ _) hr
  rw [e1]
  refine seq_intro hopen ?_
  rw [hrest]
  refine seq_intro (entry_read reads_loose he _) ?_
  exact seq_intro hclose rfl

/-- A text determines the definitions in it. -/
theorem sourceText_inj {es es' : List (List Text × PEntry)} (h : ∀ e ∈ es, e.1 ≠ [] ∧ (∀ n ∈ e.1, NsName n) ∧ NormalEntry LooseDeco e.2)
    (h' : ∀ e ∈ es', e.1 ≠ [] ∧ (∀ n ∈ e.1, NsName n) ∧ NormalEntry LooseDeco e.2) (heq : sourceText es = sourceText es') : es = es' := by
  have key : ∀ es : List (List Text × PEntry), (∀ e ∈ es, e.1 ≠ [] ∧ (∀ n ∈ e.1, NsName n) ∧ NormalEntry LooseDeco e.2) →
      many nestedDecl (sourceText es) = .ok es ['\n', '\n'] := by
    intro es h
    have := many_intro' (p := nestedDecl) (txt := fun e : List Text × PEntry => nestedText e.1 e.2) (v := fun e => e) (l := es) (stop := ['\n', '\n'])
      (fun r => lit ['}'] r = .fail) (fun e he r hr => nested_read (h e he).1 (h e he).2.1 (h e he).2.2 hr) ?_ rfl (fun e _ => List.cons_ne_nil _ _) ?_
    · rw [List.map_id'] at this
      exact this
    · rintro ⟨ns, e⟩ he r
      obtain ⟨n, ms, hnm⟩ := List.exists_cons_of_ne_nil (h _ he).1
      simp only at hnm
      subst hnm
      exact lit_fail (d := 'n') rfl (by decide)
    · have h1 : openDecl ['\n', '\n'] = .fail := seq_fail (keyword_none rfl)
      refine seq_intro (many_none h1) ?_
      exact seq_fail rfl
  have h1 := key es h
  rw [heq, key es' h'] at h1
  simp only [Res.ok.injEq, and_true] at h1
  exact h1.symm

end Gen
