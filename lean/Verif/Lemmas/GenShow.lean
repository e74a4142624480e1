import Verif.Lemmas.GenRound

/-! # Source texts of records in the layout of the templates, and reading them -/

namespace Gen
open Parser Spec

/-- A line break and an indentation. -/
def nl4 : Text := ['\n', ' ', ' ', ' ', ' ']

theorem skip_ws {ws : Text} (h : ∀ c ∈ ws, isWs c = true) (r : Text) : skipWs (ws ++ r) = skipWs r := by
  induction ws with
  | nil => rfl
  | cons c ws ih =>
    unfold skipWs at ih ⊢
    rw [List.cons_append, List.dropWhile_cons, if_pos (h c (by simp))]
    exact ih fun x hx => h x (by simp [hx])

theorem nl4_ws : ∀ c ∈ nl4, isWs c = true := by decide

theorem skip_nl4 (r : Text) : skipWs (nl4 ++ r) = skipWs r := skip_ws nl4_ws r

theorem keyword_at {k t r : Text} {c : Char} (ht : skipWs t = k ++ c :: r) (hc : isKeywordChar c = false) : keyword k t = .ok () (c :: r) :=
  keyword_intro ht fun x hx => by
    simp only [List.head?_cons, Option.mem_some_iff] at hx
    exact hx ▸ hc

/-! ## Fields -/

def decoText : PFieldDeco → Text
  | .range n => nl4 ++ "@range".toList ++ '(' :: ' ' :: (n ++ [' ', ')'])
  | .constRef n => nl4 ++ "@const".toList ++ '(' :: ' ' :: (n ++ [' ', ')'])
  | .invalidValue n => nl4 ++ "@optional".toList ++ '(' :: ' ' :: (n ++ [' ', ')'])

def LexicalDeco : PFieldDeco → Prop
  | .range n => Ident n
  | .constRef n => Dotted n
  | .invalidValue n => Dotted n

theorem deco_read {d : PFieldDeco} (h : LexicalDeco d) (r : Text) : fieldDecoration (decoText d ++ r) = .ok d r := by
  cases d with
  | range n =>
    simp only [decoText, List.append_assoc, List.cons_append, List.nil_append]
    refine orElse_left ?_
    refine seq_intro (opt_none (comment_fail (d := '@') (by rw [skip_nl4]; rfl) (by decide))) ?_
    refine seq_intro (keyword_at (by rw [skip_nl4]; rfl) (by rfl)) ?_
    refine seq_intro (must_intro (lit_intro rfl)) ?_
    refine seq_intro (must_intro (identifier_stops h (stops_cons _ rfl))) ?_
    exact seq_intro (must_intro (lit_intro rfl)) rfl
  | constRef n =>
    simp only [decoText, List.append_assoc, List.cons_append, List.nil_append]
    refine orElse_right ?_ (orElse_left ?_)
    · refine seq_intro (opt_none (comment_fail (d := '@') (by rw [skip_nl4]; rfl) (by decide))) (seq_fail (keyword_none ?_))
      rw [skip_nl4]; rfl
    refine seq_intro (keyword_at (by rw [skip_nl4]; rfl) (by rfl)) ?_
    refine seq_intro (must_intro (lit_intro rfl)) ?_
    refine seq_intro (must_intro (qualified_stops h (stops_cons _ rfl))) ?_
    exact seq_intro (must_intro (lit_intro rfl)) rfl
  | invalidValue n =>
    simp only [decoText, List.append_assoc, List.cons_append, List.nil_append]
    refine orElse_right ?_ (orElse_right ?_ ?_)
    · refine seq_intro (opt_none (comment_fail (d := '@') (by rw [skip_nl4]; rfl) (by decide))) (seq_fail (keyword_none ?_))
      rw [skip_nl4]; rfl
    · refine seq_fail (keyword_none ?_)
      rw [skip_nl4]; rfl
    refine seq_intro (keyword_at (by rw [skip_nl4]; rfl) (by rfl)) ?_
    refine seq_intro (must_intro (lit_intro rfl)) ?_
    refine seq_intro (must_intro (qualified_stops h (stops_cons _ rfl))) ?_
    exact seq_intro (must_intro (lit_intro rfl)) rfl

/-- Nothing that starts like this is a decoration. -/
theorem deco_none {t r : Text} {c : Char} (ht : skipWs t = c :: r) (h1 : c ≠ '@') (h2 : c ≠ '/') : fieldDecoration t = .fail := by
  refine orElse_right ?_ (orElse_right ?_ ?_)
  · exact seq_intro (opt_none (comment_fail ht h2)) (seq_fail (keyword_fail ht h1.symm))
  · exact seq_fail (keyword_fail ht h1.symm)
  · exact seq_fail (keyword_fail ht h1.symm)

/-- A field with its width. -/
def fieldText (f : PField) (w : Nat) : Text :=
  f.decorations.flatMap decoText ++ nl4 ++ f.name ++ ' ' :: ':' :: ' ' :: (f.type ++ ' ' :: ':' :: ' ' :: (natText w ++ [';']))

theorem decoText_head (d : PFieldDeco) : ∃ r, decoText d = '\n' :: r := by
  cases d <;> exact ⟨_, rfl⟩

theorem decoText_skip (d : PFieldDeco) (r : Text) : ∃ u, skipWs (decoText d ++ r) = '@' :: u := by
  cases d <;> simp only [decoText, List.append_assoc, skip_nl4] <;> exact ⟨_, rfl⟩

theorem idStart_ne {c d : Char} (h : IdStart c) (hd : ¬ IdStart d) : c ≠ d := fun e => hd (e ▸ h)

theorem skip_name {w : Text} (h : Ident w) (r : Text) : ∃ c u, skipWs (nl4 ++ (w ++ r)) = c :: u ∧ IdStart c := by
  obtain ⟨c, u, rfl, hc⟩ := ident_head h
  exact ⟨c, u ++ r, by rw [skip_nl4]; exact skip_char (idStart_ws hc), hc⟩

theorem number_read {n : Nat} {c : Char} {r : Text} (hc : isNum c = false) : bitWidth (' ' :: (natText n ++ c :: r)) = .ok n (c :: r) :=
  bitWidth_intro (by rw [skip_space, skip_natText]) fun x hx => by
    simp only [List.head?_cons, Option.mem_some_iff] at hx
    exact hx ▸ hc

theorem field_read {f : PField} {w : Nat} (h : LexicalField f) (hw : f.width = some w) (r : Text) : fieldDecl (fieldText f w ++ r) = .ok f r := by
  obtain ⟨hn, ht, hd⟩ := h
  have hd : ∀ d ∈ f.decorations, LexicalDeco d := by
    intro d hdm
    have := hd d hdm
    cases d <;> exact this
  unfold fieldText
  simp only [List.append_assoc, List.cons_append, List.nil_append]
  have hc : ∃ c u, skipWs (f.decorations.flatMap decoText ++ (nl4 ++ (f.name ++ ' ' :: ':' :: ' ' :: (f.type ++ ' ' :: ':' :: ' ' :: (natText w ++ ';' :: r))))) = c :: u ∧ c ≠ '/' := by
    cases hds : f.decorations with
    | nil =>
      obtain ⟨c, u, h1, h2⟩ := skip_name hn (' ' :: ':' :: ' ' :: (f.type ++ ' ' :: ':' :: ' ' :: (natText w ++ ';' :: r)))
      exact ⟨c, u, h1, idStart_ne h2 (by decide)⟩
    | cons d ds =>
      rw [List.flatMap_cons, List.append_assoc]
      obtain ⟨u, hu⟩ := decoText_skip d (ds.flatMap decoText ++ (nl4 ++ (f.name ++ ' ' :: ':' :: ' ' :: (f.type ++ ' ' :: ':' :: ' ' :: (natText w ++ ';' :: r)))))
      exact ⟨'@', u, hu, by decide⟩
  obtain ⟨c, u, hcu, hc⟩ := hc
  refine seq_intro (opt_none (comment_fail hcu hc)) ?_
  have hm := many_intro (p := fieldDecoration) (txt := decoText) (v := id) (l := f.decorations)
    (stop := nl4 ++ (f.name ++ ' ' :: ':' :: ' ' :: (f.type ++ ' ' :: ':' :: ' ' :: (natText w ++ ';' :: r))))
    (fun d hdm r => deco_read (hd d hdm) r) (fun d _ => by obtain ⟨u, hu⟩ := decoText_head d; rw [hu]; simp) (by
      obtain ⟨c, u, h1, h2⟩ := skip_name hn (' ' :: ':' :: ' ' :: (f.type ++ ' ' :: ':' :: ' ' :: (natText w ++ ';' :: r)))
      exact deco_none h1 (idStart_ne h2 (by decide)) (idStart_ne h2 (by decide)))
  rw [List.map_id] at hm
  refine seq_intro hm ?_
  refine seq_intro (identifier_intro hn (by rw [skip_nl4, skip_ident hn]) fun x hx => ?_) ?_
  · simp only [List.head?_cons, Option.mem_some_iff] at hx
    subst hx; rfl
  refine seq_intro (must_intro (lit_intro rfl)) ?_
  refine seq_intro (must_intro (qualified_stops ht (stops_cons _ rfl))) ?_
  refine seq_intro (opt_some (seq_intro (lit_intro (r := ' ' :: (natText w ++ ';' :: r)) rfl) (number_read (by rfl)))) ?_
  refine seq_intro (must_intro (lit_intro rfl)) ?_
  show Res.ok _ _ = _
  obtain ⟨a, b, c, d⟩ := f
  simp only at hw
  subst hw
  rfl

/-! ## Structures -/

/-- Fields with an explicit width. -/
def fieldLine (f : PField) : Text := fieldText f (f.width.getD 0)

def structText (s : PStruct) : Text :=
  '\n' :: ("struct".toList ++ ' ' :: (s.name ++ '\n' :: '{' :: (s.fields.flatMap fieldLine ++ ['\n', '}'])))

def NormalStruct (s : PStruct) : Prop := Ident s.name ∧ s.fields ≠ [] ∧ ∀ f ∈ s.fields, LexicalField f ∧ f.width ≠ none

theorem fieldLine_ne (f : PField) : fieldLine f ≠ [] := by
  unfold fieldLine fieldText
  simp [nl4]

theorem struct_read {s : PStruct} (h : NormalStruct s) (r : Text) : structDecl (structText s ++ r) = .ok s r := by
  obtain ⟨hn, hf, hl⟩ := h
  unfold structText
  simp only [List.append_assoc, List.cons_append, List.nil_append]
  refine seq_intro (opt_none (comment_fail (d := 's') rfl (by decide))) ?_
  refine seq_intro (keyword_at rfl (by rfl)) ?_
  refine seq_intro (must_intro (identifier_stops hn (stops_cons _ rfl))) ?_
  refine seq_intro (must_intro (lit_intro rfl)) ?_
  have hm := many1_intro (p := fieldDecl) (txt := fieldLine) (v := id) (l := s.fields) (stop := '\n' :: '}' :: r) hf ?_ (fun f _ => fieldLine_ne f) ?_
  rotate_left
  · intro f hfm r
    obtain ⟨h1, h2⟩ := hl f hfm
    refine field_read h1 ?_ r
    obtain ⟨w, hw⟩ := Option.ne_none_iff_exists'.mp h2
    rw [hw]; rfl
  · refine seq_intro (opt_none (comment_fail (d := '}') rfl (by decide))) ?_
    refine seq_intro (many_none (deco_none (c := '}') rfl (by decide) (by decide))) ?_
    exact seq_fail (identifier_fail (c := '}') rfl rfl)
  rw [List.map_id] at hm
  refine seq_intro (must_intro hm) ?_
  exact seq_intro (must_intro (lit_intro rfl)) rfl

/-! ## Enumerations -/

def enumValueText (v : Text × Int) : Text := nl4 ++ v.1 ++ ' ' :: '=' :: ' ' :: intText v.2

theorem enumValue_read {v : Text × Int} (h : Ident v.1) (r : Text) : enumValue (enumValueText v ++ ',' :: r) = .ok (v.1, some v.2) (',' :: r) := by
  unfold enumValueText
  simp only [List.append_assoc, List.cons_append, List.nil_append]
  obtain ⟨c, u, h1, h2⟩ := skip_name h (' ' :: '=' :: ' ' :: (intText v.2 ++ ',' :: r))
  refine seq_intro (opt_none (comment_fail h1 (idStart_ne h2 (by decide)))) ?_
  refine seq_intro (identifier_intro h (by rw [skip_nl4, skip_ident h]) fun x hx => ?_) ?_
  · simp only [List.head?_cons, Option.mem_some_iff] at hx
    subst hx; rfl
  refine seq_intro (opt_some (seq_intro (lit_intro (r := ' ' :: (intText v.2 ++ ',' :: r)) rfl) (signed_intro (by rw [skip_space]) fun x hx => ?_))) rfl
  simp only [List.head?_cons, Option.mem_some_iff] at hx
  subst hx; exact ⟨rfl, by decide⟩

/-- The values of an enumeration in the layout of the template. -/
def enumText (n : Text) (b : BasicName) (w : Nat) (vs : List (Text × Int)) : Text :=
  '\n' :: ("enum".toList ++ ' ' :: (n ++ ' ' :: ':' :: ' ' :: (b.text ++ ' ' :: ':' :: ' ' :: (natText w ++ '\n' :: '{' ::
    (vs.flatMap (fun v => enumValueText v ++ [',']) ++ ['\n', '}'])))))

theorem flatMap_shift {vs : List (Text × Int)} (v : Text × Int) (r : Text) :
    (v :: vs).flatMap (fun v => enumValueText v ++ [',']) ++ r = enumValueText v ++ (vs.flatMap (fun v => ',' :: enumValueText v) ++ ',' :: r) := by
  induction vs generalizing v with
  | nil => simp
  | cons x vs ih =>
    rw [List.flatMap_cons, List.append_assoc, ih]
    simp

theorem enum_read {n : Text} {b : BasicName} {w : Nat} {vs : List (Text × Int)} (hn : Ident n) (hv : vs ≠ []) (hvs : ∀ v ∈ vs, Ident v.1) (r : Text) :
    enumDecl (enumText n b w vs ++ r) = .ok { name := n, type := b, width := some w, values := vs.map fun v => (v.1, some v.2) } r := by
  unfold enumText
  simp only [List.append_assoc, List.cons_append, List.nil_append]
  refine seq_intro (opt_none (comment_fail (d := 'e') rfl (by decide))) ?_
  refine seq_intro (keyword_at rfl (by rfl)) ?_
  refine seq_intro (identifier_stops hn (stops_cons _ rfl)) ?_
  refine seq_intro (lit_intro rfl) ?_
  refine seq_intro (basicType_intro b _) ?_
  refine seq_intro (opt_some (seq_intro (lit_intro (r := ' ' :: (natText w ++ '\n' :: '{' :: (vs.flatMap (fun v => enumValueText v ++ [',']) ++ '\n' :: '}' :: r))) rfl)
    (number_read (by rfl)))) ?_
  refine seq_intro (lit_intro (s := ['{']) (r := vs.flatMap (fun v => enumValueText v ++ [',']) ++ '\n' :: '}' :: r) rfl) ?_
  obtain ⟨v, vs, rfl⟩ := List.exists_cons_of_ne_nil hv
  rw [flatMap_shift]
  have hm : many (do lit [',']; enumValue) (vs.flatMap (fun v => ',' :: enumValueText v) ++ ',' :: '\n' :: '}' :: r) =
      .ok (vs.map fun v => (v.1, some v.2)) (',' :: '\n' :: '}' :: r) := by
    refine many_intro' (fun r => ∃ u, r = ',' :: u) ?_ (fun x _ r => ⟨_, rfl⟩) ⟨_, rfl⟩ (by simp) ?_
    · rintro x hx _ ⟨u, rfl⟩
      exact seq_intro (u := enumValueText x ++ ',' :: u) (lit_intro rfl) (enumValue_read (hvs x (by simp [hx])) u)
    · refine seq_intro (u := '\n' :: '}' :: r) (lit_intro rfl) ?_
      refine seq_intro (opt_none (comment_fail (d := '}') rfl (by decide))) ?_
      exact seq_fail (identifier_fail (c := '}') rfl rfl)
  have hfirst : enumValue (enumValueText v ++ (vs.flatMap (fun v => ',' :: enumValueText v) ++ ',' :: '\n' :: '}' :: r)) =
      .ok (v.1, some v.2) (vs.flatMap (fun v => ',' :: enumValueText v) ++ ',' :: '\n' :: '}' :: r) := by
    cases vs with
    | nil => exact enumValue_read (hvs v (by simp)) _
    | cons x vs => exact enumValue_read (hvs v (by simp)) _
  refine seq_intro (seq_intro hfirst (seq_intro hm rfl)) ?_
  refine seq_intro (opt_some (lit_intro (s := [',']) (r := '\n' :: '}' :: r) rfl)) ?_
  exact seq_intro (lit_intro rfl) rfl

/-! ## Constants -/

def constantText (c : PConstant) : Text :=
  '\n' :: ("const".toList ++ ' ' :: (c.type.text ++ ' ' :: (c.name ++ ' ' :: '=' :: ' ' :: (intText c.value ++ [';']))))

theorem constant_read {c : PConstant} (h : Ident c.name) (r : Text) : constantDecl (constantText c ++ r) = .ok c r := by
  unfold constantText
  simp only [List.append_assoc, List.cons_append, List.nil_append]
  refine seq_intro (opt_none (comment_fail (d := 'c') rfl (by decide))) ?_
  refine seq_intro (keyword_at rfl (by rfl)) ?_
  refine seq_intro (basicType_intro c.type _) ?_
  refine seq_intro (identifier_stops h (stops_cons _ rfl)) ?_
  refine seq_intro (lit_intro rfl) ?_
  refine seq_intro (signed_intro (by rw [skip_space]) fun x hx => ?_) ?_
  · simp only [List.head?_cons, Option.mem_some_iff] at hx
    subst hx; exact ⟨rfl, by decide⟩
  exact seq_intro (lit_intro rfl) rfl

/-! ## Archives -/

def resTypeText : PResType → Text
  | .vector t => "vector".toList ++ '<' :: ' ' :: (t ++ [' ', '>'])
  | .multivector w ts => "multivector".toList ++ '<' :: ' ' :: (natText w ++ ',' :: ' ' :: (commaSeparated ts ++ [' ', '>']))
  | .object t => t
  | .rawData => "raw_data".toList
  | .archive t => "archive".toList ++ ' ' :: t

/-- Objects are given by their full path. -/
def NormalType : PResType → Prop
  | .object t => Dotted t ∧ t.head? = some '.'
  | t => LexicalType t

theorem vectorType_read {t : Text} (h : Dotted t) (r : Text) : resourceType (' ' :: ("vector".toList ++ '<' :: ' ' :: (t ++ ' ' :: '>' :: ';' :: r))) = .ok (.vector t) (';' :: r) := by
  refine orElse_right (seq_fail (keyword_none rfl)) (orElse_left ?_)
  refine seq_intro (keyword_at rfl (by rfl)) ?_
  refine seq_intro (must_intro (lit_intro rfl)) ?_
  refine seq_intro (must_intro (qualified_stops h (stops_cons _ rfl))) ?_
  exact seq_intro (must_intro (lit_intro rfl)) rfl

theorem multivectorType_read {w : Nat} {ts : List Text} (h1 : ts ≠ []) (h2 : ∀ t ∈ ts, Dotted t) (r : Text) :
    resourceType (' ' :: ("multivector".toList ++ '<' :: ' ' :: (natText w ++ ',' :: ' ' :: (commaSeparated ts ++ ' ' :: '>' :: ';' :: r)))) =
      .ok (.multivector w ts) (';' :: r) := by
  refine orElse_right (seq_fail (keyword_none rfl)) (orElse_right (seq_fail (keyword_none rfl)) (orElse_left ?_))
  refine seq_intro (keyword_at rfl (by rfl)) ?_
  refine seq_intro (must_intro (lit_intro rfl)) ?_
  refine seq_intro (must_intro (number_read (by rfl))) ?_
  refine seq_intro (must_intro (lit_intro rfl)) ?_
  refine seq_intro (must_intro (qualifiedList_intro (r := ';' :: r) (d := '>') h1 h2 (by decide) (by rfl))) ?_
  exact seq_intro (must_intro (lit_intro rfl)) rfl

theorem objectType_read {t : Text} (h1 : Dotted t) (h2 : t.head? = some '.') (r : Text) : resourceType (' ' :: (t ++ ';' :: r)) = .ok (.object t) (';' :: r) := by
  have hs : ∃ u, skipWs (' ' :: (t ++ ';' :: r)) = '.' :: u := by
    rw [skip_space, skip_dotted h1]
    cases t with
    | nil => simp at h2
    | cons c t => simp only [List.head?_cons, Option.some.injEq] at h2; subst h2; exact ⟨_, rfl⟩
  obtain ⟨u, hu⟩ := hs
  refine orElse_right (seq_fail (keyword_fail hu (by decide))) (orElse_right (seq_fail (keyword_fail hu (by decide)))
    (orElse_right (seq_fail (keyword_fail hu (by decide))) (orElse_right ?_ ?_)))
  · exact seq_intro (opt_none (comment_fail hu (by decide))) (seq_fail (keyword_fail hu (by decide)))
  · exact seq_intro (qualified_stops h1 (stops_cons _ rfl)) rfl

theorem rawType_read (r : Text) : resourceType (' ' :: ("raw_data".toList ++ ';' :: r)) = .ok .rawData (';' :: r) :=
  orElse_left (seq_intro (keyword_at rfl (by rfl)) rfl)

theorem archiveType_read {t : Text} (h : Dotted t) (r : Text) : resourceType (' ' :: ("archive".toList ++ ' ' :: (t ++ ';' :: r))) = .ok (.archive t) (';' :: r) := by
  refine orElse_right (seq_fail (keyword_none rfl)) (orElse_right (seq_fail (keyword_none rfl))
    (orElse_right (seq_fail (keyword_none rfl)) (orElse_left ?_)))
  refine seq_intro (opt_none (comment_fail (d := 'a') rfl (by decide))) ?_
  refine seq_intro (keyword_at rfl (by rfl)) ?_
  exact seq_intro (qualified_stops h (stops_cons _ rfl)) rfl

theorem resType_read {ty : PResType} (h : NormalType ty) (r : Text) : resourceType (' ' :: (resTypeText ty ++ ';' :: r)) = .ok ty (';' :: r) := by
  cases ty with
  | vector t =>
    have := vectorType_read (t := t) h r
    unfold resTypeText
    simpa only [List.append_assoc, List.cons_append, List.nil_append] using this
  | multivector w ts =>
    obtain ⟨h1, h2⟩ : ts ≠ [] ∧ ∀ t ∈ ts, Dotted t := h
    have := multivectorType_read (w := w) h1 h2 r
    unfold resTypeText
    simpa only [List.append_assoc, List.cons_append, List.nil_append] using this
  | object t => exact objectType_read h.1 h.2 r
  | rawData => exact rawType_read r
  | archive t =>
    have := archiveType_read (t := t) h r
    unfold resTypeText
    simpa only [List.append_assoc, List.cons_append, List.nil_append] using this

def resDecoText : PResDeco → Text
  | .explicitReference s f d => nl4 ++ "@explicit_reference".toList ++ '(' :: ' ' :: (s ++ '.' :: (f ++ ',' :: ' ' :: (d ++ [' ', ')'])))
  | .optional => nl4 ++ "@optional".toList

/-- `resourceDecl` with another reading of decorations. -/
def resourceDeclG (D : Parser PResDeco) : Parser PResource := do
  let _ ← opt comment
  let ds ← many D
  let n ← identifier
  lit [':']
  let ty ← must resourceType
  must (lit [';'])
  pure { name := n, decorations := ds, type := ty }

/-- `archiveDecl` with another reading of decorations. -/
def archiveDeclG (D : Parser PResDeco) : Parser PArchive := do
  let _ ← opt comment
  let bs ← many boundDeco
  keyword "archive".toList
  let n ← must identifier
  must (lit ['{'])
  let rs ← must (many (resourceDeclG D))
  must (lit ['}'])
  pure { name := n, bounds := bs, resources := rs }

/-- `entry` with another reading of decorations. -/
def entryG (D : Parser PResDeco) : Parser PEntry :=
  orElse (do pure (.enumeration (← enumDecl)))
    (orElse (do pure (.struct (← structDecl)))
      (orElse (do pure (.archive (← archiveDeclG D)))
        (orElse (do pure (.constant (← constantDecl))) (do comment; pure .comment))))

theorem entryG_code : entryG resourceDecoration = entry := rfl

/-- How decorations are read. -/
structure Reads (D : Parser PResDeco) (ok : PResDeco → Prop) : Prop where
  read : ∀ d r, ok d → (∃ u, r = '\n' :: u) → D (resDecoText d ++ r) = .ok d r
  none : ∀ t c r, skipWs t = c :: r → c ≠ '@' → D t = .fail

def resourceText (x : PResource) : Text :=
  x.decorations.flatMap resDecoText ++ nl4 ++ x.name ++ ' ' :: ':' :: ' ' :: (resTypeText x.type ++ [';'])

def NormalResource (ok : PResDeco → Prop) (x : PResource) : Prop := Ident x.name ∧ NormalType x.type ∧ ∀ d ∈ x.decorations, ok d

theorem resDecoText_skip (d : PResDeco) (r : Text) : ∃ u, skipWs (resDecoText d ++ r) = '@' :: u := by
  cases d <;> simp only [resDecoText, List.append_assoc, skip_nl4] <;> exact ⟨_, rfl⟩

theorem resDecoText_head (d : PResDeco) (r : Text) : ∃ u, resDecoText d ++ r = '\n' :: u := by
  cases d <;> exact ⟨_, rfl⟩

theorem resource_read {D : Parser PResDeco} {ok : PResDeco → Prop} (hD : Reads D ok) {x : PResource} (h : NormalResource ok x) (r : Text) :
    resourceDeclG D (resourceText x ++ r) = .ok x r := by
  obtain ⟨hn, ht, hd⟩ := h
  unfold resourceText
  simp only [List.append_assoc, List.cons_append, List.nil_append]
  have hc : ∃ c u, skipWs (x.decorations.flatMap resDecoText ++ (nl4 ++ (x.name ++ ' ' :: ':' :: ' ' :: (resTypeText x.type ++ ';' :: r)))) = c :: u ∧ c ≠ '/' := by
    cases hds : x.decorations with
    | nil =>
      obtain ⟨c, u, h1, h2⟩ := skip_name hn (' ' :: ':' :: ' ' :: (resTypeText x.type ++ ';' :: r))
      exact ⟨c, u, h1, idStart_ne h2 (by decide)⟩
    | cons d ds =>
      rw [List.flatMap_cons, List.append_assoc]
      obtain ⟨u, hu⟩ := resDecoText_skip d (ds.flatMap resDecoText ++ (nl4 ++ (x.name ++ ' ' :: ':' :: ' ' :: (resTypeText x.type ++ ';' :: r))))
      exact ⟨'@', u, hu, by decide⟩
  obtain ⟨c, u, hcu, hc⟩ := hc
  refine seq_intro (opt_none (comment_fail hcu hc)) ?_
  have hm := many_intro' (p := D) (txt := resDecoText) (v := id) (l := x.decorations)
    (stop := nl4 ++ (x.name ++ ' ' :: ':' :: ' ' :: (resTypeText x.type ++ ';' :: r))) (fun r => ∃ u, r = '\n' :: u)
    (fun d hdm r hr => hD.read d r (hd d hdm) hr) (fun d _ r => resDecoText_head d r) ⟨_, rfl⟩
    (fun d _ => by obtain ⟨u, hu⟩ := resDecoText_head d []; rw [List.append_nil] at hu; rw [hu]; simp) (by
      obtain ⟨c, u, h1, h2⟩ := skip_name hn (' ' :: ':' :: ' ' :: (resTypeText x.type ++ ';' :: r))
      exact hD.none _ c u h1 (idStart_ne h2 (by decide)))
  rw [List.map_id] at hm
  refine seq_intro hm ?_
  refine seq_intro (identifier_intro hn (by rw [skip_nl4, skip_ident hn]) fun x hx => ?_) ?_
  · simp only [List.head?_cons, Option.mem_some_iff] at hx
    subst hx; rfl
  refine seq_intro (lit_intro rfl) ?_
  refine seq_intro (must_intro (resType_read ht r)) ?_
  exact seq_intro (must_intro (lit_intro rfl)) rfl

def boundText (b : Text × List Text) : Text := '\n' :: ("@bound_implicitly".toList ++ '(' :: ' ' :: (b.1 ++ ' ' :: ':' :: ' ' :: (commaSeparated b.2 ++ [' ', ')'])))

theorem bound_read {b : Text × List Text} (h1 : Ident b.1) (h2 : b.2 ≠ []) (h3 : ∀ x ∈ b.2, Dotted x) (r : Text) : boundDeco (boundText b ++ r) = .ok b r := by
  unfold boundText
  simp only [List.append_assoc, List.cons_append, List.nil_append]
  refine seq_intro (keyword_at rfl (by rfl)) ?_
  refine seq_intro (must_intro (lit_intro rfl)) ?_
  refine seq_intro (must_intro (identifier_stops h1 (stops_cons _ rfl))) ?_
  refine seq_intro (must_intro (lit_intro rfl)) ?_
  refine seq_intro (must_intro (qualifiedList_intro h2 h3 (by decide) (by rfl) _)) ?_
  exact seq_intro (must_intro (lit_intro rfl)) rfl

def archiveText (a : PArchive) : Text :=
  a.bounds.flatMap boundText ++ '\n' :: ("archive".toList ++ ' ' :: (a.name ++ '\n' :: '{' :: (a.resources.flatMap resourceText ++ ['\n', '}'])))

def NormalArchive (ok : PResDeco → Prop) (a : PArchive) : Prop :=
  Ident a.name ∧ (∀ g ∈ a.bounds, Ident g.1 ∧ g.2 ≠ [] ∧ ∀ r ∈ g.2, Dotted r) ∧ ∀ x ∈ a.resources, NormalResource ok x

theorem archiveText_skip (a : PArchive) (r : Text) : ∃ c u, skipWs (archiveText a ++ r) = c :: u ∧ (c = '@' ∨ c = 'a') := by
  unfold archiveText
  cases a.bounds with
  | nil => exact ⟨_, _, rfl, .inr rfl⟩
  | cons b bs => exact ⟨_, _, rfl, .inl rfl⟩

theorem resourceText_ne (x : PResource) : resourceText x ≠ [] := by
  unfold resourceText
  simp [nl4]

theorem archive_read {D : Parser PResDeco} {ok : PResDeco → Prop} (hD : Reads D ok) {a : PArchive} (h : NormalArchive ok a) (r : Text) :
    archiveDeclG D (archiveText a ++ r) = .ok a r := by
  obtain ⟨hn, hb, hr⟩ := h
  obtain ⟨c, u, h1, h2⟩ := archiveText_skip a r
  refine seq_intro (opt_none (comment_fail h1 (by rcases h2 with rfl | rfl <;> decide))) ?_
  unfold archiveText
  simp only [List.append_assoc, List.cons_append, List.nil_append]
  have hm := many_intro (p := boundDeco) (txt := boundText) (v := id) (l := a.bounds)
    (stop := '\n' :: ("archive".toList ++ ' ' :: (a.name ++ '\n' :: '{' :: (a.resources.flatMap resourceText ++ '\n' :: '}' :: r))))
    (fun b hbm r => bound_read (hb b hbm).1 (hb b hbm).2.1 (hb b hbm).2.2 r) (fun b _ => by unfold boundText; simp) (seq_fail (keyword_none rfl))
  rw [List.map_id] at hm
  refine seq_intro hm ?_
  refine seq_intro (keyword_at rfl (by rfl)) ?_
  refine seq_intro (must_intro (identifier_stops hn (stops_cons _ rfl))) ?_
  refine seq_intro (must_intro (lit_intro rfl)) ?_
  have hm := many_intro (p := resourceDeclG D) (txt := resourceText) (v := id) (l := a.resources) (stop := '\n' :: '}' :: r)
    (fun x hx r => resource_read hD (hr x hx) r) (fun x _ => resourceText_ne x) (by
      refine seq_intro (opt_none (comment_fail (d := '}') rfl (by decide))) ?_
      refine seq_intro (many_none (hD.none _ '}' r rfl (by decide))) ?_
      exact seq_fail (identifier_fail (c := '}') rfl rfl))
  rw [List.map_id] at hm
  refine seq_intro (must_intro hm) ?_
  exact seq_intro (must_intro (lit_intro rfl)) rfl

/-! ## Entries -/

/-- An entry other than a comment, with full details. -/
def entryText : PEntry → Text
  | .struct s => structText s
  | .enumeration e => enumText e.name e.type (e.width.getD 0) (e.values.map fun v => (v.1, v.2.getD 0))
  | .constant c => constantText c
  | .archive a => archiveText a
  | .comment => []

def NormalEntry (ok : PResDeco → Prop) : PEntry → Prop
  | .struct s => NormalStruct s
  | .enumeration e => Ident e.name ∧ e.width ≠ none ∧ e.values ≠ [] ∧ ∀ v ∈ e.values, Ident v.1 ∧ v.2 ≠ none
  | .constant c => Ident c.name
  | .archive a => NormalArchive ok a
  | .comment => False

theorem entry_read {D : Parser PResDeco} {ok : PResDeco → Prop} (hD : Reads D ok) {e : PEntry} (h : NormalEntry ok e) (r : Text) :
    entryG D (entryText e ++ r) = .ok e r := by
  cases e with
  | comment => exact h.elim
  | enumeration e =>
    obtain ⟨h1, h2, h3, h4⟩ := h
    refine orElse_left ?_
    have := enum_read (n := e.name) (b := e.type) (w := e.width.getD 0) (vs := e.values.map fun v => (v.1, v.2.getD 0)) h1 (by simpa using h3) (by
      intro v hv
      obtain ⟨x, hx, rfl⟩ := List.mem_map.mp hv
      exact (h4 x hx).1) r
    refine seq_intro this ?_
    have e1 : some (e.width.getD 0) = e.width := by
      obtain ⟨w, hw⟩ := Option.ne_none_iff_exists'.mp h2
      rw [hw]; rfl
    have e2 : ((e.values.map fun v => (v.1, v.2.getD 0)).map fun v => (v.1, some v.2)) = e.values := by
      rw [List.map_map]
      conv_rhs => rw [← List.map_id e.values]
      apply List.map_congr_left
      intro v hv
      obtain ⟨w, hw⟩ := Option.ne_none_iff_exists'.mp (h4 v hv).2
      simp only [Function.comp, hw, Option.getD_some, id]
      rw [← hw]
    show Res.ok _ _ = _
    rw [e1, e2]
  | struct s =>
    refine orElse_right ?_ (orElse_left (seq_intro (struct_read h r) rfl))
    exact seq_fail (seq_intro (opt_none (comment_fail (d := 's') rfl (by decide))) (seq_fail (keyword_none rfl)))
  | archive a =>
    obtain ⟨c, u, h1, h2⟩ := archiveText_skip a r
    have hne : c ≠ '/' ∧ 'e' ≠ c ∧ 's' ≠ c := by rcases h2 with rfl | rfl <;> decide
    refine orElse_right ?_ (orElse_right ?_ (orElse_left (seq_intro (archive_read hD h r) rfl)))
    · exact seq_fail (seq_intro (opt_none (comment_fail h1 hne.1)) (seq_fail (keyword_fail h1 hne.2.1)))
    · exact seq_fail (seq_intro (opt_none (comment_fail h1 hne.1)) (seq_fail (keyword_fail h1 hne.2.2)))
  | constant c =>
    refine orElse_right ?_ (orElse_right ?_ (orElse_right ?_ (orElse_left (seq_intro (constant_read h r) rfl))))
    · exact seq_fail (seq_intro (opt_none (comment_fail (d := 'c') rfl (by decide))) (seq_fail (keyword_none rfl)))
    · exact seq_fail (seq_intro (opt_none (comment_fail (d := 'c') rfl (by decide))) (seq_fail (keyword_none rfl)))
    · refine seq_fail (seq_intro (opt_none (comment_fail (d := 'c') rfl (by decide))) ?_)
      exact seq_intro (many_none (seq_fail (keyword_none rfl))) (seq_fail (keyword_none rfl))

/-- A closing brace is no entry. -/
theorem entry_none (D : Parser PResDeco) (r : Text) : entryG D ('\n' :: '}' :: r) = .fail := by
  have hc : comment ('\n' :: '}' :: r) = .fail := comment_fail (d := '}') rfl (by decide)
  refine orElse_right ?_ (orElse_right ?_ (orElse_right ?_ (orElse_right ?_ ?_)))
  · exact seq_fail (seq_intro (opt_none hc) (seq_fail (keyword_none rfl)))
  · exact seq_fail (seq_intro (opt_none hc) (seq_fail (keyword_none rfl)))
  · refine seq_fail (seq_intro (opt_none hc) ?_)
    exact seq_intro (many_none (seq_fail (keyword_none rfl))) (seq_fail (keyword_none rfl))
  · exact seq_fail (seq_intro (opt_none hc) (seq_fail (keyword_none rfl)))
  · exact seq_fail hc

end Gen
