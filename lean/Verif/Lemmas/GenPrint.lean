import Verif.Lemmas.GenForm
import Verif.Lemmas.GenRead
import Verif.Props.Gen.Index
import Verif.Spec.Normal

/-! # Printed definitions are texts of their records -/

namespace Gen
open Spec Props

/-- Facts about the tree of an accepted text, continued. -/
structure Compiled (t : Tree) : Prop extends Form t where
  rootKind : t.kind = .root
  constants : FieldConstantsOk t
  index : ∀ p n w o m, t.descend p = some n → n.kind = .resource (.multivector w) o m →
    ∀ c ∈ n.children, c.kind = .ref .builtinStructure → c.target = pathText (indexTypePath p w)

theorem compiled {blocks : List PBlock} (hl : ∀ b ∈ blocks, Lexical b) {t : Tree} (h : BuildAst blocks (.ok t)) : Compiled t := by
  have hb : ∀ b ∈ blocks, PlainNames b := fun b hb => lexical_plain (hl b hb)
  obtain ⟨s, _⟩ := buildAst_stages h
  refine { toForm := compiled_form hl h, rootKind := final_root s hb, constants := C54_constants hb h, index := ?_ }
  intro p n w o m hn hk
  exact (stages_index hb s hn hk).2

/-! ## Paths -/

section
variable {t : Tree} (hc : Compiled t)
include hc

theorem Compiled.names {p : Path} : ∀ {n : Tree}, t.descend p = some n → (∀ rk, n.kind ≠ .ref rk) → ∀ k ∈ p, NsName k := by
  induction p using List.reverseRecOn with
  | nil => simp
  | append_singleton p k ih =>
    intro n hn hr x hx
    obtain ⟨m, hm, hmem, hname⟩ := descend_parent hn
    have hmr : ∀ rk, m.kind ≠ .ref rk := by
      intro rk hk
      rw [hc.lk.leaf p m rk hm hk] at hmem; cases hmem
    rcases List.mem_append.mp hx with hx | hx
    · exact ih hm hmr x hx
    · simp only [List.mem_singleton] at hx
      subst hx
      have h1 := hc.name _ _ hn
      have h2 : n.kind ≠ .root := fun e => by simpa using hc.root _ _ hn e
      rw [hname] at h1
      have hid : Ident x → NsName x := by
        intro h
        obtain ⟨c, u, rfl, _⟩ := ident_head h
        exact ⟨by simp, h.2⟩
      cases hk : n.kind <;> rw [hk] at h1
      · exact absurd hk h2
      · exact h1
      all_goals first | exact hid h1 | exact absurd hk (hr _)

theorem Compiled.dotted {p : Path} {n : Tree} (hn : t.descend p = some n) (hr : ∀ rk, n.kind ≠ .ref rk) (hne : n.kind ≠ .root) :
    Dotted (pathText p) ∧ (pathText p).head? = some '.' := by
  have hp : p ≠ [] := by
    rintro rfl
    simp only [Tree.descend, Option.some.injEq] at hn
    exact hne (hn ▸ hc.rootKind)
  have hchars : ∀ c ∈ pathText p, IdChar c ∨ c = '.' := by
    intro c hcm
    unfold pathText at hcm
    obtain ⟨k, hk, hcm⟩ := List.mem_flatMap.mp hcm
    rcases List.mem_cons.mp hcm with rfl | hcm
    · exact .inr rfl
    · exact .inl ((hc.names hn hr k hk).2 c hcm)
  obtain ⟨k, p, rfl⟩ := List.exists_cons_of_ne_nil hp
  exact ⟨⟨⟨'.', rfl, .inr rfl⟩, hchars⟩, rfl⟩

omit hc in
theorem fits_nonref' {rk rk' : RefKind} {k : Kind} (h : KindFits rk k) : k ≠ .ref rk' ∧ k ≠ .root := by
  cases rk <;> simp only [KindFits] at h
  case archive => subst h; simp
  all_goals grind

/-- References are given by full paths. -/
theorem Compiled.target {q : Path} {r : Tree} {rk : RefKind} (hr : t.descend q = some r) (hk : r.kind = .ref rk) :
    ∃ m, refPath t r = .ok r.targetPath ∧ t.descend r.targetPath = some m ∧ KindFits rk m.kind ∧ pathText r.targetPath = r.target ∧
      Dotted r.target ∧ r.target.head? = some '.' := by
  obtain ⟨m, h1, h2, h3, h4⟩ := hc.lk.target hr hk
  obtain ⟨h5, h6⟩ := hc.dotted h2 (fun rk' => (fits_nonref' (rk' := rk') h4).1) (fits_nonref' (rk' := rk) h4).2
  refine ⟨m, ?_, h2, h4, h1.symm, h1 ▸ h5, h1 ▸ h6⟩
  unfold refPath
  rw [h3]; rfl

theorem Compiled.child {q : Path} {n c : Tree} (hn : t.descend q = some n) (hcm : c ∈ n.children) : t.descend (q ++ [c.name]) = some c :=
  descend_child hc.lk.good hn hcm

/-! ## Namespaces -/

omit hc in
theorem flat_prefix (hf : Flat t) {q : Path} : ∀ {n : Tree}, t.descend q = some n → n.kind = .namespace → ∀ i, 0 < i → i ≤ q.length →
    isNamespaceAt t (q.take i) = true := by
  induction q using List.reverseRecOn with
  | nil => intro n _ _ i h1 h2; simp at h2; omega
  | append_singleton q k ih =>
    intro n hn hk i h1 h2
    by_cases hi : i = (q ++ [k]).length
    · subst hi
      rw [List.take_length]
      unfold isNamespaceAt
      rw [hn]; simp [Tree.isNamespace, hk]
    · simp only [List.length_append, List.length_singleton] at h2 hi
      rw [List.take_append_of_le_length (by omega)]
      rcases hf q k n hn hk with rfl | ⟨m, hm, hmk⟩
      · simp at h2 hi; omega
      · exact ih hm hmk i h1 (by omega)

omit hc in
theorem range_take (p : Path) : ((List.range p.length).filterMap fun i => if 0 < i then (p.take i).getLast? else none) = p.dropLast := by
  induction p using List.reverseRecOn with
  | nil => rfl
  | append_singleton p k ih =>
    rw [List.length_append, List.length_singleton, List.range_succ, List.filterMap_append, List.dropLast_concat]
    have h1 : ((List.range p.length).filterMap fun i => if 0 < i then ((p ++ [k]).take i).getLast? else none) = p.dropLast := by
      rw [← ih]
      apply List.filterMap_congr
      intro i hi
      rw [List.mem_range] at hi
      rw [List.take_append_of_le_length (by omega)]
    rw [h1]
    cases p using List.reverseRecOn with
    | nil => rfl
    | append_singleton p x =>
      rw [List.filterMap_cons, List.filterMap_nil, if_pos (by simp), List.take_append_of_le_length (le_refl _), List.take_length]
      simp

/-- The namespaces of a definition are the names above it. -/
theorem Compiled.namespaces (hf : Flat t) {p : Path} {n : Tree} (hn : t.descend p = some n) (hd : Spec.Kind.isDefinition n.kind = true) :
    ∃ ns k, p = ns ++ [k] ∧ n.name = k ∧ ns ≠ [] ∧ namespacesOf t p = ns ∧ ∀ x ∈ ns, NsName x := by
  cases p using List.reverseRecOn with
  | nil =>
    simp only [Tree.descend, Option.some.injEq] at hn
    subst hn
    rw [hc.rootKind] at hd; cases hd
  | append_singleton ns k =>
    obtain ⟨m, hm, hmem, h1, _⟩ := hc.parents ns k n hn
    obtain ⟨m', hm', _, hname⟩ := descend_parent hn
    have hmk := h1 hd
    refine ⟨ns, k, rfl, hname, ?_, ?_, ?_⟩
    · rintro rfl
      simp only [Tree.descend, Option.some.injEq] at hm
      subst hm
      rw [hc.rootKind] at hmk; cases hmk
    · have := range_take (ns ++ [k])
      rw [List.dropLast_concat] at this
      refine Eq.trans ?_ this
      unfold namespacesOf
      apply List.filterMap_congr
      intro i hi
      rw [List.mem_range, List.length_append, List.length_singleton] at hi
      by_cases h0 : 0 < i
      · have := flat_prefix hf hm hmk i h0 (by omega)
        rw [List.take_append_of_le_length (by omega), this, if_pos rfl, if_pos h0]
      · have : i = 0 := by omega
        subst this
        rw [List.take_zero, List.getLast?_nil, ite_self]
        rfl
    · refine hc.names hm ?_
      rw [hmk]; simp

theorem Compiled.builtin (hf : Flat t) {p : Path} {n : Tree} (hn : t.descend p = some n) (hd : Spec.Kind.isDefinition n.kind = true) :
    isBuiltin t p = true ↔ "_builtin".toList ∈ p.dropLast := by
  obtain ⟨ns, k, rfl, _, _, h, _⟩ := hc.namespaces hf hn hd
  unfold isBuiltin
  rw [h, List.dropLast_concat, decide_eq_true_iff]

end

/-! ## Texts of lists -/

/-- Without the leading line break, with a trailing one. -/
def unlead (t : Text) : Text := (t ++ ['\n']).drop 1

def Leads (t : Text) : Prop := ∃ u, t = '\n' :: u

theorem unlead_cons (u : Text) : unlead ('\n' :: u) = u ++ ['\n'] := rfl

theorem lead_unlead {t : Text} (h : Leads t) : '\n' :: unlead t = t ++ ['\n'] := by
  obtain ⟨u, rfl⟩ := h; rfl

theorem flatMap_unlead {α : Type} {f : α → Text} {l : List α} (h : ∀ x ∈ l, Leads (f x)) (r : Text) :
    '\n' :: (l.flatMap (fun x => unlead (f x)) ++ r) = l.flatMap f ++ '\n' :: r := by
  induction l with
  | nil => rfl
  | cons x l ih =>
    rw [List.flatMap_cons, List.flatMap_cons, List.append_assoc, ← List.cons_append, lead_unlead (h x (by simp)), List.append_assoc, List.append_assoc,
      List.singleton_append, ih fun y hy => h y (by simp [hy])]

theorem mapM_ok {α β : Type} {f : α → M β} {g : α → β} {l : List α} (h : ∀ x ∈ l, f x = .ok (g x)) : l.mapM f = .ok (l.map g) := by
  induction l with
  | nil => rfl
  | cons x l ih =>
    rw [List.mapM_cons, h x (by simp), ih fun y hy => h y (by simp [hy])]; rfl

theorem filterMap_filter {α β : Type} {g : α → Option β} {p : α → Bool} {d : β} {l : List α} (h : ∀ x ∈ l, p x = (g x).isSome) :
    l.filterMap g = (l.filter p).map fun x => (g x).getD d := by
  induction l with
  | nil => rfl
  | cons x l ih =>
    have := h x (by simp)
    have ih := ih fun y hy => h y (by simp [hy])
    cases hg : g x with
    | none => rw [hg] at this; simp [hg, this, ih]
    | some y => rw [hg] at this; simp [hg, this, ih]

theorem childrenLike_eq (n : Tree) (k : Kind) : (n.childrenLike fun x => x = k) = childrenOf n k := rfl

/-! ## Fields -/

def decoLine (d : PFieldDeco) : Text := unlead (decoText d)

theorem decoText_leads (d : PFieldDeco) : Leads (decoText d) := decoText_head d

/-- A path in the name of a reference. -/
def encPath (p : Path) : Text := p.flatMap fun n => '@' :: n

theorem ref_encoded {r : Tree} {body : Text} {p : Path} (hname : r.name = '@' :: body) (hdot : '.' ∉ r.name) (ht : r.target = pathText p)
    (hp : ∀ k ∈ p, '.' ∉ k) : r.name = '@' :: encPath p := by
  rw [hname] at hdot ⊢
  unfold Tree.target dereferencify at ht
  rw [hname] at ht
  simp only [List.drop_succ_cons, List.drop_zero] at ht
  have h := congrArg (List.map fun c => if c = '.' then '@' else c) ht
  rw [List.map_map] at h
  congr 1
  have h1 : body.map ((fun c => if c = '.' then '@' else c) ∘ fun c => if c = '@' then '.' else c) = body := by
    conv_rhs => rw [← List.map_id body]
    apply List.map_congr_left
    intro c hc
    have : c ≠ '.' := fun e => hdot (by rw [← e]; simp [hc])
    simp only [Function.comp, id]
    by_cases hat : c = '@'
    · subst hat; decide
    · rw [if_neg hat, if_neg this]
  rw [h1] at h
  rw [h]
  unfold pathText encPath
  rw [List.map_flatMap]
  apply List.flatMap_congr
  intro k hk
  rw [List.map_cons, if_pos rfl]
  congr 1
  conv_rhs => rw [← List.map_id k]
  apply List.map_congr_left
  intro c hc
  rw [if_neg, id]
  rintro rfl
  exact hp k hk hc

theorem fieldType_plain {k r : Text} (hk : '@' ∉ k) : fieldTypeText (k ++ r) = k ++ fieldTypeText r := by
  induction k with
  | nil => rfl
  | cons c k ih =>
    have hc : c ≠ '@' := fun e => hk (by simp [e])
    rw [List.cons_append, fieldTypeText]
    · rw [if_neg hc, ih fun hm => hk (by simp [hm])]; rfl
    · intro _ e; exact absurd e hc

theorem fieldType_enc {p : Path} (hp : ∀ k ∈ p, k ≠ [] ∧ '@' ∉ k) : fieldTypeText (encPath p) = pathText p := by
  induction p with
  | nil => rfl
  | cons k p ih =>
    obtain ⟨h1, h2⟩ := hp k (by simp)
    obtain ⟨c, k', rfl⟩ := List.exists_cons_of_ne_nil h1
    have hc : c ≠ '@' := fun e => h2 (by simp [e])
    show fieldTypeText ('@' :: (c :: (k' ++ encPath p))) = '.' :: ((c :: k') ++ pathText p)
    rw [fieldTypeText]
    · rw [if_pos rfl]
      congr 1
      rw [show c :: (k' ++ encPath p) = (c :: k') ++ encPath p from rfl, fieldType_plain h2, ih fun x hx => hp x (by simp [hx])]
    · rintro _ _ e
      injection e with e1 _
      exact hc e1

theorem fieldType_ref {p : Path} (hne : p ≠ []) (hp : ∀ k ∈ p, k ≠ [] ∧ '@' ∉ k) : fieldTypeText ('@' :: encPath p) = pathText p := by
  obtain ⟨k, p, rfl⟩ := List.exists_cons_of_ne_nil hne
  obtain ⟨h1, h2⟩ := hp k (by simp)
  show '.' :: fieldTypeText (k ++ encPath p) = '.' :: (k ++ pathText p)
  rw [fieldType_plain h2, fieldType_enc fun x hx => hp x (by simp [hx])]

theorem fieldType_basic (b : BasicName) : fieldTypeText b.text = b.text := by cases b <;> rfl

theorem basic_dotted (b : BasicName) : Dotted b.text := by
  cases b <;> (constructor <;> decide)

theorem nsName_noat {k : Text} (h : NsName k) : k ≠ [] ∧ '@' ∉ k := by
  refine ⟨h.1, fun hm => ?_⟩
  have := h.2 _ hm
  revert this; decide

theorem getLast_mem_path {p : Path} {k : Text} : (p ++ [k]).getLastD [] = k := by simp

section
variable {t : Tree} (hc : Compiled t)
include hc

/-- Names of enumerations in fields. -/
theorem Compiled.enumName {q : Path} {r : Tree} {rk : RefKind} (hr : t.descend q = some r) (hk : r.kind = .ref rk) : fieldTypeText r.name = r.target := by
  obtain ⟨m, _, h2, h3, h4, _⟩ := hc.target hr hk
  obtain ⟨body, hb⟩ := hc.refName q r rk hr hk
  have hdot : '.' ∉ r.name := by
    have := good_descend hc.lk.good hr
    cases this; assumption
  have hnr : ∀ rk', m.kind ≠ .ref rk' := fun rk' => (fits_nonref' (rk' := rk') h3).1
  have hns := hc.names h2 hnr
  rw [ref_encoded hb hdot h4.symm (descend_nodot hc.lk.good h2), fieldType_ref ?_ fun k hk => nsName_noat (hns k hk), h4]
  intro e
  rw [e] at h2
  simp only [Tree.descend, Option.some.injEq] at h2
  subst h2
  exact (fits_nonref' (rk' := rk) h3).2 hc.rootKind

theorem Compiled.oneInvalid {q : Path} {f : Tree} {ty : FieldType} {rg : Option Text} {o : Option Nat} (hf : t.descend q = some f) (hk : f.kind = .field ty rg o) :
    (childrenOf f (.ref .invalidValue)).length ≤ 1 := by
  have h := (hc.constants q f ty rg o hf hk).2
  have hg := good_descend hc.lk.good hf
  have hnd : f.children.Nodup := by
    have : (f.children.map Tree.name).Nodup := by cases hg; assumption
    exact List.Nodup.of_map _ this
  have hnd' : (childrenOf f (.ref .invalidValue)).Nodup := hnd.filter _
  have hall : ∀ a ∈ childrenOf f (.ref .invalidValue), ∀ b ∈ childrenOf f (.ref .invalidValue), a = b := by
    intro a ha b hb
    simp only [childrenOf, List.mem_filter, decide_eq_true_eq] at ha hb
    exact h a ha.1 b hb.1 ha.2 hb.2
  match hl : childrenOf f (.ref .invalidValue) with
  | [] => simp
  | [_] => simp
  | a :: b :: l =>
    rw [hl] at hnd' hall
    have := hall a (by simp) b (by simp)
    subst this
    simp at hnd'

theorem Compiled.field {q : Path} {f : Tree} {ty : FieldType} {rg : Option Text} {o : Option Nat} (hf : t.descend q = some f) (hk : f.kind = .field ty rg o) :
    ∃ rec, fieldRecord f = some rec ∧ printField f = .ok (unlead (fieldLine rec)) ∧ LexicalField rec ∧ rec.width ≠ none := by
  have hname : Ident f.name := by
    have := hc.name q f hf
    rw [hk] at this; exact this
  have hrange : ∀ r, rg = some r → Ident r := by
    intro r hr
    have := hc.range q f hf
    rw [hk, hr] at this; exact this
  have hrefs : ∀ rk, ∀ r ∈ childrenOf f (.ref rk), Dotted r.target := by
    intro rk r hr
    simp only [childrenOf, List.mem_filter, decide_eq_true_eq] at hr
    obtain ⟨_, _, _, _, _, h, _⟩ := hc.target (hc.child hf hr.1) hr.2
    exact h
  have hdeco : ∀ d ∈ fieldDecorations f rg, LexicalDeco d := by
    intro d hd
    simp only [fieldDecorations, List.mem_append, List.mem_map] at hd
    rcases hd with (⟨r, hr, rfl⟩ | ⟨r, hr, rfl⟩) | ⟨r, hr, rfl⟩
    · exact hrange r (by simpa using hr)
    · exact hrefs _ r hr
    · exact hrefs _ r hr
  have hdeco' : ∀ d ∈ fieldDecorations f rg, match d with
    | .range n => Ident n
    | .constRef n => Dotted n
    | .invalidValue n => Dotted n := by
    intro d hd
    have := hdeco d hd
    cases d <;> exact this
  -- lines of decorations
  have hlines : (match (generalizing := false) rg with
      | some (c :: cs) => "    @range( ".toList ++ (c :: cs) ++ " )\n".toList
      | _ => []) ++ ((f.childrenLike fun k => k = .ref .constantValue).flatMap fun r => "    @const( ".toList ++ r.target ++ " )\n".toList) ++
      (match f.childrenLike fun k => k = .ref .invalidValue with
      | r :: _ => "    @optional( ".toList ++ r.target ++ " )\n".toList
      | [] => []) = (fieldDecorations f rg).flatMap decoLine := by
    unfold fieldDecorations
    rw [List.flatMap_append, List.flatMap_append, childrenLike_eq, childrenLike_eq]
    congr 1
    · congr 1
      · cases rg with
        | none => rfl
        | some r =>
          obtain ⟨c, u, rfl, _⟩ := ident_head (hrange r rfl)
          simp [decoLine, decoText, unlead, nl4]
      · rw [List.flatMap_map]
        apply List.flatMap_congr
        intro r _
        simp [decoLine, decoText, unlead, nl4]
    · have := hc.oneInvalid hf hk
      match hl : childrenOf f (.ref .invalidValue) with
      | [] => rfl
      | [r] => simp [decoLine, decoText, unlead, nl4]
      | _ :: _ :: _ => rw [hl] at this; simp at this
  have hprint : ∀ (tyText : Text) (w : Nat), ty.nameText = .ok tyText → ty.width = .ok w →
      printField f = .ok (unlead (fieldLine { name := f.name, decorations := fieldDecorations f rg, type := fieldTypeText tyText, width := some w })) := by
    intro tyText w h1 h2
    unfold printField
    rw [hk]
    simp only [h1, h2, bind, Except.bind, pure, Except.pure]
    congr 1
    simp only [List.append_assoc] at hlines ⊢
    have e : unlead (fieldLine { name := f.name, decorations := fieldDecorations f rg, type := fieldTypeText tyText, width := some w }) =
        (fieldDecorations f rg).flatMap decoLine ++ ("    ".toList ++ (f.name ++ (" : ".toList ++ (fieldTypeText tyText ++ (" : ".toList ++ (natText w ++ ";\n".toList)))))) := by
      have h3 := flatMap_unlead (f := decoText) (l := fieldDecorations f rg) (fun d _ => decoText_leads d)
        ("    ".toList ++ (f.name ++ (" : ".toList ++ (fieldTypeText tyText ++ (" : ".toList ++ (natText w ++ ";\n".toList))))))
      have h4 : Leads (fieldLine { name := f.name, decorations := fieldDecorations f rg, type := fieldTypeText tyText, width := some w }) := by
        unfold fieldLine fieldText
        simp only
        cases fieldDecorations f rg with
        | nil => exact ⟨_, rfl⟩
        | cons d ds => obtain ⟨u, hu⟩ := decoText_leads d; rw [List.flatMap_cons, hu]; exact ⟨_, rfl⟩
      have h5 := lead_unlead h4
      have h6 : fieldLine { name := f.name, decorations := fieldDecorations f rg, type := fieldTypeText tyText, width := some w } ++ ['\n'] =
          (fieldDecorations f rg).flatMap decoText ++ '\n' :: ("    ".toList ++ (f.name ++ (" : ".toList ++ (fieldTypeText tyText ++ (" : ".toList ++ (natText w ++ ";\n".toList)))))) := by
        unfold fieldLine fieldText
        simp [nl4]
      rw [h6] at h5
      rw [← h3] at h5
      injection h5
    rw [e, ← hlines]
    simp only [List.append_assoc]
    rfl
  rcases hc.typed q f ty rg o hf hk with ⟨b, rfl⟩ | ⟨ref, hmem, w, m, b, h1, h2, h3, rfl⟩
  · refine ⟨_, by unfold fieldRecord; rw [hk], ?_, ⟨hname, basic_dotted b.name, hdeco'⟩, by simp⟩
    have := hprint b.name.text b.width rfl rfl
    rw [fieldType_basic] at this
    exact this
  · have hch := hc.child hf hmem
    obtain ⟨_, _, _, _, _, hd, _⟩ := hc.target hch h1
    refine ⟨_, by unfold fieldRecord; rw [hk], ?_, ⟨hname, hd, hdeco'⟩, by simp⟩
    have := hprint ref.name b.width rfl rfl
    rw [hc.enumName hch h1] at this
    exact this

end

theorem fieldLine_leads (f : PField) : Leads (fieldLine f) := by
  unfold fieldLine fieldText
  cases f.decorations with
  | nil => exact ⟨_, rfl⟩
  | cons d ds => obtain ⟨u, hu⟩ := decoText_leads d; rw [List.flatMap_cons, hu]; exact ⟨_, rfl⟩

/-! ## Structures, enumerations, constants -/

section
variable {t : Tree} (hc : Compiled t)
include hc

theorem Compiled.ident {q : Path} {n : Tree} (hn : t.descend q = some n) (h1 : ∀ rk, n.kind ≠ .ref rk) (h2 : n.kind ≠ .root) (h3 : n.kind ≠ .namespace) : Ident n.name := by
  have := hc.name q n hn
  cases hk : n.kind <;> rw [hk] at this <;> first | exact this | exact absurd hk h2 | exact absurd hk h3 | exact absurd hk (h1 _)

theorem Compiled.struct {q : Path} {n : Tree} {sz : Option Nat} (hn : t.descend q = some n) (hk : n.kind = .structure sz) :
    printStructure n = .ok (unlead (structText (structureRecord n))) ∧ NormalStruct (structureRecord n) := by
  let dflt : PField := { name := [], decorations := [], type := [], width := none }
  have hf : ∀ f ∈ n.children, f.kind.isField = true → ∃ rec, fieldRecord f = some rec ∧ printField f = .ok (unlead (fieldLine rec)) ∧ LexicalField rec ∧ rec.width ≠ none := by
    intro f hfm hfk
    cases hfk' : f.kind <;> rw [hfk'] at hfk <;> try (cases hfk; done)
    exact hc.field (hc.child hn hfm) hfk'
  have hsome : ∀ f ∈ n.children, f.kind.isField = (fieldRecord f).isSome := by
    intro f hfm
    cases hb : f.kind.isField with
    | true => obtain ⟨rec, h, _⟩ := hf f hfm hb; rw [h]; rfl
    | false =>
      unfold fieldRecord
      cases hk : f.kind <;> first | rfl | (rw [hk] at hb; cases hb)
  have hrec : n.children.filterMap fieldRecord = n.fields.map fun f => (fieldRecord f).getD dflt := filterMap_filter (p := fun f : Tree => f.kind.isField) hsome
  have hprint : n.fields.mapM printField = .ok (n.fields.map fun f => unlead (fieldLine ((fieldRecord f).getD dflt))) := by
    apply mapM_ok
    intro f hfm
    simp only [Tree.fields, Tree.childrenLike, List.mem_filter] at hfm
    obtain ⟨rec, h1, h2, _⟩ := hf f hfm.1 hfm.2
    rw [h1]; exact h2
  constructor
  · unfold printStructure
    rw [hprint]
    show Except.ok _ = _
    congr 1
    have h := flatMap_unlead (f := fun f => fieldLine ((fieldRecord f).getD dflt)) (l := n.fields) (fun _ _ => fieldLine_leads _) ['}', '\n']
    unfold structText structureRecord
    rw [unlead_cons]
    simp only
    rw [hrec, List.flatMap_map]
    simp only [List.append_assoc, List.cons_append, List.nil_append]
    rw [← List.flatMap_def]
    have e : n.fields.flatMap (fun f => fieldLine ((fieldRecord f).getD dflt)) ++ '\n' :: '}' :: ['\n'] = '\n' :: (n.fields.flatMap (fun f => unlead (fieldLine ((fieldRecord f).getD dflt))) ++ ['}', '\n']) := h.symm
    rw [e]
    rfl
  · refine ⟨hc.ident hn (by simp [hk]) (by simp [hk]) (by simp [hk]), ?_, ?_⟩
    · have := hc.furnished q n hn
      rw [hk] at this
      obtain ⟨k, hkm, hkf⟩ := this
      obtain ⟨f, hfm, rfl⟩ := List.mem_map.mp hkm
      obtain ⟨rec, h1, _⟩ := hf f hfm hkf
      exact List.ne_nil_of_mem (List.mem_filterMap.mpr ⟨f, hfm, h1⟩)
    · intro rec hr
      obtain ⟨f, hfm, h1⟩ := List.mem_filterMap.mp hr
      obtain ⟨rec', h2, _, h3, h4⟩ := hf f hfm (by rw [hsome f hfm, h1]; rfl)
      rw [h1] at h2
      injection h2 with h2
      subst h2
      exact ⟨h3, h4⟩

omit hc in
theorem enumValues_text (cs : List Tree) (r : Text) :
    '\n' :: (cs.flatMap printEnumValue ++ r) =
      ((cs.filterMap enumValueRecord).map fun v => (v.1, v.2.getD 0)).flatMap (fun v => enumValueText v ++ [',']) ++ '\n' :: r := by
  induction cs with
  | nil => rfl
  | cons c cs ih =>
    have h : printEnumValue c = [] ∧ enumValueRecord c = none ∨ ∃ x : Int, printEnumValue c = "    ".toList ++ c.name ++ " = ".toList ++ intText x ++ ",\n".toList ∧ enumValueRecord c = some (c.name, some x) := by
      unfold printEnumValue enumValueRecord
      cases c.kind with
      | enumValue x b => cases b <;> simp
      | _ => simp
    rcases h with ⟨h1, h2⟩ | ⟨x, h1, h2⟩
    · rw [List.flatMap_cons, h1, List.filterMap_cons_none h2, List.nil_append, ih]
    · rw [List.flatMap_cons, h1, List.filterMap_cons_some h2, List.map_cons, List.flatMap_cons, List.append_assoc _ _ ('\n' :: r), ← ih]
      simp [enumValueText, nl4]

theorem Compiled.enum {q : Path} {n : Tree} {b : BasicType} (hn : t.descend q = some n) (hk : n.kind = .enumeration b) :
    printEnumeration n b = unlead (entryText (.enumeration (enumerationRecord n b))) ∧ NormalEntry LooseDeco (.enumeration (enumerationRecord n b)) := by
  constructor
  · unfold printEnumeration entryText enumText enumerationRecord
    rw [unlead_cons]
    have h := enumValues_text n.children ['}', '\n']
    simp only [List.append_assoc, List.cons_append, List.nil_append, Option.getD_some] at h ⊢
    rw [← h]
    rfl
  · refine ⟨hc.ident hn (by simp [hk]) (by simp [hk]) (by simp [hk]), by simp [enumerationRecord], ?_, ?_⟩
    · have := hc.furnished q n hn
      rw [hk] at this
      obtain ⟨v, hv⟩ := this
      obtain ⟨c, hcm, hck⟩ := List.mem_map.mp hv
      exact List.ne_nil_of_mem (List.mem_filterMap.mpr ⟨c, hcm, by unfold enumValueRecord; rw [hck]⟩)
    · intro v hv
      obtain ⟨c, hcm, h⟩ := List.mem_filterMap.mp hv
      unfold enumValueRecord at h
      split at h
      · rename_i x hck
        injection h with h
        subst h
        exact ⟨hc.ident (hc.child hn hcm) (by simp [hck]) (by simp [hck]) (by simp [hck]), by simp⟩
      · cases h

theorem Compiled.const {q : Path} {n : Tree} {b : BasicType} {v : Int} (hn : t.descend q = some n) (hk : n.kind = .constant b v) :
    printConstant n b v = unlead (entryText (.constant { name := n.name, type := b.name, value := v })) ∧
      NormalEntry LooseDeco (.constant { name := n.name, type := b.name, value := v }) := by
  constructor
  · unfold printConstant entryText constantText
    rw [unlead_cons]
    simp only [List.append_assoc, List.cons_append, List.nil_append]
    rfl
  · exact hc.ident hn (by simp [hk]) (by simp [hk]) (by simp [hk])

end

/-! ## Archives -/

/-- All namespaces have names that are identifiers. -/
def IdentNamespaces (t : Tree) : Prop := ∀ q n, t.descend q = some n → n.kind = .namespace → Ident n.name

/-- Decorations that may be printed; the grammar reads them if namespaces have proper names. -/
def DecoOk (t : Tree) (d : PResDeco) : Prop := LooseDeco d ∧ (IdentNamespaces t → OkDeco d)

theorem NormalEntry.mono {ok ok' : PResDeco → Prop} (h : ∀ d, ok d → ok' d) {e : PEntry} (he : NormalEntry ok e) : NormalEntry ok' e := by
  cases e with
  | archive a => exact ⟨he.1, he.2.1, fun x hx => ⟨(he.2.2 x hx).1, (he.2.2 x hx).2.1, fun d hd => h d ((he.2.2 x hx).2.2 d hd)⟩⟩
  | _ => exact he

theorem childrenOf_kinds {n : Tree} {k : Kind} (hk : k ≠ .namespace) : (childrenOf n k).map Tree.kind = (childKinds n.children).filter (· = k) := by
  unfold childrenOf childKinds
  induction n.children with
  | nil => rfl
  | cons c cs ih =>
    by_cases h : c.kind = k
    · rw [List.filter_cons_of_pos (by simp [h]), List.map_cons, List.map_cons, List.filter_cons_of_pos (by simp [h, hk]), List.filter_cons_of_pos (by simp [h]), ih]
    · rw [List.filter_cons_of_neg (by simp [h]), List.map_cons]
      by_cases h2 : c.kind = .namespace
      · rw [List.filter_cons_of_neg (by simp [h2]), ih]
      · rw [List.filter_cons_of_pos (by simp [h2]), List.filter_cons_of_neg (by simp [h]), ih]

theorem map_singleton {α β : Type} {f : α → β} {l : List α} {b : β} (h : l.map f = [b]) : ∃ a, l = [a] ∧ f a = b := by
  match l, h with
  | [a], h => simp only [List.map_cons, List.map_nil, List.cons.injEq, and_true] at h; exact ⟨a, rfl, h⟩

theorem onlyChild_eq {n : Tree} {k : Kind} {x : Tree} (h : childrenOf n k = [x]) : (n.onlyChild fun y => y = k) = .ok x := by
  unfold Tree.onlyChild
  rw [childrenLike_eq, h]; rfl

section
variable {t : Tree} (hc : Compiled t)
include hc

theorem Compiled.pathIdent (hi : IdentNamespaces t) {p : Path} : ∀ {n : Tree}, t.descend p = some n → (∀ rk, n.kind ≠ .ref rk) → ∀ k ∈ p, Ident k := by
  induction p using List.reverseRecOn with
  | nil => simp
  | append_singleton p k ih =>
    intro n hn hr x hx
    obtain ⟨m, hm, hmem, hname⟩ := descend_parent hn
    have hmr : ∀ rk, m.kind ≠ .ref rk := by
      intro rk hk
      rw [hc.lk.leaf p m rk hm hk] at hmem; cases hmem
    rcases List.mem_append.mp hx with hx | hx
    · exact ih hm hmr x hx
    · simp only [List.mem_singleton] at hx
      subst hx
      rw [← hname]
      by_cases h3 : n.kind = .namespace
      · exact hi _ _ hn h3
      · exact hc.ident hn hr (fun e => by simpa using hc.root _ _ hn e) h3

theorem Compiled.explicitRef {q : Path} {e : Tree} (hn : t.descend q = some e) (hk : e.kind = .explicitReference) :
    ∃ d, explicitRecord e = some d ∧ printExplicitReference t e = .ok (unlead (resDecoText d)) ∧ DecoOk t d := by
  have hkinds := hc.explicit q e hn hk
  have hone : ∀ k : Kind, k ≠ .namespace → (childKinds e.children).filter (· = k) = [k] → ∃ x, childrenOf e k = [x] ∧ x.kind = k ∧ t.descend (q ++ [x.name]) = some x := by
    intro k hk h
    rw [← childrenOf_kinds hk] at h
    obtain ⟨x, h1, h2⟩ := map_singleton h
    refine ⟨x, h1, h2, hc.child hn ?_⟩
    have : x ∈ childrenOf e k := by rw [h1]; simp
    exact (List.mem_filter.mp this).1
  obtain ⟨s, hs, hsk, hsd⟩ := hone (.ref .structure) (by simp) (by rw [hkinds]; rfl)
  obtain ⟨f, hf, hfk, hfd⟩ := hone (.ref .field) (by simp) (by rw [hkinds]; rfl)
  obtain ⟨d, hd, hdk, hdd⟩ := hone (.ref .resource) (by simp) (by rw [hkinds]; rfl)
  have hd' : e.childrenLike Kind.isResourceReference = [d] := by
    rw [← hd]
    unfold Tree.childrenLike childrenOf
    apply List.filter_congr
    intro c hcm
    by_cases h : c.kind = .namespace
    · rw [h]; rfl
    · have : c.kind ∈ childKinds e.children := by
        unfold childKinds
        exact List.mem_filter.mpr ⟨List.mem_map_of_mem hcm, by simp [h]⟩
      rw [hkinds] at this
      simp only [List.mem_cons, List.not_mem_nil, or_false] at this
      rcases this with h | h | h <;> rw [h] <;> rfl
  obtain ⟨ms, s1, s2, s3, s4, s5, s6⟩ := hc.target hsd hsk
  obtain ⟨mf, f1, f2, f3, f4, f5, f6⟩ := hc.target hfd hfk
  obtain ⟨md, d1, d2, d3, d4, d5, d6⟩ := hc.target hdd hdk
  have hfi : Ident (f.targetPath.getLastD []) := by
    obtain ⟨_, _, _, hmk⟩ := f3
    generalize f.targetPath = p at f2
    cases p using List.reverseRecOn with
    | nil =>
      simp only [Tree.descend, Option.some.injEq] at f2
      subst f2
      rw [hc.rootKind] at hmk; cases hmk
    | append_singleton p k =>
      obtain ⟨_, _, _, hname⟩ := descend_parent f2
      rw [getLast_mem_path, ← hname]
      exact hc.ident f2 (by simp [hmk]) (by simp [hmk]) (by simp [hmk])
  refine ⟨.explicitReference s.target (f.targetPath.getLastD []) d.target, ?_, ?_, ⟨s5, hfi, d5⟩, fun hi => ⟨⟨s.targetPath, ?_, ?_, s4.symm⟩, hfi, d5⟩⟩
  · unfold explicitRecord
    rw [hs, hf, hd]
  · unfold printExplicitReference
    rw [onlyChild_eq hs, onlyChild_eq hf]
    unfold Tree.onlyChild
    rw [hd']
    simp only [bind, Except.bind, pure, Except.pure, s1, f1, d1]
    rw [s4, d4]
    congr 1
    simp [resDecoText, nl4, unlead]
  · intro h0
    rw [h0] at s2
    simp only [Tree.descend, Option.some.injEq] at s2
    subst s2
    exact (fits_nonref' (rk' := .structure) s3).2 hc.rootKind
  · exact hc.pathIdent hi s2 fun rk => (fits_nonref' (rk' := rk) s3).1

/-- The structures a resource consists of. -/
theorem Compiled.params (hf : Flat t) (hb : NoBuiltin t) {q : Path} {r : Tree} (hn : t.descend q = some r)
    (hix : ∀ c ∈ r.children, c.kind = .ref .builtinStructure → ∃ w, c.target = pathText (indexTypePath q w)) :
    typeParams t (referencedStructures r) = .ok (commaSeparated ((childrenOf r (.ref .structure)).map Tree.target)) := by
  unfold typeParams referencedStructures
  rw [childrenLike_eq, childrenLike_eq]
  have hall : ∀ c ∈ childrenOf r (.ref .builtinStructure) ++ childrenOf r (.ref .structure), refPath t c = .ok c.targetPath := by
    intro c hcm
    rcases List.mem_append.mp hcm with h | h
    all_goals
      simp only [childrenOf, List.mem_filter, decide_eq_true_eq] at h
      obtain ⟨_, h1, _⟩ := hc.target (hc.child hn h.1) h.2
      exact h1
  rw [mapM_ok hall]
  show Except.ok _ = _
  congr 2
  rw [List.map_append, List.filter_append, List.map_append]
  have h1 : ((childrenOf r (.ref .builtinStructure)).map Tree.targetPath).filter (fun p => !isBuiltin t p) = [] := by
    rw [List.filter_eq_nil_iff]
    intro p hp
    obtain ⟨c, hcm, rfl⟩ := List.mem_map.mp hp
    simp only [childrenOf, List.mem_filter, decide_eq_true_eq] at hcm
    obtain ⟨m, _, h2, ⟨sz, h3⟩, h4, _⟩ := hc.target (hc.child hn hcm.1) hcm.2
    obtain ⟨w, hw⟩ := hix c hcm.1 hcm.2
    have hq : ∀ k ∈ q, '.' ∉ k := descend_nodot hc.lk.good hn
    have he : c.targetPath = indexTypePath q w := by
      unfold Tree.targetPath
      rw [hw, splitDot_pathText (indexTypePath_nodot hq w)]; rfl
    rw [(hc.builtin hf h2 (by rw [h3]; rfl)).mpr]
    · simp
    · rw [he]
      unfold indexTypePath
      simp
  have h2 : ((childrenOf r (.ref .structure)).map Tree.targetPath).filter (fun p => !isBuiltin t p) = (childrenOf r (.ref .structure)).map Tree.targetPath := by
    rw [List.filter_eq_self]
    intro p hp
    obtain ⟨c, hcm, rfl⟩ := List.mem_map.mp hp
    simp only [childrenOf, List.mem_filter, decide_eq_true_eq] at hcm
    obtain ⟨m, _, h2, ⟨sz, h3⟩, h4, _⟩ := hc.target (hc.child hn hcm.1) hcm.2
    have := (hc.builtin hf h2 (by rw [h3]; rfl)).not.mpr fun hm => hb _ _ _ (hc.child hn hcm.1) hcm.2 (by simp) (List.dropLast_subset _ hm)
    simpa using this
  rw [h1, h2, List.map_nil, List.nil_append, List.map_map]
  apply List.map_congr_left
  intro c hcm
  simp only [childrenOf, List.mem_filter, decide_eq_true_eq] at hcm
  obtain ⟨_, _, _, _, h4, _⟩ := hc.target (hc.child hn hcm.1) hcm.2
  exact h4

end

theorem resource_refs {k : ResKind} {o : Bool} {ks : List Kind} (h : ChildrenOk (.resource k o none) ks) (hk : ∀ w, k ≠ .multivector w) :
    .ref .builtinStructure ∉ ks := by
  cases k <;> simp only [ChildrenOk] at h
  case multivector w => exact absurd rfl (hk w)
  all_goals
    obtain ⟨n, rfl⟩ := h
    simp

section
variable {t : Tree} (hc : Compiled t)
include hc

theorem Compiled.oneChild {q : Path} {r : Tree} (hn : t.descend q = some r) {k : Kind} {n : Nat} (hk : k ≠ .namespace) (hke : k ≠ .explicitReference)
    (h : childKinds r.children = List.replicate n .explicitReference ++ [k]) :
    ∃ x, childrenOf r k = [x] ∧ x.kind = k ∧ t.descend (q ++ [x.name]) = some x := by
  have h' : (childKinds r.children).filter (· = k) = [k] := by
    rw [h, List.filter_append, List.filter_replicate, if_neg (by simpa using hke.symm)]
    simp
  rw [← childrenOf_kinds hk] at h'
  obtain ⟨x, h1, h2⟩ := map_singleton h'
  refine ⟨x, h1, h2, hc.child hn ?_⟩
  have : x ∈ childrenOf r k := by rw [h1]; simp
  exact (List.mem_filter.mp this).1

theorem Compiled.resType (hf : Flat t) (hb : NoBuiltin t) {q : Path} {r : Tree} {k : ResKind} {o : Bool} {m : Option Nat} (hn : t.descend q = some r)
    (hk : r.kind = .resource k o m) (hkb : k ≠ .bound) :
    ∃ ty, resourceTypeRecord r = some ty ∧ printResourceType t r = .ok (resTypeText ty) ∧ NormalType ty := by
  have hch := hc.resource q r k o m hn hk
  have hix : ∀ c ∈ r.children, c.kind = .ref .builtinStructure → ∃ w, c.target = pathText (indexTypePath q w) := by
    intro c hcm hck
    by_cases hmv : ∃ w, k = .multivector w
    · obtain ⟨w, rfl⟩ := hmv
      exact ⟨w, hc.index q r w o m hn hk c hcm hck⟩
    · refine absurd ?_ (resource_refs hch fun w hw => hmv ⟨w, hw⟩)
      unfold childKinds
      exact List.mem_filter.mpr ⟨hck ▸ List.mem_map_of_mem hcm, by simp⟩
  have hp := hc.params hf hb hn hix
  have htd : ∀ c ∈ childrenOf r (.ref .structure), Dotted c.target ∧ c.target.head? = some '.' := by
    intro c hcm
    simp only [childrenOf, List.mem_filter, decide_eq_true_eq] at hcm
    obtain ⟨_, _, _, _, _, h5, h6⟩ := hc.target (hc.child hn hcm.1) hcm.2
    exact ⟨h5, h6⟩
  unfold printResourceType
  rw [hp, hk]
  cases k with
  | bound => exact absurd rfl hkb
  | vector =>
    obtain ⟨n, h⟩ := hch
    obtain ⟨x, h1, _, _⟩ := hc.oneChild hn (by simp) (by simp) h
    refine ⟨.vector x.target, by unfold resourceTypeRecord; rw [hk, h1]; rfl, ?_, (htd x (by rw [h1]; simp)).1⟩
    rw [h1]
    simp only [bind, Except.bind, pure, Except.pure, List.map_cons, List.map_nil, commaSeparated]
    congr 1
  | «instance» =>
    obtain ⟨n, h⟩ := hch
    obtain ⟨x, h1, _, _⟩ := hc.oneChild hn (by simp) (by simp) h
    refine ⟨.object x.target, by unfold resourceTypeRecord; rw [hk, h1]; rfl, ?_, htd x (by rw [h1]; simp)⟩
    rw [h1]; rfl
  | multivector w =>
    refine ⟨.multivector w ((childrenOf r (.ref .structure)).map Tree.target), by unfold resourceTypeRecord; rw [hk], ?_, ?_, ?_⟩
    · simp only [bind, Except.bind, pure, Except.pure]
      congr 1
      unfold resTypeText
      simp only [List.append_assoc]; rfl
    · have := hc.furnished q r hn
      rw [hk] at this
      obtain ⟨c, hcm, hck⟩ := List.mem_map.mp this
      simp only [ne_eq, List.map_eq_nil_iff]
      exact List.ne_nil_of_mem (a := c) (List.mem_filter.mpr ⟨hcm, by simp [hck]⟩)
    · intro x hx
      obtain ⟨c, hcm, rfl⟩ := List.mem_map.mp hx
      exact (htd c hcm).1
  | rawData => exact ⟨.rawData, by unfold resourceTypeRecord; rw [hk], rfl, trivial⟩
  | archive =>
    obtain ⟨n, h⟩ := hch
    obtain ⟨x, h1, h2, h3⟩ := hc.oneChild hn (by simp) (by simp) h
    obtain ⟨_, a1, _, _, a4, a5, _⟩ := hc.target h3 h2
    refine ⟨.archive x.target, by unfold resourceTypeRecord; rw [hk]; simp only; rw [h1], ?_, a5⟩
    rw [onlyChild_eq h1]
    simp only [bind, Except.bind, pure, Except.pure, a1]
    rw [a4]; rfl

omit hc in
theorem resDecoText_leads (d : PResDeco) : Leads (resDecoText d) := by
  obtain ⟨u, hu⟩ := resDecoText_head d []
  rw [List.append_nil] at hu
  exact ⟨u, hu⟩

omit hc in
theorem resourceText_leads (x : PResource) : Leads (resourceText x) := by
  unfold resourceText
  cases x.decorations with
  | nil => exact ⟨_, rfl⟩
  | cons d ds => obtain ⟨u, hu⟩ := resDecoText_leads d; rw [List.flatMap_cons, hu]; exact ⟨_, rfl⟩

theorem Compiled.res (hf : Flat t) (hb : NoBuiltin t) {q : Path} {r : Tree} {k : ResKind} {o : Bool} {m : Option Nat} (hn : t.descend q = some r)
    (hk : r.kind = .resource k o m) (hkb : k ≠ .bound) :
    ∃ x, resourceRecord r = some x ∧ printResource t r = .ok (unlead (resourceText x)) ∧ NormalResource (DecoOk t) x := by
  obtain ⟨ty, h1, h2, h3⟩ := hc.resType hf hb hn hk hkb
  have hex : ∀ e ∈ childrenOf r .explicitReference, ∃ d, explicitRecord e = some d ∧ printExplicitReference t e = .ok (unlead (resDecoText d)) ∧ DecoOk t d := by
    intro e he
    simp only [childrenOf, List.mem_filter, decide_eq_true_eq] at he
    exact hc.explicitRef (hc.child hn he.1) he.2
  have hrec : (childrenOf r .explicitReference).filterMap explicitRecord = (childrenOf r .explicitReference).map fun e => (explicitRecord e).getD .optional := by
    have := filterMap_filter (g := explicitRecord) (p := fun _ => true) (d := PResDeco.optional) (l := childrenOf r .explicitReference) (by
      intro e he; obtain ⟨d, hd, _⟩ := hex e he; rw [hd]; rfl)
    rwa [List.filter_eq_self.mpr (by simp)] at this
  have hprint : (r.childrenLike fun k => k = .explicitReference).mapM (printExplicitReference t) =
      .ok ((childrenOf r .explicitReference).map fun e => unlead (resDecoText ((explicitRecord e).getD .optional))) := by
    rw [childrenLike_eq]
    apply mapM_ok
    intro e he
    obtain ⟨d, h1, h2, _⟩ := hex e he
    rw [h1]; exact h2
  refine ⟨_, by unfold resourceRecord; rw [h1], ?_, ?_⟩
  · unfold printResource
    rw [hprint, h2]
    simp only [bind, Except.bind, pure, Except.pure]
    congr 1
    have hl := resourceText_leads { name := r.name, decorations := (childrenOf r .explicitReference).filterMap explicitRecord ++
      (if isOptionalResource r.kind then [.optional] else []), type := ty }
    have h5 := lead_unlead hl
    have h3 := flatMap_unlead (f := fun e => resDecoText ((explicitRecord e).getD .optional)) (l := childrenOf r .explicitReference) (fun d _ => resDecoText_leads _)
      ((if o then "    @optional\n".toList else []) ++ ("    ".toList ++ (r.name ++ (" : ".toList ++ (resTypeText ty ++ ";\n".toList)))))
    have h6 : resourceText { name := r.name, decorations := (childrenOf r .explicitReference).filterMap explicitRecord ++
      (if isOptionalResource r.kind then [.optional] else []), type := ty } ++ ['\n'] =
        (childrenOf r .explicitReference).flatMap (fun e => resDecoText ((explicitRecord e).getD .optional)) ++
          '\n' :: ((if o then "    @optional\n".toList else []) ++ ("    ".toList ++ (r.name ++ (" : ".toList ++ (resTypeText ty ++ ";\n".toList))))) := by
      unfold resourceText
      simp only
      rw [hrec, hk, List.flatMap_append, List.flatMap_map]
      cases o <;> simp [nl4, isOptionalResource, resDecoText]
    rw [h6, ← h3] at h5
    injection h5 with _ h5
    rw [h5, hk, ← List.flatMap_def]
    cases o <;> simp only [List.append_assoc] <;> rfl
  · refine ⟨hc.ident hn (by simp [hk]) (by simp [hk]) (by simp [hk]), h3, ?_⟩
    intro d hd
    rcases List.mem_append.mp hd with hd | hd
    · obtain ⟨e, he, h⟩ := List.mem_filterMap.mp hd
      obtain ⟨d', h', _, h3⟩ := hex e he
      rw [h] at h'
      injection h' with h'
      exact h' ▸ h3
    · split at hd
      · simp only [List.mem_singleton] at hd
        subst hd
        exact ⟨trivial, fun _ => trivial⟩
      · cases hd

omit hc in
theorem flat_kinds (hf : Flat t) (hg : ∀ c ∈ n.children, t.descend (q ++ [c.name]) = some c) (hq : q ≠ []) (hn : t.descend q = some n) (hk : n.kind ≠ .namespace) :
    childKinds n.children = n.children.map Tree.kind := by
  unfold childKinds
  rw [List.filter_eq_self]
  intro k hkm
  obtain ⟨c, hcm, rfl⟩ := List.mem_map.mp hkm
  simp only [ne_eq, decide_not, Bool.not_eq_eq_eq_not, Bool.not_true, decide_eq_false_iff_not]
  intro hck
  rcases hf q c.name c (hg c hcm) hck with h | ⟨m, h1, h2⟩
  · exact hq h
  · rw [hn] at h1; injection h1 with h1; subst h1; exact hk h2

theorem Compiled.boundRes (hf : Flat t) {q : Path} {b : Tree} {o : Bool} {m : Option Nat} (hn : t.descend q = some b) (hk : b.kind = .resource .bound o m) :
    ∃ g, boundRecord b = some g ∧ printBound t b = .ok (unlead (boundText g)) ∧ Ident g.1 ∧ g.2 ≠ [] ∧ ∀ x ∈ g.2, Dotted x := by
  have hq : q ≠ [] := by
    rintro rfl
    simp only [Tree.descend, Option.some.injEq] at hn
    subst hn
    rw [hc.rootKind] at hk; cases hk
  obtain ⟨n, hkinds⟩ := hc.resource q b .bound o m hn hk
  rw [flat_kinds hf (fun c hcm => hc.child hn hcm) hq hn (by simp [hk])] at hkinds
  have hall : ∀ c ∈ b.children, c.kind = .ref .resource := by
    intro c hcm
    have := List.mem_map_of_mem (f := Tree.kind) hcm
    rw [hkinds] at this
    exact List.eq_of_mem_replicate this
  have hch : childrenOf b (.ref .resource) = b.children := by
    unfold childrenOf
    rw [List.filter_eq_self]
    intro c hcm
    simp [hall c hcm]
  refine ⟨_, by unfold boundRecord; rw [hk], ?_, hc.ident hn (by simp [hk]) (by simp [hk]) (by simp [hk]), ?_, ?_⟩
  · unfold printBound
    rw [mapM_ok (g := Tree.targetPath) (fun c hcm => by
      obtain ⟨_, h1, _⟩ := hc.target (hc.child hn hcm) (hall c hcm)
      exact h1)]
    simp only [bind, Except.bind, pure, Except.pure]
    congr 1
    rw [hch, List.map_map]
    have : b.children.map (pathText ∘ Tree.targetPath) = b.children.map Tree.target := by
      apply List.map_congr_left
      intro c hcm
      obtain ⟨_, _, _, _, h4, _⟩ := hc.target (hc.child hn hcm) (hall c hcm)
      exact h4
    rw [this]
    unfold boundText
    rw [unlead_cons]
    simp only [List.append_assoc]
    simp
  · have := hc.furnished q b hn
    rw [hk] at this
    obtain ⟨c, hcm, hck⟩ := List.mem_map.mp this
    rw [hch]
    simp only [ne_eq, List.map_eq_nil_iff]
    exact List.ne_nil_of_mem hcm
  · intro x hx
    rw [hch] at hx
    obtain ⟨c, hcm, rfl⟩ := List.mem_map.mp hx
    obtain ⟨_, _, _, _, _, h5, _⟩ := hc.target (hc.child hn hcm) (hall c hcm)
    exact h5

omit hc in
theorem boundText_leads (g : Text × List Text) : Leads (boundText g) := ⟨_, rfl⟩

/-- Archives, or copies of archives with some of the children. -/
theorem Compiled.arch (hf : Flat t) (hb : NoBuiltin t) {q : Path} {n : Tree} (hn : t.descend q = some n) (hk : n.kind = .archive) {cs : List Tree}
    (hcs : ∀ c ∈ cs, c ∈ n.children) :
    printArchive t (.mk n.name .archive cs) = .ok (unlead (archiveText (archiveRecord (.mk n.name .archive cs)))) ∧
      NormalArchive (DecoOk t) (archiveRecord (.mk n.name .archive cs)) := by
  let dr : PResource := { name := [], decorations := [], type := .rawData }
  let db : Text × List Text := ([], [])
  have hbd : ∀ c ∈ cs, c.kind.isBoundResource = true →
      ∃ g, boundRecord c = some g ∧ printBound t c = .ok (unlead (boundText g)) ∧ Ident g.1 ∧ g.2 ≠ [] ∧ ∀ x ∈ g.2, Dotted x := by
    intro c hcm hck
    cases h : c.kind <;> rw [h] at hck <;> try (cases hck; done)
    rename_i k o m
    cases k <;> try (cases hck; done)
    exact hc.boundRes hf (hc.child hn (hcs c hcm)) h
  have hrs : ∀ c ∈ cs, (c.kind.isResource && !c.kind.isBoundResource) = true →
      ∃ x, resourceRecord c = some x ∧ printResource t c = .ok (unlead (resourceText x)) ∧ NormalResource (DecoOk t) x := by
    intro c hcm hck
    cases h : c.kind <;> rw [h] at hck <;> try (cases hck; done)
    rename_i k o m
    refine hc.res hf hb (hc.child hn (hcs c hcm)) h ?_
    rintro rfl
    cases hck
  have hb1 : ∀ c ∈ cs, c.kind.isBoundResource = (boundRecord c).isSome := by
    intro c hcm
    unfold boundRecord
    cases h : c.kind <;> try rfl
    rename_i k o m
    cases k <;> rfl
  have hr1 : ∀ c ∈ cs, (c.kind.isResource && !c.kind.isBoundResource) = (resourceRecord c).isSome := by
    intro c hcm
    cases hbool : (c.kind.isResource && !c.kind.isBoundResource) with
    | true => obtain ⟨x, h, _⟩ := hrs c hcm hbool; rw [h]; rfl
    | false =>
      have : resourceTypeRecord c = none := by
        unfold resourceTypeRecord
        cases h : c.kind <;> try rfl
        rename_i k o m
        rw [h] at hbool
        cases k <;> first | (cases hbool; done) | rfl
      unfold resourceRecord
      rw [this]; rfl
  have hbr : cs.filterMap boundRecord = (cs.filter fun c => c.kind.isBoundResource).map fun c => (boundRecord c).getD db := filterMap_filter hb1
  have hrr : cs.filterMap resourceRecord = (cs.filter fun c => c.kind.isResource && !c.kind.isBoundResource).map fun c => (resourceRecord c).getD dr := filterMap_filter hr1
  have hbp : (cs.filter fun c => c.kind.isBoundResource).mapM (printBound t) = .ok ((cs.filter fun c => c.kind.isBoundResource).map fun c => unlead (boundText ((boundRecord c).getD db))) := by
    apply mapM_ok
    intro c hcm
    rw [List.mem_filter] at hcm
    obtain ⟨g, h1, h2, _⟩ := hbd c hcm.1 hcm.2
    rw [h1]; exact h2
  have hrp : (cs.filter fun c => c.kind.isResource && !c.kind.isBoundResource).mapM (printResource t) =
      .ok ((cs.filter fun c => c.kind.isResource && !c.kind.isBoundResource).map fun c => unlead (resourceText ((resourceRecord c).getD dr))) := by
    apply mapM_ok
    intro c hcm
    rw [List.mem_filter] at hcm
    obtain ⟨g, h1, h2, _⟩ := hrs c hcm.1 hcm.2
    rw [h1]; exact h2
  constructor
  · unfold printArchive
    rw [show (Tree.mk n.name .archive cs).childrenLike Kind.isBoundResource = cs.filter fun c => c.kind.isBoundResource from rfl,
      show (Tree.mk n.name .archive cs).childrenLike (fun k => k.isResource && !k.isBoundResource) = cs.filter fun c => c.kind.isResource && !c.kind.isBoundResource from rfl, hbp, hrp]
    simp only [bind, Except.bind, pure, Except.pure]
    congr 1
    have h1 := flatMap_unlead (f := fun c => resourceText ((resourceRecord c).getD dr)) (l := cs.filter fun c => c.kind.isResource && !c.kind.isBoundResource)
      (fun _ _ => resourceText_leads _) "}\n".toList
    have h2 := flatMap_unlead (f := fun c => boundText ((boundRecord c).getD db)) (l := cs.filter fun c => c.kind.isBoundResource)
      (fun _ _ => boundText_leads _) ("archive ".toList ++ (n.name ++ ("\n{".toList ++ '\n' :: ((cs.filter fun c => c.kind.isResource && !c.kind.isBoundResource).flatMap
        (fun c => unlead (resourceText ((resourceRecord c).getD dr))) ++ "}\n".toList))))
    have hl : Leads (archiveText (archiveRecord (.mk n.name .archive cs))) := by
      unfold archiveText
      cases (archiveRecord (.mk n.name .archive cs)).bounds with
      | nil => exact ⟨_, rfl⟩
      | cons g gs => exact ⟨_, rfl⟩
    have h3 := lead_unlead hl
    have h4 : archiveText (archiveRecord (.mk n.name .archive cs)) ++ ['\n'] =
        (cs.filter fun c => c.kind.isBoundResource).flatMap (fun c => boundText ((boundRecord c).getD db)) ++ '\n' :: ("archive ".toList ++ (n.name ++ ("\n{".toList ++
          '\n' :: ((cs.filter fun c => c.kind.isResource && !c.kind.isBoundResource).flatMap (fun c => unlead (resourceText ((resourceRecord c).getD dr))) ++ "}\n".toList)))) := by
      rw [h1]
      unfold archiveText archiveRecord
      simp only [Tree.children, Tree.name]
      rw [hbr, hrr, List.flatMap_map, List.flatMap_map]
      simp only [List.append_assoc]
      simp
    rw [h4, ← h2] at h3
    injection h3 with _ h3
    rw [h3, ← List.flatMap_def, ← List.flatMap_def]
    simp only [List.append_assoc]
    rfl
  · refine ⟨hc.ident hn (by simp [hk]) (by simp [hk]) (by simp [hk]), ?_, ?_⟩
    · intro g hg
      obtain ⟨c, hcm, h⟩ := List.mem_filterMap.mp hg
      obtain ⟨g', h', _, h3⟩ := hbd c hcm (by rw [hb1 c hcm, h]; rfl)
      rw [h] at h'
      injection h' with h'
      exact h' ▸ h3
    · intro x hx
      obtain ⟨c, hcm, h⟩ := List.mem_filterMap.mp hx
      obtain ⟨x', h', _, h3⟩ := hrs c hcm (by rw [hr1 c hcm, h]; rfl)
      rw [h] at h'
      injection h' with h'
      exact h' ▸ h3

/-- Definitions, and copies of archives. -/
theorem Compiled.definition (hf : Flat t) (hb : NoBuiltin t) {q : Path} {n n' : Tree} (hn : t.descend q = some n) (hd : Spec.Kind.isDefinition n.kind = true)
    (hn' : n' = n ∨ n.kind = .archive ∧ ∃ cs, n' = .mk n.name .archive cs ∧ ∀ c ∈ cs, c ∈ n.children) :
    ∃ e, definitionRecord n' = some e ∧ printDefinition t n' = .ok (unlead (entryText e)) ∧ NormalEntry (DecoOk t) e := by
  rcases hn' with rfl | ⟨hk, cs, rfl, hcs⟩
  · unfold definitionRecord printDefinition
    cases hk : n'.kind <;> rw [hk] at hd <;> try (cases hd; done)
    · obtain ⟨h1, h2⟩ := hc.const hn hk
      exact ⟨_, rfl, by simp only [pure, Except.pure]; rw [h1], h2⟩
    · obtain ⟨h1, h2⟩ := hc.enum hn hk
      exact ⟨_, rfl, by simp only [pure, Except.pure]; rw [h1], h2⟩
    · obtain ⟨h1, h2⟩ := hc.struct hn hk
      exact ⟨_, rfl, h1, h2⟩
    · have := hc.arch hf hb hn hk (cs := n'.children) (fun _ h => h)
      have he : Tree.mk n'.name .archive n'.children = n' := by rw [← hk]; cases n'; rfl
      rw [he] at this
      exact ⟨_, rfl, this.1, this.2⟩
  · obtain ⟨h1, h2⟩ := hc.arch hf hb hn hk hcs
    exact ⟨_, rfl, h1, h2⟩

end

end Gen
