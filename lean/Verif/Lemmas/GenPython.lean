import Verif.Lemmas.GenChars
import Verif.Props.Gen.Schema
import Verif.Props.ArchiveUse
import Verif.Spec.Module

/-! # Generated Python modules -/

namespace Gen
open Spec Props

/-! ## Names -/

theorem joinTexts_concat {sep : Text} {ns : List Text} (h : ns ≠ []) (k : Text) : joinTexts sep (ns ++ [k]) = joinTexts sep ns ++ sep ++ k := by
  induction ns with
  | nil => exact absurd rfl h
  | cons w ws ih =>
    cases ws with
    | nil => rfl
    | cons v vs =>
      have := ih (by simp)
      simp only [List.cons_append] at this ⊢
      rw [joinTexts, this, joinTexts.eq_def sep (w :: v :: vs)]
      · simp
      · simp

theorem joinTexts_mem {sep : Text} {ns : List Text} {c : Char} (h : c ∈ joinTexts sep ns) : c ∈ sep ∨ ∃ k ∈ ns, c ∈ k := by
  induction ns with
  | nil => cases h
  | cons w ws ih =>
    cases ws with
    | nil => exact .inr ⟨w, by simp, h⟩
    | cons v vs =>
      rw [joinTexts] at h
      · simp only [List.mem_append] at h
        rcases h with (h | h) | h
        · exact .inr ⟨w, by simp, h⟩
        · exact .inl h
        · rcases ih h with h | ⟨k, hk, h⟩
          · exact .inl h
          · exact .inr ⟨k, by simp [hk], h⟩
      · simp

theorem joinTexts_head {sep : Text} {w : Text} {ws : List Text} {c : Char} (h : c ∈ w.head?) : c ∈ (joinTexts sep (w :: ws)).head? := by
  cases w with
  | nil => cases h
  | cons d w =>
    cases ws with
    | nil => exact h
    | cons v vs =>
      rw [joinTexts]
      · exact h
      · simp

theorem toUpper_underscore {c : Char} (h : c.toUpper = '_') : c = '_' := by
  unfold Char.toUpper at h
  split at h
  · rename_i hc
    exfalso
    have h1 := congrArg Char.toNat h
    have h2 : (c.val + ('A'.val - 'a'.val)).toNat = 95 := by
      have := congrArg (fun x : Char => x.val.toNat) h
      simpa using this
    have h3 : 97 ≤ c.val.toNat ∧ c.val.toNat ≤ 122 := by
      obtain ⟨a, b⟩ := hc
      exact ⟨a, b⟩
    have h4 : ('A'.val - 'a'.val).toNat = 4294967264 := by decide
    rw [UInt32.toNat_add, h4] at h2
    omega
  · exact h

section
variable {t : Tree} (hc : Compiled t)
include hc

theorem Compiled.className (hf : Flat t) {p : Path} {n : Tree} (hn : t.descend p = some n) (hd : Spec.Kind.isDefinition n.kind = true) :
    className t p = pythonName p := by
  obtain ⟨ns, k, rfl, _, hne, hns, _⟩ := hc.namespaces hf hn hd
  unfold Gen.className pythonName
  rw [hns, joinTexts_concat hne, List.getLastD_concat]
  simp

theorem Compiled.pythonIdent (hi : Importable t) {p : Path} {n : Tree} (hn : t.descend p = some n) (hd : Spec.Kind.isDefinition n.kind = true) :
    Ident (pythonName p) ∧ ∃ c ∈ (pythonName p).head?, IdStart c ∧ c ≠ '_' := by
  have hnr : ∀ rk, n.kind ≠ .ref rk := by
    intro rk hk
    rw [hk] at hd; cases hd
  cases p with
  | nil =>
    simp only [Tree.descend, Option.some.injEq] at hn
    subst hn
    rw [hc.rootKind] at hd; cases hd
  | cons k ks =>
    have : ∃ m, t.descend [k] = some m := by
      simp only [Tree.descend] at hn ⊢
      cases h : t.child k with
      | none => rw [h] at hn; cases hn
      | some c => exact ⟨c, rfl⟩
    obtain ⟨m, hm⟩ := this
    obtain ⟨c, h1, h2, h3⟩ := hi.letters k m hm
    have hh : c ∈ (pythonName (k :: ks)).head? := joinTexts_head h1
    refine ⟨⟨⟨c, hh, h2⟩, ?_⟩, c, hh, h2, h3⟩
    intro d hd
    rcases joinTexts_mem hd with hd | ⟨x, hx, hd⟩
    · simp only [List.mem_singleton] at hd
      subst hd
      exact .inl (.inr (.inr rfl))
    · exact (hc.names hn hnr x hx).2 d hd

end

theorem mangle_id {cls name : Text} (h : name.take 2 ≠ ['_', '_']) : mangle cls name = name := by
  unfold mangle
  simp [h]

theorem mangle_letter {cls name : Text} {c : Char} (h : c ∈ name.head?) (hc : c ≠ '_') : mangle cls name = name := by
  apply mangle_id
  cases name with
  | nil => cases h
  | cons d u =>
    simp only [List.head?_cons, Option.mem_def, Option.some.injEq] at h
    subst h
    intro e
    simp only [List.take_succ_cons, List.cons.injEq] at e
    exact hc e.1

/-! ## Literals -/

theorem schema_literals {x : Text} (h : SchemaChars x) : evalLiteral (pyLiteral x) = some x ∧ evalLiteral (pyRawLiteral x) = some x := by
  have hne : ∀ d : Char, ¬ SchemaChar d → ∀ c ∈ x, c ≠ d := fun d hd c hcm => schar_ne (h c hcm) hd
  constructor
  · unfold evalLiteral
    rw [C58_python x ['\n'] fun c hcm => ⟨hne _ (by decide) c hcm, hne _ (by decide) c hcm⟩]
    rfl
  · unfold evalLiteral
    rw [C58_python_raw x ['\n'] fun c hcm => ⟨hne _ (by decide) c hcm, hne _ (by decide) c hcm, hne _ (by decide) c hcm, hne _ (by decide) c hcm⟩]
    rfl

/-! ## Dictionaries -/

theorem lookup_none_iff' {α : Type} {d : List (String × α)} {k : String} : d.lookup k = none ↔ k ∉ d.map Prod.fst := by
  induction d with
  | nil => simp
  | cons a d ih =>
    obtain ⟨x, v⟩ := a
    rw [List.lookup_cons]
    by_cases h : k = x
    · subst h; simp
    · have : (k == x) = false := by simp [h]
      rw [this]
      simp only [List.map_cons, List.mem_cons, h, false_or]
      exact ih

theorem dictDisplay_nodup {α : Type} {l : List (String × α)} (h : (l.map Prod.fst).Nodup) : dictDisplay l = l := by
  have key : ∀ (l d : List (String × α)), ((d ++ l).map Prod.fst).Nodup → l.foldl (fun d p => Model.dictSet d p.1 p.2) d = d ++ l := by
    intro l
    induction l with
    | nil => intro d _; simp
    | cons a l ih =>
      intro d hd
      rw [List.foldl_cons, dictSet_fresh, ih]
      · simp
      · simpa using hd
      · rw [lookup_none_iff']
        rw [List.map_append, List.nodup_append] at hd
        intro hm
        exact hd.2.2 _ hm _ (by simp) rfl
  exact (key l [] (by simpa using h)).trans (List.nil_append l)

theorem lookup_of_nodup {β γ : Type} [BEq β] [LawfulBEq β] {d : List (β × γ)} {k : β} {v : γ} (hd : (d.map Prod.fst).Nodup) (hmem : (k, v) ∈ d) :
    d.lookup k = some v := by
  induction d with
  | nil => cases hmem
  | cons a d ih =>
    obtain ⟨x, w⟩ := a
    rw [List.map_cons, List.nodup_cons] at hd
    rw [List.lookup_cons]
    rcases List.mem_cons.mp hmem with e | h
    · injection e with e1 e2
      subst e1 e2
      simp
    · have : k ≠ x := by
        rintro rfl
        exact hd.1 (List.mem_map.mpr ⟨(k, v), h, rfl⟩)
      have : (k == x) = false := by simpa using this
      rw [this]
      exact ih hd.2 h

theorem lookup_not_mem {β γ : Type} [BEq β] [LawfulBEq β] {d : List (β × γ)} {k : β} (h : k ∉ d.map Prod.fst) : d.lookup k = none := by
  induction d with
  | nil => rfl
  | cons a d ih =>
    obtain ⟨x, w⟩ := a
    simp only [List.map_cons, List.mem_cons, not_or] at h
    rw [List.lookup_cons]
    have : (k == x) = false := by simpa using h.1
    rw [this]
    exact ih h.2

theorem mapM_map {α β : Type} {f : α → M β} {g : α → β} {l : List α} (h : ∀ x ∈ l, f x = .ok (g x)) : l.mapM f = .ok (l.map g) := by
  induction l with
  | nil => rfl
  | cons a l ih =>
    rw [List.mapM_cons, h a (by simp), ih fun x hx => h x (by simp [hx])]
    rfl

/-! ## Structures -/

theorem dtypeText_numpy (b : BasicName) : numpyDtype b.dtypeText = some b.dtype := by cases b <;> decide

/-- The entry of a field. -/
def fieldEntry (f : Tree) : PyField :=
  match f.kind with
  | .field (.basic b) _ o => ⟨f.name, o.getD 0, b.width, b.name.isSigned, b.name.dtypeText⟩
  | .field (.enum _ b) _ o => ⟨f.name, o.getD 0, b.width, b.name.isSigned, b.name.dtypeText⟩
  | _ => ⟨[], 0, 0, false, []⟩

theorem entries_layout {cs : List Tree} {o : Nat} (h : ∀ (i : Nat) c t r w, cs[i]? = some c → c.kind = .field t r w → w = some (o + totalBits (cs.take i)))
    (ht : ∀ c ∈ cs, ∀ r w, c.kind ≠ .field .none r w) :
    ((cs.filter fun c => c.kind.isField).map fieldEntry).map (fun f => (String.ofList f.key, (⟨f.offset, f.width, f.isSigned⟩ : Model.FieldSig))) =
      Model.layoutFrom o (cs.filterMap declaredField) ∧
    (cs.filter fun c => c.kind.isField).map (fun f => String.ofList f.name) = (cs.filterMap declaredField).map (·.name) ∧
    Model.sizeInBitsFrom o (cs.filterMap declaredField) = o + totalBits cs ∧
    ((cs.filter fun c => c.kind.isField).map fieldEntry).map (fun f => (f.key, numpyDtype f.dtype)) = cs.filterMap declaredDtype := by
  induction cs generalizing o with
  | nil => exact ⟨rfl, rfl, rfl, rfl⟩
  | cons c cs ih =>
    have htot : ∀ l, totalBits (c :: l) = bitsOf c.kind + totalBits l := by intro l; simp [totalBits]
    obtain ⟨h1, h2, h3, h4⟩ := ih (o := o + bitsOf c.kind) (by
      intro i d t r w hd hk
      have := h (i + 1) d t r w (by simpa using hd) hk
      rw [List.take_succ_cons, htot] at this
      rw [this]; congr 1; omega) fun c hcm => ht c (by simp [hcm])
    have h0 := h 0 c
    simp only [List.getElem?_cons_zero, List.take_zero] at h0
    rw [show totalBits [] = 0 from rfl] at h0
    rw [htot]
    cases hk : c.kind with
    | field ty rg w =>
      have hw := h0 ty rg w trivial hk
      have hfl : (fun c : Tree => c.kind.isField) c = true := by simp [hk, Kind.isField]
      rw [List.filter_cons_of_pos (p := fun c : Tree => c.kind.isField) hfl]
      have typed : ∀ b : BasicType, (ty = .basic b ∨ ∃ e, ty = .enum e b) → declaredField c = some ⟨String.ofList c.name, b.width, b.name.isSigned⟩ ∧
          declaredDtype c = some (c.name, some b.name.dtype) ∧ fieldEntry c = ⟨c.name, o, b.width, b.name.isSigned, b.name.dtypeText⟩ ∧ bitsOf c.kind = b.width := by
        rintro b (rfl | ⟨e, rfl⟩)
        all_goals
          refine ⟨by unfold declaredField; rw [hk], by unfold declaredDtype; rw [hk], by unfold fieldEntry; rw [hk, hw]; rfl, by rw [hk]; rfl⟩
      have : ∃ b : BasicType, ty = .basic b ∨ ∃ e, ty = .enum e b := by
        cases ty with
        | basic b => exact ⟨b, .inl rfl⟩
        | enum e b => exact ⟨b, .inr ⟨e, rfl⟩⟩
        | none => exact absurd hk (ht c (by simp) rg w)
      obtain ⟨b, hb⟩ := this
      obtain ⟨e1, e2, e3, e4⟩ := typed b hb
      rw [← hk]
      rw [List.filterMap_cons_some e1, List.filterMap_cons_some e2, List.map_cons, List.map_cons, List.map_cons, List.map_cons, List.map_cons, h1, h2, h4, e3, e4]
      rw [e4] at h3
      refine ⟨rfl, rfl, ?_, by simp only [dtypeText_numpy]⟩
      rw [Model.sizeInBitsFrom, h3]; omega
    | _ =>
      have e1 : declaredField c = none := by unfold declaredField; rw [hk]
      have e2 : declaredDtype c = none := by unfold declaredDtype; rw [hk]
      have hfl : ¬ (fun c : Tree => c.kind.isField) c = true := by simp [hk, Kind.isField]
      rw [List.filterMap_cons_none e1, List.filterMap_cons_none e2, List.filter_cons_of_neg (p := fun c : Tree => c.kind.isField) hfl]
      rw [hk] at h1 h3
      simp only [bitsOf, Nat.add_zero] at h1 h3
      exact ⟨h1, h2, by rw [h3]; simp [bitsOf], h4⟩

theorem layoutFrom_names (o : Nat) (fs : List Model.FieldDecl) : (Model.layoutFrom o fs).map Prod.fst = fs.map (·.name) := by
  induction fs generalizing o with
  | nil => rfl
  | cons f fs ih => simp [Model.layoutFrom, ih]

theorem constant_not_enumeration {k : Kind} (h : k.isConstantReference = true) : k.isEnumerationReference = false := by
  cases k with
  | ref rk => cases rk <;> first | rfl | cases h
  | _ => rfl

/-- A field has at most one enumeration. -/
theorem one_enumeration {blocks : List PBlock} {t : Tree} (s : Stages blocks t) (hl : ∀ b ∈ blocks, Lexical b) {q : Path} {n : Tree} {ty : FieldType} {rg : Option Text}
    {o : Option Nat} (hn : t.descend q = some n) (hk : n.kind = .field ty rg o) : (n.childrenLike Kind.isEnumerationReference).length ≤ 1 := by
  have hb : ∀ b ∈ blocks, PlainNames b := fun b hb => lexical_plain (hl b hb)
  obtain ⟨hlr, hshr⟩ := s.linked hb
  rcases s.origin hl hn with ⟨r, ext, h1, _, h3, h4, h5, _⟩ | ⟨h, _⟩
  · have he := h5 (by rw [hk]; simp)
    subst he
    rw [List.append_nil] at h4
    have hkinds : n.children.map (fun c => c.kind.blank) = r.children.map (fun c => c.kind.blank) := by
      have := congrArg (List.map Prod.snd) h4
      simpa [List.map_map, Function.comp_def] using this
    have hlen : ∀ l : List Tree, (l.filter fun c => c.kind.isEnumerationReference).length = ((l.map fun c => c.kind.blank).filter Kind.isEnumerationReference).length := by
      intro l
      rw [List.filter_map, List.length_map]
      congr 1
      apply List.filter_congr
      intro c _
      simp only [Function.comp]
      cases hck : c.kind <;> rfl
    unfold Tree.childrenLike
    rw [hlen, hkinds, ← hlen]
    have hrk : ∃ ty' o', r.kind = .field ty' rg o' := by
      rw [hk] at h3
      cases hrk : r.kind <;> rw [hrk] at h3 <;> simp [Kind.blank] at h3
      subst h3
      exact ⟨_, _, rfl⟩
    obtain ⟨ty', o', hrk⟩ := hrk
    have hsh := (shaped_descend hshr h1).kinds
    rw [hrk] at hsh
    have hcount : ((childKinds r.children).filter Kind.isEnumerationReference).length ≤ 1 := by
      have hcs : ∀ cs : List Kind, (∀ k ∈ cs, k.isConstantReference = true) → cs.filter Kind.isEnumerationReference = [] := by
        intro cs hcs
        rw [List.filter_eq_nil_iff]
        intro k hkm he
        rw [constant_not_enumeration (hcs k hkm)] at he
        cases he
      cases ty' with
      | basic b => rw [hcs _ hsh]; simp
      | enum _ _ =>
        obtain ⟨cs, w, e1, e2⟩ := hsh
        rw [e1, List.filter_append, hcs cs e2]; simp [List.filter_singleton, Kind.isEnumerationReference]
      | none =>
        obtain ⟨cs, w, e1, e2⟩ := hsh
        rw [e1, List.filter_append, hcs cs e2]; simp [List.filter_singleton, Kind.isEnumerationReference]
    have : ((childKinds r.children).filter Kind.isEnumerationReference).length = (r.children.filter fun c => c.kind.isEnumerationReference).length := by
      unfold childKinds
      rw [List.filter_filter, List.filter_map, List.length_map]
      congr 1
      apply List.filter_congr
      intro c _
      simp only [Function.comp, ne_eq, decide_not]
      cases hck : c.kind <;> simp [Kind.isEnumerationReference]
    omega
  · rw [hk] at h; cases h

theorem fieldType_signed {ty : FieldType} {b : BasicType} (h : ty = .basic b ∨ ∃ e, ty = .enum e b) : ty.width = .ok b.width ∧ ty.isSigned = .ok b.name.isSigned := by
  rcases h with rfl | ⟨e, rfl⟩ <;> exact ⟨rfl, rfl⟩

theorem basicOfText_at {n : Text} (h : n.head? = some '@') : basicOfText n = none := by
  cases n with
  | nil => cases h
  | cons c u =>
    simp only [List.head?_cons, Option.some.injEq] at h
    subst h
    unfold basicOfText
    rw [List.find?_eq_none]
    intro b _
    cases b <;> simp [BasicName.text]

theorem compile_field {s : Text} {t : Tree} (h : Compile s (.ok t)) {q : Path} {f : Tree} {ty : FieldType} {rg : Option Text} {o : Nat} (hn : t.descend q = some f)
    (hk : f.kind = .field ty rg (some o)) : pyField t f = .ok (fieldEntry f) := by
  have hc := compile_compiled h
  obtain ⟨blocks, _, hl, hba⟩ := compile_blocks h
  obtain ⟨st, _⟩ := buildAst_stages hba
  unfold pyField
  rw [hk]
  simp only
  rcases hc.typed q f ty rg (some o) hn hk with ⟨b, rfl⟩ | ⟨ref, h1, w, m, b, h2, h3, h4, rfl⟩
  · have : fieldEntry f = ⟨f.name, o, b.width, b.name.isSigned, b.name.dtypeText⟩ := by unfold fieldEntry; rw [hk]; rfl
    rw [this]; rfl
  · have : fieldEntry f = ⟨f.name, o, b.width, b.name.isSigned, b.name.dtypeText⟩ := by unfold fieldEntry; rw [hk]; rfl
    rw [this]
    obtain ⟨body, hbody⟩ := hc.refName _ ref _ (hc.child hn h1) h2
    have hone := one_enumeration st hl hn hk
    have hmem : ref ∈ f.childrenLike Kind.isEnumerationReference := by
      unfold Tree.childrenLike
      rw [List.mem_filter]
      exact ⟨h1, by rw [h2]; rfl⟩
    have hlist : f.childrenLike Kind.isEnumerationReference = [ref] := by
      match hc : f.childrenLike Kind.isEnumerationReference, hone, hmem with
      | [x], _, hmem => rw [List.mem_singleton] at hmem; rw [hmem]
      | x :: y :: l, hone, _ => simp at hone
    have hfind : t.find ref.target = .ok m := by
      obtain ⟨m', g1, g2, g3, g4⟩ := hc.lk.target (hc.child hn h1) h2
      rw [h3] at g2; cases g2
      exact g3
    have hd : toDtype t f (.enum ref.name b) = .ok b.name.dtypeText := by
      unfold toDtype
      simp only
      rw [basicOfText_at (by rw [hbody]; rfl)]
      simp only
      rw [hlist]
      simp only
      rw [hfind]
      show (match m.kind with | .enumeration b => pure b.name.dtypeText | _ => throw Err.attributeError) = Except.ok b.name.dtypeText
      rw [h4]; rfl
    rw [hd]; rfl

theorem nodup_ofList {l : List Text} (h : l.Nodup) : (l.map String.ofList).Nodup := by
  refine h.map ?_
  intro a b hab
  have := congrArg String.toList hab
  simpa using this

theorem structure_stmt {s : Text} {t : Tree} (h : Compile s (.ok t)) (hf : Flat t) (hi : Importable t) {p : Path} {n : Tree} {sz : Option Nat}
    (hn : t.descend p = some n) (hk : n.kind = .structure sz) {x : Text} (hx : SchemaChars x) :
    ∃ st dts, pyStructure t p n (.ok x) = .ok st ∧ (∀ env, execStmt env st = some ((pythonName p, .structure (structureClass p n) (totalBits n.children) x dts) :: env)) ∧
      dts.map (fun d => (d.1, numpyDtype d.2)) = n.children.filterMap declaredDtype := by
  have hc := compile_compiled h
  have hd : Spec.Kind.isDefinition n.kind = true := by rw [hk]; rfl
  obtain ⟨hl1, hl2⟩ := hc.laidOut p n sz hn hk
  have hfe : ∀ f ∈ n.fields, pyField t f = .ok (fieldEntry f) := by
    intro f hfm
    unfold Tree.fields Tree.childrenLike at hfm
    rw [List.mem_filter] at hfm
    obtain ⟨hfm, hfk⟩ := hfm
    cases hfk' : f.kind with
    | field ty rg o =>
      obtain ⟨i, hi⟩ := List.getElem?_of_mem hfm
      have := hl2 i f ty rg o hi hfk'
      subst this
      exact compile_field h (hc.child hn hfm) hfk'
    | _ => rw [hfk'] at hfk; cases hfk
  obtain ⟨e1, e2, e3, e4⟩ := entries_layout (cs := n.children) (o := 0) (by
      intro i c ty r w hci hck
      rw [Nat.zero_add]
      exact hl2 i c ty r w hci hck) (by
      intro c hcm r w hck
      rcases hc.typed _ c _ _ _ (hc.child hn hcm) hck with ⟨b, hb⟩ | ⟨ref, _, w, m, b, _, _, _, hb⟩ <;> cases hb)
  refine ⟨.structure (className t p) (pyRawLiteral x) (className t p) (totalBits n.children) ((totalBits n.children + 7) / 8) (n.fields.map fieldEntry) (n.fields.map Tree.name),
    (n.fields.map fieldEntry).map fun f => (f.key, f.dtype), ?_, ?_, ?_⟩
  · unfold pyStructure
    rw [hl1]
    simp only
    rw [mapM_map hfe]
    rfl
  · intro env
    have hcn := hc.className hf hn hd
    rw [hcn]
    unfold execStmt
    simp only
    rw [if_pos (hc.pythonIdent hi hn hd).1, (schema_literals hx).2]
    simp only [Option.bind_eq_bind, Option.bind_some, Option.pure_def, Option.some.injEq, List.cons.injEq, Prod.mk.injEq, true_and, and_true, PyVal.structure.injEq]
    have hnd : ((Model.layoutFrom 0 (n.children.filterMap declaredField)).map Prod.fst).Nodup := by
      rw [layoutFrom_names, ← e2]
      have : ((n.children.filter fun c => c.kind.isField).map Tree.name).Nodup :=
        List.Nodup.sublist (List.filter_sublist.map _) (good_descend hc.lk.good hn).nodup
      have := nodup_ofList this
      rwa [List.map_map] at this
    have hfields : dictDisplay ((n.fields.map fieldEntry).map fun f => (String.ofList f.key, (⟨f.offset, f.width, f.isSigned⟩ : Model.FieldSig))) =
        Model.layoutFrom 0 (n.children.filterMap declaredField) := by
      unfold Tree.fields Tree.childrenLike
      rw [e1, dictDisplay_nodup hnd]
    unfold structureClass Model.mkStruct
    rw [hfields, e3, Nat.zero_add, List.map_map]
    congr 1
  · rw [List.map_map]
    simp only [Function.comp_def]
    unfold Tree.fields Tree.childrenLike
    exact e4

end Gen
