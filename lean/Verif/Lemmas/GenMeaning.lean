import Verif.Lemmas.GenSchema
import Verif.Spec.Meaning

/-! # Schemas determine meanings -/

namespace Gen
open Parser Spec Props

def entryName : PEntry → Text
  | .struct s => s.name
  | .enumeration e => e.name
  | .constant c => c.name
  | .archive a => a.name
  | .comment => []

theorem record_name {n : Tree} {e : PEntry} (h : definitionRecord n = some e) : entryName e = n.name := by
  unfold definitionRecord at h
  cases hk : n.kind <;> rw [hk] at h <;> first | (cases h; done) | (injection h with h; subst h; rfl)

theorem record_isSome {n : Tree} : (definitionRecord n).isSome = Spec.Kind.isDefinition n.kind := by
  unfold definitionRecord
  cases n.kind <;> rfl

section
variable {t : Tree} (hc : Compiled t)
include hc

theorem Compiled.defPath (hf : Flat t) {p : Path} {m : Tree} {e : PEntry} (hm : t.descend p = some m) (he : definitionRecord m = some e) :
    p = p.dropLast ++ [entryName e] := by
  have hd : Spec.Kind.isDefinition m.kind = true := by rw [← record_isSome, he]; rfl
  obtain ⟨ns, k, rfl, h2, _⟩ := hc.namespaces hf hm hd
  rw [record_name he, h2, List.dropLast_concat]

theorem Compiled.printedBelow (hf : Flat t) {q p : Path} {w : List Text × PEntry} :
    printedOf t q (false, p) = some w ↔ ∃ m, t.descend p = some m ∧ ¬ InBuiltin p ∧ ∃ e, definitionRecord m = some e ∧ w = (p.dropLast, e) := by
  unfold printedOf extractNode
  cases hm : t.descend p with
  | none => simp
  | some m =>
    simp only [Bool.false_eq_true, false_and, if_false]
    constructor
    · intro h
      split at h
      · rename_i hs
        simp only [Bool.and_eq_true, Bool.not_eq_true'] at hs
        obtain ⟨e, he, rfl⟩ := Option.map_eq_some_iff.mp h
        rw [supported_definition] at hs
        refine ⟨m, rfl, ?_, e, he, rfl⟩
        intro hb
        have := (hc.builtin hf hm hs.1).mpr hb
        rw [hs.2] at this; cases this
      · cases h
    · rintro ⟨m', h1, h2, e, h3, rfl⟩
      injection h1 with h1
      subst h1
      have hd : Spec.Kind.isDefinition m.kind = true := by rw [← record_isSome, h3]; rfl
      have hnb : isBuiltin t p = false := by
        rw [← Bool.not_eq_true, hc.builtin hf hm hd]
        exact h2
      rw [supported_definition, hd, hnb, h3]
      rfl

/-- The definitions a node depends on. -/
def Below (t : Tree) (q : Path) (w : List Text × PEntry) : Prop :=
  ∃ k p m e, Walk (depChildren t) (k + 1) q p ∧ t.descend p = some m ∧ ¬ InBuiltin p ∧ definitionRecord m = some e ∧ w = (p.dropLast, e)

/-- The schema of a definition. -/
theorem Compiled.definitionSchema (hf : Flat t) (hb : NoBuiltin t) {q : Path} {n : Tree} (hn : t.descend q = some n) {e : PEntry} (he : definitionRecord n = some e)
    (hq : ¬ InBuiltin q) {x : Text} (h : Schema t q (.ok x)) :
    ∃ init, '\n' :: '\n' :: x = sourceText (init ++ [(q.dropLast, e)]) ∧ (∀ w, w ∈ init ↔ Below t q w) ∧
      ∀ w ∈ init ++ [(q.dropLast, e)], w.1 ≠ [] ∧ (∀ k ∈ w.1, NsName k) ∧ NormalEntry (DecoOk t) w.2 := by
  have hd : Spec.Kind.isDefinition n.kind = true := by rw [← record_isSome, he]; rfl
  have hp : Printable n.kind = true := by unfold Printable; rw [hd]; rfl
  obtain ⟨order, h1, h2, h3, h4, h5⟩ := hc.schema hf hb hn hp h
  have hself : printedOf t q (true, q) = some (q.dropLast, e) := by
    unfold printedOf extractNode
    have hnb : isBuiltin t q = false := by
      rw [← Bool.not_eq_true, hc.builtin hf hn hd]
      exact hq
    simp only [hn, ne_eq, not_true_eq_false, and_false, if_false]
    rw [supported_definition, hd, hnb, he]
    rfl
  have hqo : (true, q) ∈ order := by
    have := extract_prefix (t := t) (q := q) (i := q.length) (le_refl _)
    rw [List.take_length] at this
    exact (h2 _).mpr ⟨_, this⟩
  have hform : ∀ z ∈ order, z ≠ (true, q) → printedOf t q z ≠ none → ∃ p k, z = (false, p) ∧ Walk (depChildren t) (k + 1) q p := by
    intro z hz hne hpr
    rcases extract_reach ((h2 z).mp hz) with ⟨i, hi, rfl⟩ | ⟨p, k, rfl, hk⟩
    · exfalso
      unfold printedOf at hpr
      cases hx : extractNode t q (true, q.take i) with
      | none => simp [hx] at hpr
      | some y =>
        simp only [hx] at hpr
        by_cases hs : y.kind.isSupported = true
        · rcases hc.extracted hf hn hp hi hx hs with ⟨g1, _, _⟩ | ⟨_, _, _, _, g, _⟩
          · exact hne (by rw [g1])
          · have : n.kind.isResource = false := by
              cases hk : n.kind <;> rw [hk] at hd <;> first | (cases hd; done) | rfl
            rw [g] at this; cases this
        · rw [if_neg (by simp [hs])] at hpr
          exact hpr rfl
    · exact ⟨p, k, rfl, hk⟩
  obtain ⟨init, i1, i2⟩ := filterMap_last h1 hqo hself (fun z hz hne hpr => by
    obtain ⟨p, k, rfl, hk⟩ := hform z hz hne hpr
    exact h3 _ _ k hqo (extract_walk hk))
  refine ⟨init, by rw [← i1]; exact h4, ?_, by rw [← i1]; exact h5⟩
  intro w
  rw [i2]
  constructor
  · rintro ⟨z, hz, hne, hw⟩
    obtain ⟨p, k, rfl, hk⟩ := hform z hz hne (by rw [hw]; simp)
    obtain ⟨m, a1, a2, e', a3, rfl⟩ := (hc.printedBelow hf).mp hw
    exact ⟨k, p, m, e', hk, a1, a2, a3, rfl⟩
  · rintro ⟨k, p, m, e', hk, a1, a2, a3, rfl⟩
    exact ⟨(false, p), (h2 _).mpr (extract_reachable hk), by simp, (hc.printedBelow hf).mpr ⟨m, a1, a2, e', a3, rfl⟩⟩

theorem Compiled.uniqueChild {q : Path} {m c : Tree} (hm : t.descend q = some m) (hcm : c ∈ m.children) : (m.children.filter fun d => d.name = c.name) = [c] := by
  have hg := good_descend hc.lk.good hm
  have hnd : (m.children.map Tree.name).Nodup := by cases hg; assumption
  obtain ⟨a, b, hab⟩ := List.append_of_mem hcm
  rw [hab, List.map_append, List.map_cons, List.nodup_append, List.nodup_cons] at hnd
  obtain ⟨_, ⟨h1, _⟩, h2⟩ := hnd
  rw [hab, List.filter_append, List.filter_cons_of_pos (by simp)]
  rw [List.filter_eq_nil_iff.mpr, List.filter_eq_nil_iff.mpr]
  · rfl
  · intro d hd
    simp only [decide_eq_true_eq]
    intro he
    exact h1 (List.mem_map.mpr ⟨d, hd, he⟩)
  · intro d hd
    simp only [decide_eq_true_eq]
    intro he
    exact h2 d.name (List.mem_map_of_mem hd) c.name (by simp) he

/-- The schema of a resource. -/
theorem Compiled.resourceSchema (hf : Flat t) (hb : NoBuiltin t) {a : Path} {k : Text} {n : Tree} (hn : t.descend (a ++ [k]) = some n) (hr : n.kind.isResource = true)
    (hq : ¬ InBuiltin a) {x : Text} (h : Schema t (a ++ [k]) (.ok x)) :
    ∃ m init, t.descend a = some m ∧ m.kind = .archive ∧
      '\n' :: '\n' :: x = sourceText (init ++ [(a.dropLast, .archive (archiveRecord (.mk m.name .archive [n])))]) ∧ (∀ w, w ∈ init ↔ Below t (a ++ [k]) w) ∧
      ∀ w ∈ init ++ [(a.dropLast, .archive (archiveRecord (.mk m.name .archive [n])))], w.1 ≠ [] ∧ (∀ k ∈ w.1, NsName k) ∧ NormalEntry (DecoOk t) w.2 := by
  have hp : Printable n.kind = true := by unfold Printable; rw [hr]; simp
  have hnd : Spec.Kind.isDefinition n.kind = false := by
    cases hk : n.kind <;> rw [hk] at hr <;> first | (cases hr; done) | rfl
  obtain ⟨m, hm, hmem, _, hma⟩ := hc.parents a k n hn
  have hmk := hma hr
  obtain ⟨_, _, _, hname⟩ := descend_parent hn
  have hmd : Spec.Kind.isDefinition m.kind = true := by rw [hmk]; rfl
  obtain ⟨order, h1, h2, h3, h4, h5⟩ := hc.schema hf hb hn hp h
  have hne : a ≠ a ++ [k] := by
    intro e
    have := congrArg List.length e
    simp at this
  have hself : printedOf t (a ++ [k]) (true, a) = some (a.dropLast, .archive (archiveRecord (.mk m.name .archive [n]))) := by
    unfold printedOf extractNode
    have hnb : isBuiltin t a = false := by
      rw [← Bool.not_eq_true, hc.builtin hf hm hmd]
      exact hq
    simp only [hm, ne_eq, hne, not_false_eq_true, and_self, if_true]
    have hfil : (m.children.filter fun c => some c.name = ((a ++ [k]).drop a.length).head?) = [n] := by
      rw [List.drop_left]
      simp only [List.head?_cons, Option.some.injEq]
      have := hc.uniqueChild hm hmem
      rw [hname] at this
      exact this
    rw [hfil, hmk, hnb]
    rfl
  have hpre : Walk (extractChildren t (a ++ [k])) a.length (true, []) (true, a) := by
    have := extract_prefix (t := t) (q := a ++ [k]) (i := a.length) (by simp)
    rwa [List.take_left] at this
  have hqo : (true, a) ∈ order := (h2 _).mpr ⟨_, hpre⟩
  have hstep : Walk (extractChildren t (a ++ [k])) 1 (true, a) (true, a ++ [k]) := by
    refine .step (.refl _) ?_
    have := extract_copy (t := t) (q := a ++ [k]) (i := a.length) (by simp)
    rw [List.take_left] at this
    rw [this, List.take_of_length_le (by simp)]
    simp
  have hform : ∀ z ∈ order, z ≠ (true, a) → printedOf t (a ++ [k]) z ≠ none → ∃ p j, z = (false, p) ∧ Walk (depChildren t) (j + 1) (a ++ [k]) p := by
    intro z hz hne hpr
    rcases extract_reach ((h2 z).mp hz) with ⟨i, hi, rfl⟩ | ⟨p, j, rfl, hj⟩
    · exfalso
      unfold printedOf at hpr
      cases hx : extractNode t (a ++ [k]) (true, (a ++ [k]).take i) with
      | none => simp [hx] at hpr
      | some y =>
        simp only [hx] at hpr
        by_cases hs : y.kind.isSupported = true
        · rcases hc.extracted hf hn hp hi hx hs with ⟨_, g, _⟩ | ⟨a', k', g1, g2, _⟩
          · rw [g] at hnd; cases hnd
          · have := (List.append_inj' g1 rfl).1
            exact hne (by rw [g2, this])
        · rw [if_neg (by simp [hs])] at hpr
          exact hpr rfl
    · exact ⟨p, j, rfl, hj⟩
  obtain ⟨init, i1, i2⟩ := filterMap_last h1 hqo hself (fun z hz hne hpr => by
    obtain ⟨p, j, rfl, hj⟩ := hform z hz hne hpr
    have := walk_trans hstep (extract_walk hj)
    exact h3 _ _ (j + 1) hqo (by rwa [show j + 1 + 1 = 1 + (j + 1) by omega]))
  refine ⟨m, init, hm, hmk, by rw [← i1]; exact h4, ?_, by rw [← i1]; exact h5⟩
  intro w
  rw [i2]
  constructor
  · rintro ⟨z, hz, hne, hw⟩
    obtain ⟨p, j, rfl, hj⟩ := hform z hz hne (by rw [hw]; simp)
    obtain ⟨m, a1, a2, e', a3, rfl⟩ := (hc.printedBelow hf).mp hw
    exact ⟨j, p, m, e', hj, a1, a2, a3, rfl⟩
  · rintro ⟨j, p, m, e', hj, a1, a2, a3, rfl⟩
    exact ⟨(false, p), (h2 _).mpr (extract_reachable hj), by simp, (hc.printedBelow hf).mpr ⟨m, a1, a2, e', a3, rfl⟩⟩

end

/-! ## Meanings are determined by records -/

/-- Cumulative offsets. -/
def place : Nat → List (Text × Nat × Bool) → List FieldLayout
  | _, [] => []
  | o, f :: fs => ⟨f.1, some o, f.2.1, f.2.2⟩ :: place (o + f.2.1) fs

def fieldInfo (f : Tree) : Option (Text × Nat × Bool) :=
  match f.kind with
  | .field (.basic b) _ _ => some (f.name, b.width, b.name.isSigned)
  | .field (.enum _ b) _ _ => some (f.name, b.width, b.name.isSigned)
  | _ => none

theorem layout_place {cs : List Tree} {o : Nat} (h : ∀ (i : Nat) c t r w, cs[i]? = some c → c.kind = .field t r w → w = some (o + totalBits (cs.take i))) :
    cs.filterMap fieldLayout = place o (cs.filterMap fieldInfo) ∧ totalBits cs = ((cs.filterMap fieldInfo).map fun f => f.2.1).sum := by
  induction cs generalizing o with
  | nil => exact ⟨rfl, rfl⟩
  | cons c cs ih =>
    have htot : ∀ l, totalBits (c :: l) = bitsOf c.kind + totalBits l := by intro l; simp [totalBits]
    obtain ⟨h1, h2⟩ := ih (o := o + bitsOf c.kind) (by
      intro i d t r w hd hk
      have := h (i + 1) d t r w (by simpa using hd) hk
      rw [List.take_succ_cons, htot] at this
      rw [this]; congr 1; omega)
    have h0 := h 0 c
    simp only [List.getElem?_cons_zero, List.take_zero] at h0
    rw [show totalBits [] = 0 from rfl] at h0
    rw [htot, h2]
    cases hk : c.kind with
    | field ty rg w =>
      have hw := h0 ty rg w trivial hk
      cases ty with
      | basic b =>
        have e1 : fieldLayout c = some ⟨c.name, w, b.width, b.name.isSigned⟩ := by unfold fieldLayout; rw [hk]
        have e2 : fieldInfo c = some (c.name, b.width, b.name.isSigned) := by unfold fieldInfo; rw [hk]
        rw [List.filterMap_cons_some e1, List.filterMap_cons_some e2, place]
        rw [hk] at h1
        rw [h1, hw]
        exact ⟨rfl, rfl⟩
      | enum nm b =>
        have e1 : fieldLayout c = some ⟨c.name, w, b.width, b.name.isSigned⟩ := by unfold fieldLayout; rw [hk]
        have e2 : fieldInfo c = some (c.name, b.width, b.name.isSigned) := by unfold fieldInfo; rw [hk]
        rw [List.filterMap_cons_some e1, List.filterMap_cons_some e2, place]
        rw [hk] at h1
        rw [h1, hw]
        exact ⟨rfl, rfl⟩
      | none =>
        have e1 : fieldLayout c = none := by unfold fieldLayout; rw [hk]
        have e2 : fieldInfo c = none := by unfold fieldInfo; rw [hk]
        rw [List.filterMap_cons_none e1, List.filterMap_cons_none e2]
        rw [hk] at h1
        exact ⟨h1, by simp [bitsOf]⟩
    | _ =>
      have e1 : fieldLayout c = none := by unfold fieldLayout; rw [hk]
      have e2 : fieldInfo c = none := by unfold fieldInfo; rw [hk]
      rw [List.filterMap_cons_none e1, List.filterMap_cons_none e2]
      rw [hk] at h1
      exact ⟨h1, by simp [bitsOf]⟩

/-- The layout of a resource according to its record. -/
def layoutOfRecord (x : PResource) : ResourceLayout :=
  match x.type with
  | .vector t => ⟨x.name, .vector, decide (.optional ∈ x.decorations), [t], []⟩
  | .multivector w ts => ⟨x.name, .multivector w, decide (.optional ∈ x.decorations), ts, []⟩
  | .object t => ⟨x.name, .instance, decide (.optional ∈ x.decorations), [t], []⟩
  | .rawData => ⟨x.name, .rawData, decide (.optional ∈ x.decorations), [], []⟩
  | .archive t => ⟨x.name, .archive, decide (.optional ∈ x.decorations), [], [t]⟩

theorem childrenOf_none {n : Tree} {k : Kind} (hk : k ≠ .namespace) (h : k ∉ childKinds n.children) : childrenOf n k = [] := by
  have : (childrenOf n k).map Tree.kind = [] := by
    rw [childrenOf_kinds hk, List.filter_eq_nil_iff]
    intro x hx
    simp only [decide_eq_true_eq]
    rintro rfl
    exact h hx
  simpa using this

section
variable {t : Tree} (hc : Compiled t)
include hc

theorem Compiled.resourceMeaning {q : Path} {r : Tree} (hn : t.descend q = some r) : resourceLayout r = (resourceRecord r).map layoutOfRecord := by
  cases hk : r.kind <;> try (unfold resourceLayout resourceRecord resourceTypeRecord; rw [hk]; rfl)
  rename_i k o m
  have hch := hc.resource q r k o m hn hk
  have hopt : decide (PResDeco.optional ∈ (childrenOf r .explicitReference).filterMap explicitRecord ++ if isOptionalResource r.kind = true then [PResDeco.optional] else []) = o := by
    have hno : PResDeco.optional ∉ (childrenOf r .explicitReference).filterMap explicitRecord := by
      intro hm
      obtain ⟨e, _, he⟩ := List.mem_filterMap.mp hm
      unfold explicitRecord at he
      split at he <;> cases he
    rw [hk]
    cases o <;> simp [isOptionalResource, hno]
  cases k with
  | bound => unfold resourceLayout resourceRecord resourceTypeRecord; rw [hk]; rfl
  | vector =>
    obtain ⟨n, h⟩ := hch
    obtain ⟨x, h1, _, _⟩ := hc.oneChild hn (by simp) (by simp) h
    have h2 := childrenOf_none (n := r) (k := .ref .archive) (by simp) (by rw [h]; simp)
    have h3 : resourceTypeRecord r = some (.vector x.target) := by unfold resourceTypeRecord; rw [hk, h1]; rfl
    unfold resourceLayout resourceRecord
    rw [h3]
    simp only [Option.map_some, layoutOfRecord, hopt]
    rw [hk, h1, h2]; rfl
  | «instance» =>
    obtain ⟨n, h⟩ := hch
    obtain ⟨x, h1, _, _⟩ := hc.oneChild hn (by simp) (by simp) h
    have h2 := childrenOf_none (n := r) (k := .ref .archive) (by simp) (by rw [h]; simp)
    have h3 : resourceTypeRecord r = some (.object x.target) := by unfold resourceTypeRecord; rw [hk, h1]; rfl
    unfold resourceLayout resourceRecord
    rw [h3]
    simp only [Option.map_some, layoutOfRecord, hopt]
    rw [hk, h1, h2]; rfl
  | multivector w =>
    obtain ⟨n, i, b, h⟩ := hch
    have h2 := childrenOf_none (n := r) (k := .ref .archive) (by simp) (by rw [h]; simp)
    have h3 : resourceTypeRecord r = some (.multivector w ((childrenOf r (.ref .structure)).map Tree.target)) := by unfold resourceTypeRecord; rw [hk]
    unfold resourceLayout resourceRecord
    rw [h3]
    simp only [Option.map_some, layoutOfRecord, hopt]
    rw [hk, h2]; rfl
  | rawData =>
    obtain ⟨n, h⟩ := hch
    have h1 := childrenOf_none (n := r) (k := .ref .structure) (by simp) (by rw [h]; simp)
    have h2 := childrenOf_none (n := r) (k := .ref .archive) (by simp) (by rw [h]; simp)
    have h3 : resourceTypeRecord r = some .rawData := by unfold resourceTypeRecord; rw [hk]
    unfold resourceLayout resourceRecord
    rw [h3]
    simp only [Option.map_some, layoutOfRecord, hopt]
    rw [hk, h1, h2]; rfl
  | archive =>
    obtain ⟨n, h⟩ := hch
    obtain ⟨x, h1, _, _⟩ := hc.oneChild hn (by simp) (by simp) h
    have h2 := childrenOf_none (n := r) (k := .ref .structure) (by simp) (by rw [h]; simp)
    have h3 : resourceTypeRecord r = some (.archive x.target) := by unfold resourceTypeRecord; rw [hk]; simp only; rw [h1]
    unfold resourceLayout resourceRecord
    rw [h3]
    simp only [Option.map_some, layoutOfRecord, hopt]
    rw [hk, h1, h2]; rfl

end

theorem filterMap_map_opt {α β γ : Type} {f : α → Option β} {g : α → Option γ} {h : β → γ} {l : List α} (hl : ∀ x ∈ l, g x = (f x).map h) :
    l.filterMap g = (l.filterMap f).map h := by
  induction l with
  | nil => rfl
  | cons x l ih =>
    have h1 := hl x (by simp)
    have ih := ih fun y hy => hl y (by simp [hy])
    cases hf : f x with
    | none => rw [hf] at h1; rw [List.filterMap_cons_none h1, List.filterMap_cons_none hf, ih]
    | some y => rw [hf] at h1; rw [List.filterMap_cons_some h1, List.filterMap_cons_some hf, ih, List.map_cons]

theorem basic_text_inj {a b : BasicName} (h : a.text = b.text) : a = b := by
  cases a <;> cases b <;> first | rfl | (revert h; decide)

theorem basic_text_nodot (b : BasicName) : b.text.head? ≠ some '.' := by cases b <;> decide

/-- Fields with equal records have equal sizes and signs, provided that enumerations with equal paths have equal types. -/
theorem fieldInfo_eq {t t' : Tree} (hc : Compiled t) (hc' : Compiled t') {p p' : Path} {f f' : Tree} (hf : t.descend p = some f) (hf' : t'.descend p' = some f')
    (hr : fieldRecord f = fieldRecord f')
    (hen : ∀ r ∈ f.children, ∀ w, r.kind = .ref (.enumeration w) → ∀ m, t.descend r.targetPath = some m → ∃ m', t'.descend r.targetPath = some m' ∧
      definitionRecord m' = definitionRecord m) : fieldInfo f = fieldInfo f' := by
  have hsome : ∀ {t : Tree} {p : Path} {f : Tree}, Compiled t → t.descend p = some f → f.kind.isField = (fieldRecord f).isSome := by
    intro t p f hc hf
    cases hb : f.kind.isField with
    | true =>
      cases hk : f.kind <;> rw [hk] at hb <;> try (cases hb; done)
      obtain ⟨rec, h, _⟩ := hc.field hf hk
      rw [h]; rfl
    | false =>
      unfold fieldRecord
      cases hk : f.kind <;> first | rfl | (rw [hk] at hb; cases hb)
  have hnone : ∀ {f : Tree}, f.kind.isField = false → fieldInfo f = none := by
    intro f hb
    unfold fieldInfo
    cases hk : f.kind <;> first | rfl | (rw [hk] at hb; cases hb)
  have h1 := hsome hc hf
  have h2 := hsome hc' hf'
  rw [hr, ← h2] at h1
  cases hb : f'.kind.isField with
  | false => rw [hnone hb, hnone (h1.trans hb)]
  | true =>
    rw [hb] at h1
    cases hk : f.kind <;> rw [hk] at h1 <;> try (cases h1; done)
    cases hk' : f'.kind <;> rw [hk'] at hb <;> try (cases hb; done)
    rename_i ty rg o ty' rg' o'
    have hdot : ∀ {t : Tree} {p : Path} {f : Tree} {r : Tree} {w : Option Nat}, Compiled t → t.descend p = some f → r ∈ f.children → r.kind = .ref (.enumeration w) →
        r.target.head? = some '.' ∧ r.target = pathText r.targetPath := by
      intro t p f r w hc hf hm hk
      obtain ⟨_, _, _, _, h4, _, h6⟩ := hc.target (hc.child hf hm) hk
      exact ⟨h6, h4.symm⟩
    rcases hc.typed p f ty rg o hf hk with ⟨b, rfl⟩ | ⟨ref, hmem, w, m, b, a1, a2, a3, rfl⟩
    · rcases hc'.typed p' f' ty' rg' o' hf' hk' with ⟨b', rfl⟩ | ⟨ref', hmem', w', m', b', a1', a2', a3', rfl⟩
      · unfold fieldRecord at hr
        rw [hk, hk'] at hr
        simp only [Option.some.injEq, PField.mk.injEq] at hr
        unfold fieldInfo
        rw [hk, hk']
        simp only
        rw [hr.1, hr.2.2.2, basic_text_inj hr.2.2.1]
      · unfold fieldRecord at hr
        rw [hk, hk'] at hr
        simp only [Option.some.injEq, PField.mk.injEq] at hr
        have := (hdot hc' hf' hmem' a1').1
        unfold Tree.target at this
        rw [← hr.2.2.1] at this
        exact absurd this (basic_text_nodot _)
    · rcases hc'.typed p' f' ty' rg' o' hf' hk' with ⟨b', rfl⟩ | ⟨ref', hmem', w', m', b', a1', a2', a3', rfl⟩
      · unfold fieldRecord at hr
        rw [hk, hk'] at hr
        simp only [Option.some.injEq, PField.mk.injEq] at hr
        have := (hdot hc hf hmem a1).1
        unfold Tree.target at this
        rw [hr.2.2.1] at this
        exact absurd this (basic_text_nodot _)
      · unfold fieldRecord at hr
        rw [hk, hk'] at hr
        simp only [Option.some.injEq, PField.mk.injEq] at hr
        have ht : ref.targetPath = ref'.targetPath := by
          unfold Tree.targetPath Tree.target
          rw [hr.2.2.1]
        obtain ⟨m2, c1, c2⟩ := hen ref hmem w a1 m a2
        rw [ht, a2'] at c1
        injection c1 with c1
        subst c1
        unfold definitionRecord at c2
        rw [a3, a3'] at c2
        simp only [Option.some.injEq, PEntry.enumeration.injEq, enumerationRecord, PEnum.mk.injEq] at c2
        unfold fieldInfo
        rw [hk, hk']
        simp only
        rw [hr.1, hr.2.2.2, c2.2.1]

/-- Definitions with equal records have equal meanings, provided that enumerations with equal paths have equal types. -/
theorem meaning_eq {t t' : Tree} (hc : Compiled t) (hc' : Compiled t') {p p' : Path} {m m' : Tree} (hm : t.descend p = some m) (hm' : t'.descend p' = some m')
    (hr : definitionRecord m = definitionRecord m')
    (hen : ∀ f ∈ m.children, ∀ r ∈ f.children, ∀ w, r.kind = .ref (.enumeration w) → ∀ n, t.descend r.targetPath = some n → ∃ n', t'.descend r.targetPath = some n' ∧
      definitionRecord n' = definitionRecord n) : meaning m = meaning m' := by
  unfold definitionRecord at hr
  cases hk : m.kind with
  | constant b v =>
    cases hk' : m'.kind <;> rw [hk, hk'] at hr <;> simp only [reduceCtorEq, Option.some.injEq, PEntry.constant.injEq, PConstant.mk.injEq] at hr
    unfold meaning
    rw [hk, hk']
    simp only
    rw [hr.1, hr.2.1, hr.2.2]
  | enumeration b =>
    cases hk' : m'.kind <;> rw [hk, hk'] at hr <;> simp only [reduceCtorEq, Option.some.injEq, PEntry.enumeration.injEq, enumerationRecord, PEnum.mk.injEq] at hr
    unfold meaning
    rw [hk, hk']
    simp only
    rw [hr.1, hr.2.1, hr.2.2.1, hr.2.2.2]
  | archive =>
    cases hk' : m'.kind <;> rw [hk, hk'] at hr <;> simp only [reduceCtorEq, Option.some.injEq, PEntry.archive.injEq, archiveRecord, PArchive.mk.injEq] at hr
    unfold meaning
    rw [hk, hk']
    simp only
    rw [hr.1, hr.2.1, filterMap_map_opt (fun c hcm => hc.resourceMeaning (hc.child hm hcm)), filterMap_map_opt (fun c hcm => hc'.resourceMeaning (hc'.child hm' hcm)), hr.2.2]
  | «structure» sz =>
    cases hk' : m'.kind <;> rw [hk, hk'] at hr <;> simp only [reduceCtorEq, Option.some.injEq, PEntry.struct.injEq, structureRecord, PStruct.mk.injEq] at hr
    rename_i sz'
    have hl := hc.laidOut p m sz hm hk
    have hl' := hc'.laidOut p' m' sz' hm' hk'
    have h1 := layout_place (cs := m.children) (o := 0) (fun i c ty rg w a b => by rw [hl.2 i c ty rg w a b]; simp)
    have h2 := layout_place (cs := m'.children) (o := 0) (fun i c ty rg w a b => by rw [hl'.2 i c ty rg w a b]; simp)
    have hinfo : m.children.filterMap fieldInfo = m'.children.filterMap fieldInfo := by
      have hsome : ∀ {t : Tree} {p : Path} {f : Tree}, Compiled t → t.descend p = some f → (fieldInfo f).isSome = (fieldRecord f).isSome := by
        intro t p f hc hf
        unfold fieldInfo fieldRecord
        cases hk : f.kind <;> try rfl
        rename_i ty _ _
        cases ty <;> rfl
      have key : ∀ (l l' : List Tree), (∀ c ∈ l, c ∈ m.children) → (∀ c ∈ l', c ∈ m'.children) → l.filterMap fieldRecord = l'.filterMap fieldRecord →
          l.filterMap fieldInfo = l'.filterMap fieldInfo := by
        intro l
        induction l with
        | nil =>
          intro l' _ hl' h
          symm
          rw [List.filterMap_nil, List.filterMap_eq_nil_iff]
          intro c hcm
          have := List.filterMap_eq_nil_iff.mp h.symm c hcm
          have h2 := hsome hc' (hc'.child hm' (hl' c hcm))
          rw [this] at h2
          cases hi : fieldInfo c with
          | none => rfl
          | some _ => rw [hi] at h2; cases h2
        | cons c l ih =>
          intro l' hl hl' h
          have hcs := hsome hc (hc.child hm (hl c (by simp)))
          cases hcr : fieldRecord c with
          | none =>
            rw [List.filterMap_cons_none hcr] at h
            rw [hcr] at hcs
            have : fieldInfo c = none := by
              cases hi : fieldInfo c with
              | none => rfl
              | some _ => rw [hi] at hcs; cases hcs
            rw [List.filterMap_cons_none this]
            exact ih l' (fun d hd => hl d (by simp [hd])) hl' h
          | some rec =>
            rw [List.filterMap_cons_some hcr] at h
            obtain ⟨u, d, v, rfl, h1, h2, h3⟩ := List.filterMap_eq_cons_iff.mp h.symm
            have hnil : ∀ x ∈ u, fieldInfo x = none := by
              intro x hx
              have h2 := hsome hc' (hc'.child hm' (hl' x (by simp [hx])))
              rw [h1 x hx] at h2
              cases hi : fieldInfo x with
              | none => rfl
              | some _ => rw [hi] at h2; cases h2
            have hcd := fieldInfo_eq hc hc' (hc.child hm (hl c (by simp))) (hc'.child hm' (hl' d (by simp))) (hcr.trans h2.symm)
              (hen c (hl c (by simp)))
            have hcd1 : fieldInfo c ≠ none := by
              intro e; rw [e, hcr] at hcs; cases hcs
            obtain ⟨y, hy⟩ := Option.ne_none_iff_exists'.mp hcd1
            rw [List.filterMap_cons_some hy, List.filterMap_append, List.filterMap_eq_nil_iff.mpr hnil, List.nil_append, List.filterMap_cons_some (hcd ▸ hy)]
            congr 1
            exact ih v (fun d hd => hl d (by simp [hd])) (fun d hd => hl' d (by simp [hd])) h3.symm
      exact key _ _ (fun _ h => h) (fun _ h => h) hr.2
    have hs1 : sz = some (totalBits m.children) := by
      have := hl.1; rw [hk] at this; injection this
    have hs2 : sz' = some (totalBits m'.children) := by
      have := hl'.1; rw [hk'] at this; injection this
    unfold meaning
    rw [hk, hk']
    simp only
    rw [h1.1, h2.1, hinfo, hs1, hs2, h1.2, h2.2, hinfo, hr.1]
  | _ =>
    rw [hk] at hr
    cases hk' : m'.kind <;> rw [hk'] at hr <;> simp only [reduceCtorEq] at hr <;> (unfold meaning; rw [hk, hk'])

end Gen
