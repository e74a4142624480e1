import Verif.Spec.Usage
import Verif.Props.Gen.Python
import Verif.Props.Gen.DeclaredOnly

/-! # Generated archive classes meet the hypotheses of the runtime theorems -/

namespace Gen
open Spec Props Model

theorem natText_repr (n : Nat) : String.ofList (natText n) = toString n := by
  rw [← String.toList_inj, String.toList_ofList]
  show natText n = (Nat.repr n).toList
  unfold Nat.repr
  rw [String.toList_ofList]
  have hd : ∀ d, d < 10 → digitChar d = Nat.digitChar d := by decide
  induction n using Nat.strong_induction_on with
  | _ n ih =>
    rw [natText]
    split
    · rename_i h
      rw [hd n h, Nat.toDigits_of_lt_base h]
    · rename_i h
      conv_rhs => rw [← Nat.div_add_mod n 10]
      rw [ih (n / 10) (by omega), hd _ (Nat.mod_lt _ (by decide)), ← Nat.toDigits_append_toDigits (by decide) (by omega) (Nat.mod_lt _ (by decide)),
        Nat.toDigits_of_lt_base (Nat.mod_lt _ (by decide))]

theorem declaredField_field {f : Tree} {d : FieldDecl} (h : declaredField f = some d) : d.name = String.ofList f.name ∧
    ∃ b rg o, (f.kind = .field (.basic b) rg o ∨ ∃ e, f.kind = .field (.enum e b) rg o) ∧ d.width = b.width ∧ d.isSigned = b.name.isSigned := by
  unfold declaredField at h
  split at h
  · rename_i b rg o hk
    injection h with h; subst h
    exact ⟨rfl, b, rg, o, .inl hk, rfl, rfl⟩
  · rename_i e b rg o hk
    injection h with h; subst h
    exact ⟨rfl, b, rg, o, .inr ⟨e, hk⟩, rfl, rfl⟩
  · cases h

theorem basicName_width_le (b : BasicName) : b.width ≤ 64 := by cases b <;> decide

theorem goodStruct_at {s : Text} {t : Tree} (h : Compile s (.ok t)) {p : Path} {fs : List FieldDecl} (hf : FieldsAt t p fs)
    (hw : ∀ f ∈ fs, f.width ≠ 0) : GoodStruct fs ∧ fs ≠ [] := by
  have hc := compile_compiled h
  obtain ⟨blocks, _, hl, hba⟩ := compile_blocks h
  have hplain : ∀ b ∈ blocks, PlainNames b := fun b hb => lexical_plain (hl b hb)
  obtain ⟨n, size, hn, hk, rfl⟩ := hf
  refine ⟨⟨?_, ?_⟩, ?_⟩
  · intro f hf
    refine ⟨Nat.pos_of_ne_zero (hw f hf), ?_⟩
    obtain ⟨c, hcm, hcf⟩ := List.mem_filterMap.mp hf
    obtain ⟨_, b, rg, o, hk', e1, _⟩ := declaredField_field hcf
    have hlay := (C62_layout hplain hba (hc.child hn hcm)).2
    rcases hk' with hk' | ⟨e, hk'⟩
    · obtain ⟨b', h1, h2⟩ := hlay _ _ _ hk'
      rcases h1 with h1 | ⟨_, h1⟩ <;> cases h1
      rw [e1]; exact h2.trans (basicName_width_le _)
    · obtain ⟨b', h1, h2⟩ := hlay _ _ _ hk'
      rcases h1 with h1 | ⟨_, h1⟩ <;> cases h1
      rw [e1]; exact h2.trans (basicName_width_le _)
  · have hnd := (descend_good hc.lk.good hn).nodup
    have : ∀ cs : List Tree, (cs.map Tree.name).Nodup → ((cs.filterMap declaredField).map (·.name)).Nodup ∧
        ∀ x ∈ (cs.filterMap declaredField).map (·.name), ∃ c ∈ cs, x = String.ofList c.name := by
      intro cs
      induction cs with
      | nil => intro _; simp
      | cons c cs ih =>
        intro hnd
        rw [List.map_cons, List.nodup_cons] at hnd
        obtain ⟨i1, i2⟩ := ih hnd.2
        cases hcf : declaredField c with
        | none =>
          rw [List.filterMap_cons_none hcf]
          refine ⟨i1, fun x hx => ?_⟩
          obtain ⟨c', h1, h2⟩ := i2 x hx
          exact ⟨c', by simp [h1], h2⟩
        | some d =>
          rw [List.filterMap_cons_some hcf]
          have hname := (declaredField_field hcf).1
          constructor
          · rw [List.map_cons, List.nodup_cons]
            refine ⟨?_, i1⟩
            intro hm
            obtain ⟨c', h1, h2⟩ := i2 _ hm
            rw [hname] at h2
            have := congrArg String.toList h2
            simp only [String.toList_ofList] at this
            exact hnd.1 (this ▸ List.mem_map_of_mem h1)
          · intro x hx
            rw [List.map_cons, List.mem_cons] at hx
            rcases hx with rfl | hx
            · exact ⟨c, by simp, hname⟩
            · obtain ⟨c', h1, h2⟩ := i2 x hx
              exact ⟨c', by simp [h1], h2⟩
    exact (this _ hnd).1
  · have := hc.furnished p n hn
    rw [hk] at this
    obtain ⟨k, h1, h2⟩ := this
    obtain ⟨c, h3, rfl⟩ := List.mem_map.mp h1
    have hsome : ∃ d, declaredField c = some d := by
      cases hck : c.kind <;> rw [hck] at h2 <;> try (cases h2; done)
      rename_i ty rg o
      obtain ⟨b, hb, _⟩ := (C62_layout hplain hba (hc.child hn h3)).2 _ _ _ hck
      unfold declaredField
      rw [hck]
      rcases hb with rfl | ⟨e, rfl⟩ <;> exact ⟨_, rfl⟩
    obtain ⟨d, hd⟩ := hsome
    intro he
    have : d ∈ n.children.filterMap declaredField := List.mem_filterMap.mpr ⟨c, h3, hd⟩
    rw [he] at this; cases this

theorem byteSize_eq (name : String) (fs : List FieldDecl) : (mkStruct name fs).sizeInBytes = byteSize fs := by
  show (sizeInBitsFrom 0 fs + 7) / 8 = _
  rw [sizeInBitsFrom_eq]; simp [byteSize]

theorem typesAt_classes {t : Tree} {refs : List Tree} {ss : List StructType} {decls : List (String × List FieldDecl)} (hs : StructuresAt t refs ss)
    (hd : TypesAt t refs decls) : ss = classes decls := by
  induction hd generalizing ss with
  | nil => cases hs; rfl
  | cons h _ ih =>
    cases hs with
    | cons h' hs' =>
      rw [ih hs']
      obtain ⟨n, _, h1, _, rfl⟩ := h
      obtain ⟨m, _, h2, _, rfl⟩ := h'
      rw [h1] at h2; cases h2
      rfl

theorem typesAt_names {t : Tree} {refs : List Tree} {decls : List (String × List FieldDecl)} (hd : TypesAt t refs decls) :
    decls.map (·.1) = refs.map fun r => String.ofList (pythonName r.targetPath) := by
  induction hd with
  | nil => rfl
  | cons _ _ ih => simp [ih]

theorem typesAt_fields {t : Tree} {refs : List Tree} {decls : List (String × List FieldDecl)} (hd : TypesAt t refs decls) :
    ∀ p ∈ decls, ∃ q, FieldsAt t q p.2 := by
  induction hd with
  | nil => simp
  | cons h _ ih =>
    intro p hp
    rcases List.mem_cons.mp hp with rfl | hp
    · exact ⟨_, h⟩
    · exact ih p hp

/-- References to structures among the children of a node have different classes. -/
theorem structure_refs_nodup {t : Tree} (hc : Compiled t) (hi : Importable t) {q : Path} {r : Tree} (hr : t.descend q = some r) :
    ((childrenOf r (.ref .structure)).map fun c => String.ofList (pythonName c.targetPath)).Nodup := by
  have hnd := (descend_good hc.lk.good hr).nodup
  rw [List.Nodup, List.pairwise_map] at hnd ⊢
  have h2 : List.Pairwise (fun a b : Tree => a.name ≠ b.name) (childrenOf r (.ref .structure)) := hnd.sublist List.filter_sublist
  refine List.Pairwise.imp_of_mem ?_ h2
  intro a b ha hb hab heq
  apply hab
  have ha' := List.mem_filter.mp ha
  have hb' := List.mem_filter.mp hb
  have hak : a.kind = .ref .structure := by simpa using ha'.2
  have hbk : b.kind = .ref .structure := by simpa using hb'.2
  have hda := hc.child hr ha'.1
  have hdb := hc.child hr hb'.1
  obtain ⟨m, _, e1, e2, e3, _⟩ := hc.target hda hak
  obtain ⟨m', _, f1, f2, f3, _⟩ := hc.target hdb hbk
  obtain ⟨sz, e2⟩ := e2
  obtain ⟨sz', f2⟩ := f2
  have heq := congrArg String.toList heq
  simp only [String.toList_ofList] at heq
  have hp := hi.classes _ _ _ (classAt_structure e1 e2) (heq ▸ classAt_structure f1 f2)
  have ht : a.target = b.target := by rw [← e3, ← f3, hp]
  obtain ⟨ba, ga⟩ := hc.refName _ _ _ hda hak
  obtain ⟨bb, gb⟩ := hc.refName _ _ _ hdb hbk
  have hga := (descend_good hc.lk.good hda).name
  have hgb := (descend_good hc.lk.good hdb).name
  rw [ga] at hga
  rw [gb] at hgb
  simp only [List.mem_cons, not_or] at hga hgb
  rw [Tree.target, Tree.target, ga, gb] at ht
  rw [ga, gb, ← referencify_dereferencify hga.2, ← referencify_dereferencify hgb.2, ht]

/-- A schema that declares nothing in `_builtin` declares no index types. -/
theorem index_undeclared {source : Text} {blocks : List PBlock} {t t0 : Tree} (hs : parseSource source = .ok blocks) (h : Compile source (.ok t))
    (h0 : buildNodeTree blocks = .ok t0) (hno : ∀ b ∈ blocks, "_builtin".toList ∉ splitDot b.name)
    {p : Path} {n : Tree} {w : Nat} {o : Bool} {m : Option Nat} (hn : t.descend p = some n) (hk : n.kind = .resource (.multivector w) o m) :
    t0.descend (p.dropLast.dropLast ++ ["_builtin".toList, "multivector".toList, "IndexType".toList ++ natText w]) = none := by
  obtain ⟨bs, h1, h2, h3⟩ := compile_blocks h
  rw [hs] at h1; cases h1
  have hb : ∀ b ∈ blocks, PlainNames b := fun b hb => lexical_plain (h2 b hb)
  obtain ⟨_, _, _, xs, size, _, hxk, hx⟩ := C63_index_type hb h3 hn hk
  generalize hidx : p.dropLast.dropLast ++ ["_builtin".toList, "multivector".toList, "IndexType".toList ++ natText w] = idx at *
  cases hy : t0.descend idx with
  | none => rfl
  | some y =>
    exfalso
    obtain ⟨s, _⟩ := buildAst_stages h3
    have hsame := s.sameCT hb
    obtain ⟨hlc, hgr, hbk⟩ := appendConstantRefs_spec (s.linked hb).1 s.h2
    obtain ⟨nc, c1, c2, c3, _⟩ := hsame.symm.node hx
    have hd : Spec.Kind.isDefinition xs.kind = true := by rw [hxk]; rfl
    have hdc : Spec.Kind.isDefinition nc.kind = true := by rw [blank_isDefinition c3]; exact hd
    obtain ⟨n0, d1, d2⟩ : ∃ n0, s.resolved.descend idx = some n0 ∧ nc.kind = n0.kind := by
      rcases hbk _ nc c1 with h | ⟨a, y, _, _, _, _, _, _, hk⟩
      · exact h
      · rw [hk] at hdc; cases hdc
    have hr1 := s.h1
    unfold buildResolved at hr1
    rw [h0] at hr1
    obtain ⟨t0', h0', hr1⟩ := bind_ok hr1
    cases h0'
    obtain ⟨t1, hb1, hr1⟩ := bind_ok hr1
    have hm := (built_merged h0).1
    have hr := appendBuiltins_ready ⟨hm.good, (built_named hb h0).1, hm.name, hm.kind⟩ hb1
    obtain ⟨hren, hg', hw'⟩ := resolve_renamed hr.good hr.named hr.name hr1
    have hpat := descend_noat hw' d1 (by intro r hk; rw [d2, hk] at hdc; cases hdc)
    have hgrow := (appendBuiltins_grows hm.good hb1).2
    obtain ⟨y', _, e1, _, e3, _⟩ := hgrow idx y hy
    obtain ⟨n', a1, a2⟩ := (renamed_descend hpat hren).1 y' e1
    rw [d1] at a1; cases a1
    have hyk : y.kind = n0.kind := by rw [← e3]; cases a2; rfl
    obtain ⟨b, hbm, k, _, hpk⟩ := built_declared h0 hy (by rw [hyk, ← d2]; exact hdc)
    apply hno b hbm
    have : splitDot b.name = p.dropLast.dropLast ++ ["_builtin".toList, "multivector".toList] := by
      rw [← hidx] at hpk
      have := congrArg List.dropLast hpk
      rw [List.dropLast_concat] at this
      rw [← this]
      simp
    rw [this]; simp

theorem filterMap_only {α β : Type _} {g : α → Option β} {l : List α} (hnd : l.Nodup) {f : α} {d : β} (hf : f ∈ l) (hg : g f = some d)
    (ho : ∀ c ∈ l, c ≠ f → g c = none) : l.filterMap g = [d] := by
  induction l with
  | nil => cases hf
  | cons a l ih =>
    rw [List.nodup_cons] at hnd
    by_cases ha : a = f
    · subst ha
      rw [List.filterMap_cons_some hg, List.cons.injEq]
      refine ⟨rfl, List.filterMap_eq_nil_iff.mpr fun c hc => ho c (by simp [hc]) ?_⟩
      rintro rfl; exact hnd.1 hc
    · rw [List.filterMap_cons_none (ho a (by simp) ha)]
      refine ih hnd.2 ?_ fun c hc => ho c (by simp [hc])
      rcases List.mem_cons.mp hf with h | h
      · exact absurd h.symm ha
      · exact h

theorem joinTexts_append (sep : Text) (a b : List Text) (hb : b ≠ []) : ∃ pre, joinTexts sep (a ++ b) = pre ++ joinTexts sep b := by
  induction a with
  | nil => exact ⟨[], rfl⟩
  | cons x a ih =>
    obtain ⟨pre, ih⟩ := ih
    cases hab : a ++ b with
    | nil => simp at hab; exact absurd hab.2 hb
    | cons y ys =>
      rw [hab] at ih
      refine ⟨x ++ sep ++ pre, ?_⟩
      rw [List.cons_append, hab, joinTexts.eq_3 _ _ _ (by simp), ih]
      simp

/-- The class of the index of a multivector of width `w`. -/
theorem index_class_any {source : Text} {blocks : List PBlock} {t : Tree} (hs : parseSource source = .ok blocks) (h : Compile source (.ok t))
    (hno : ∀ b ∈ blocks, "_builtin".toList ∉ splitDot b.name)
    {p : Path} {n : Tree} {w : Nat} {o : Bool} {m : Option Nat} (hn : t.descend p = some n) (hk : n.kind = .resource (.multivector w) o m)
    {index : Tree} (hi : index ∈ childrenOf n (.ref .builtinStructure)) {i : StructType} (hs' : StructureAt t index.targetPath i) :
    w ≤ 64 ∧ i = mkStruct (String.ofList (pythonName (indexTypePath p w))) [⟨"value", if w = 0 then 64 else w, false⟩] := by
  obtain ⟨bs, h1, h2, h3⟩ := compile_blocks h
  rw [hs] at h1; cases h1
  have hb : ∀ b ∈ blocks, PlainNames b := fun b hb => lexical_plain (h2 b hb)
  obtain ⟨s, _⟩ := buildAst_stages h3
  have hc := compile_compiled h
  have hlk := s.lkT hb
  have hr1 := s.h1
  unfold buildResolved at hr1
  obtain ⟨t0, h0, hr1⟩ := bind_ok hr1
  obtain ⟨x, f, bits, e1, e2, e3, e4, e5, e6, e7⟩ := C63_generated_type hb h3 h0 hn hk (index_undeclared hs h h0 hno hn hk)
  obtain ⟨him, hik⟩ := List.mem_filter.mp hi
  have hik : index.kind = .ref .builtinStructure := by simpa using hik
  have htp := targetPath_of (indexTypePath_nodot (descend_nodot hlk.good hn) w) ((stages_index hb s hn hk).2 index him hik)
  obtain ⟨y, size, g1, g2, rfl⟩ := hs'
  rw [htp] at g1 ⊢
  rw [indexTypePath, e2] at g1
  cases g1
  have hfd := hc.child e2 e4
  have h64 : bits ≤ 64 := by
    obtain ⟨b, hb1, hb2⟩ := (C62_layout hb h3 hfd).2 _ _ _ e6
    rcases hb1 with hb1 | ⟨_, hb1⟩ <;> cases hb1
    exact hb2
  constructor
  · split at e1 <;> omega
  · have hnd : x.children.Nodup := List.Nodup.of_map _ (descend_good hc.lk.good e2).nodup
    have hfm : x.children.filterMap declaredField = [⟨"value", bits, false⟩] := by
      refine filterMap_only hnd e4 ?_ fun c hc hcf => ?_
      · unfold declaredField
        rw [e6, e5]
        rfl
      · unfold declaredField
        rw [e7 c hc hcf]
    unfold structureClass
    rw [hfm, e1]

theorem index_class {source : Text} {blocks : List PBlock} {t : Tree} (hs : parseSource source = .ok blocks) (h : Compile source (.ok t))
    (hno : ∀ b ∈ blocks, "_builtin".toList ∉ splitDot b.name)
    {p : Path} {n : Tree} {w : Nat} {o : Bool} {m : Option Nat} (hn : t.descend p = some n) (hk : n.kind = .resource (.multivector w) o m)
    (hw : w ≠ 0) {index : Tree} (hi : index ∈ childrenOf n (.ref .builtinStructure)) {i : StructType} (hs' : StructureAt t index.targetPath i) :
    w ≤ 64 ∧ ∃ ns, i = indexType ns w := by
  obtain ⟨h1, rfl⟩ := index_class_any hs h hno hn hk hi hs'
  refine ⟨h1, ?_⟩
  obtain ⟨pre, hpre⟩ := joinTexts_append ['_'] p.dropLast.dropLast ["_builtin".toList, "multivector".toList, "IndexType".toList ++ natText w] (by simp)
  refine ⟨String.ofList pre, ?_⟩
  unfold indexType
  rw [if_neg hw]
  congr 1
  rw [← String.toList_inj]
  simp only [String.toList_append, String.toList_ofList, pythonName, indexTypePath]
  rw [hpre, ← natText_repr, String.toList_ofList]
  simp [joinTexts]

end Gen
