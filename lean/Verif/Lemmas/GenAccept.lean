import Verif.Spec.WellFormed
import Verif.Props.Gen.Ast

/-! # When the passes after resolution succeed -/

namespace Gen
open Spec Props

/-! ## Constants of archives -/

theorem modifyAt_succ {f : Tree → M Tree} {p : Path} : ∀ {t n : Tree}, t.descend p = some n → (∃ n', f n = .ok n') → ∃ t', t.modifyAt f p = .ok t' := by
  induction p with
  | nil =>
    intro t n hn hf
    simp only [Tree.descend, Option.some.injEq] at hn
    subst hn; exact hf
  | cons k p ih =>
    intro t n hn hf
    simp only [Tree.descend] at hn
    cases hc : t.child k with
    | none => rw [hc] at hn; cases hn
    | some c =>
      rw [hc] at hn
      obtain ⟨c', hc'⟩ := ih hn hf
      exact ⟨t.setChild c', by simp only [Tree.modifyAt, hc, hc', bind, Except.bind]; rfl⟩

theorem created_ok (ds : List Tree) : Created (ds.map Except.ok) ds := by
  induction ds with
  | nil => exact .nil
  | cons d ds ih => exact .cons rfl ih

theorem foldlM_modifyAt_succ {ds : List Tree} (hd : ∀ d ∈ ds, Good d ∧ d.children = []) {t : Tree} (hg : Good t) {l : List Path} :
    l.Nodup → (∀ a ∈ l, ∃ n, t.descend a = some n ∧ (n.children.map Tree.name ++ ds.map Tree.name).Nodup) →
    ∃ t', l.foldlM (fun r a => r.modifyAt (fun n => insertEach n (ds.map Except.ok)) a) t = .ok t' := by
  induction l using List.reverseRecOn with
  | nil => intro _ _; exact ⟨t, rfl⟩
  | append_singleton l a ih =>
    intro hnd hall
    have hnd' : l.Nodup := (List.nodup_append.mp hnd).1
    obtain ⟨t1, h1⟩ := ih hnd' fun b hb => hall b (by simp [hb])
    obtain ⟨n, hn, hnames⟩ := hall a (by simp)
    obtain ⟨_, _, g3, _⟩ := foldlM_modifyAt insertEach_appends hd hnd' hg
      (fun n n' hn hf => insertEach_ok_good (fun d hdm => (hd d hdm).1) n n' hn hf) h1
    obtain ⟨n1, ext, a1, _, _, a4, a5⟩ := g3 a n hn
    have hal : a ∉ l := fun h => (List.nodup_append.mp hnd).2.2 a h a (by simp) rfl
    rw [if_neg hal] at a5
    rw [a5, List.append_nil] at a4
    have hnm : n1.children.map Tree.name = n.children.map Tree.name := by
      have := congrArg (List.map Prod.fst) a4
      simpa only [info, List.map_map, Function.comp_def] using this
    obtain ⟨t2, h2⟩ := modifyAt_succ (f := fun n => insertEach n (ds.map Except.ok)) a1
      (insertEach_succ (created_ok ds) (by rw [hnm]; exact hnames))
    refine ⟨t2, ?_⟩
    rw [List.foldlM_append, h1]
    simp only [bind, Except.bind, List.foldlM_cons, List.foldlM_nil, h2]
    rfl

theorem unreferenced_nodup {t : Tree} (hg : Good t) : (unreferenced t).Nodup := by
  unfold unreferenced
  exact (nodesLike_nodup hg _).filter _

theorem unreferenced_mem {t : Tree} (hg : Good t) {c : Path} (h : c ∈ unreferenced t) : ∃ n ty v, t.descend c = some n ∧ n.kind = .constant ty v := by
  simp only [unreferenced, List.mem_filter, List.mem_map, Prod.exists, exists_and_right, exists_eq_right] at h
  obtain ⟨⟨m, hm⟩, _⟩ := h
  rw [mem_nodesLike hg] at hm
  obtain ⟨h1, h2⟩ := hm
  cases hk : m.kind <;> rw [hk] at h2 <;> simp [Kind.isConstant] at h2
  exact ⟨m, _, _, h1, hk⟩

theorem referencify_inj {a b : Text} (ha : '@' ∉ a) (hb : '@' ∉ b) (h : referencify a = referencify b) : a = b := by
  have := congrArg dereferencify h
  rwa [dereferencify_referencify ha, dereferencify_referencify hb] at this

theorem appendConstantRefs_succ {t : Tree} (hl : Linked t) (hs : Shaped t) : ∃ t', appendConstantRefs t = .ok t' := by
  rw [appendConstantRefs_eq]
  refine foldlM_modifyAt_succ ?_ hl.good (nodesLike_nodup hl.good _) ?_
  · intro d hd
    obtain ⟨c, _, rfl⟩ := List.mem_map.mp hd
    exact ⟨good_ref _ _, rfl⟩
  · intro a ha
    simp only [List.mem_map, Prod.exists, exists_and_right, exists_eq_right, mem_nodesLike hl.good, decide_eq_true_eq] at ha
    obtain ⟨n, hn, hk⟩ := ha
    refine ⟨n, hn, ?_⟩
    have hnoat : ∀ {c}, c ∈ unreferenced t → '@' ∉ pathText c := by
      intro c hc
      obtain ⟨m, ty, v, h1, h2⟩ := unreferenced_mem hl.good hc
      exact pathText_noat (descend_noat hl.named h1 (by rw [h2]; simp))
    rw [List.nodup_append]
    refine ⟨(descend_good hl.good hn).nodup, ?_, ?_⟩
    · rw [List.map_map]
      refine (List.nodup_map_iff_inj_on (unreferenced_nodup hl.good)).mpr ?_
      intro c hc d hd he
      simp only [Function.comp_apply, constantRef, Tree.name] at he
      obtain ⟨_, _, _, c1, _⟩ := unreferenced_mem hl.good hc
      obtain ⟨_, _, _, d1, _⟩ := unreferenced_mem hl.good hd
      exact pathText_inj (descend_nodot hl.good c1) (descend_nodot hl.good d1) (referencify_inj (hnoat hc) (hnoat hd) he)
    · intro x hx y hy hxy
      subst hxy
      obtain ⟨r, hr, rfl⟩ := List.mem_map.mp hx
      rw [List.map_map] at hy
      obtain ⟨c, hc, he⟩ := List.mem_map.mp hy
      change referencify (pathText c) = r.name at he
      have hw := wellNamed_descend hl.named (descend_child hl.good hn hr)
      have hkind := (shaped_descend hs hn).kinds
      rw [hk] at hkind
      have hnr : ∀ rk, r.kind ≠ .ref rk := by
        intro rk hrk
        have := hkind r.kind (by
          simp only [childKinds, List.mem_filter, List.mem_map]
          exact ⟨⟨r, hr, rfl⟩, by rw [hrk]; simp⟩)
        rw [hrk] at this; cases this
      exact hw.other hnr (by rw [← he]; simp [referencify])

/-! ## Types of fields -/

theorem basicOfText_at_none (b : Text) : basicOfText ('@' :: b) = none := by
  unfold basicOfText
  rw [List.find?_eq_none]
  intro x _
  cases x <;> simp [BasicName.text]

theorem updateFieldType_succ {t r : Tree} {e : Path × Tree} (hl : Linked t) (he : t.descend e.1 = some e.2)
    (hs : SameBy Kind.untyped t r) (hsh : ∀ rg o, e.2.kind = .field .none rg o → ∃ ref ∈ e.2.children, ref.kind.isEnumerationReference = true)
    (hw : EnumWidthsOk t) : ∃ r', updateFieldType r e = .ok r' := by
  unfold updateFieldType
  split
  · rename_i rg o hk
    obtain ⟨x, hx, hxk⟩ := hsh rg o hk
    split
    · rename_i hnil
      have : x ∈ e.2.childrenLike Kind.isEnumerationReference := List.mem_filter.mpr ⟨hx, hxk⟩
      rw [hnil] at this; cases this
    · rename_i ref rest href
      have hm : ref ∈ e.2.childrenLike Kind.isEnumerationReference := by rw [href]; simp
      obtain ⟨hm, hrk⟩ := List.mem_filter.mp hm
      obtain ⟨w, hrw⟩ : ∃ w, ref.kind = .ref (.enumeration w) := by
        cases hkk : ref.kind with
        | ref rk => cases rk <;> rw [hkk] at hrk <;> simp [Kind.isEnumerationReference] at hrk; exact ⟨_, rfl⟩
        | _ => rw [hkk] at hrk; simp [Kind.isEnumerationReference] at hrk
      have hd := descend_child hl.good he hm
      obtain ⟨n, t1, t2, t3, b, t4⟩ := hl.lk.target hd hrw
      obtain ⟨n', n1, _, n3, _⟩ := hs.node t2
      have hf : r.find ref.target = .ok n' := by
        rw [t1]; exact (find_path (hs.name.trans hl.name) (descend_nodot hl.good t2)).mpr n1
      have hnk : n'.kind = .enumeration b := by
        rw [t4] at n3
        cases hc : n'.kind <;> rw [hc] at n3 <;> simp [Kind.untyped] at n3
        rw [n3]
      have hbw : b.width ≤ b.name.width := by
        have := hl.kindOk _ _ t2
        rw [t4] at this; exact this
      have hcreate : ∃ bt, BasicType.create b.name (some b.width) = .ok bt := by
        refine ⟨⟨b.name, b.width⟩, ?_⟩
        simp only [BasicType.create]
        rw [if_neg (by simp only [Option.getD_some]; omega)]
        rfl
      obtain ⟨bt, hbt⟩ := hcreate
      obtain ⟨body, hname, _⟩ := (wellNamed_descend hl.named hd).ref_name hrw
      rw [hf]
      simp only [bind, Except.bind, hnk, hbt]
      rw [if_neg (by rw [hname, basicOfText_at_none]; simp)]
      simp only [hrw]
      split
      · rename_i w' hw'
        simp only [Kind.ref.injEq, RefKind.enumeration.injEq] at hw'
        subst hw'
        rw [if_neg]
        · exact ⟨_, rfl⟩
        · rintro ⟨h1, h2⟩
          exact h2 (hw _ _ _ _ _ _ _ _ _ he hk hm hrw t3 t4 h1)
      · exact ⟨_, rfl⟩
  · exact ⟨r, rfl⟩

theorem updateFieldTypes_succ {t : Tree} (hl : Linked t)
    (hsh : ∀ q n rg o, t.descend q = some n → n.kind = .field .none rg o → ∃ ref ∈ n.children, ref.kind.isEnumerationReference = true)
    (hw : EnumWidthsOk t) : ∃ t', updateFieldTypes t = .ok t' := by
  have hmem : ∀ e ∈ t.nodesLike Kind.isField, t.descend e.1 = some e.2 := by
    rintro ⟨p, n⟩ he; exact ((mem_nodesLike hl.good).mp he).1
  have key : ∀ (l : List (Path × Tree)), (∀ e ∈ l, t.descend e.1 = some e.2) → (l.map (·.1)).Nodup → ∀ r, Good r → SameBy Kind.untyped t r →
      (∀ e ∈ l, kindAt r e.1 = some e.2.kind) → ∃ t', l.foldlM updateFieldType r = .ok t' := by
    intro l
    induction l with
    | nil => intro _ _ r _ _ _; exact ⟨r, rfl⟩
    | cons e l ih =>
      intro hd hnd r hg hs hk
      simp only [List.map_cons, List.nodup_cons] at hnd
      have he := hd e (by simp)
      obtain ⟨r1, h1⟩ := updateFieldType_succ hl he hs (fun rg o hek => hsh _ _ rg o he hek) hw
      obtain ⟨g1, g2, k', g3, _⟩ := updateFieldType_spec hl.lk he hg hs (hk e (by simp)) h1
      obtain ⟨t', ht'⟩ := ih (fun x hx => hd x (by simp [hx])) hnd.2 r1 g1 (hs.trans g2) (fun x hx => by
        have hne : x.1 ≠ e.1 := fun h => hnd.1 (h ▸ List.mem_map.mpr ⟨x, hx, rfl⟩)
        rw [g3, if_neg hne]
        exact hk x (by simp [hx]))
      exact ⟨t', by simp only [List.foldlM_cons, h1, bind, Except.bind]; exact ht'⟩
  exact key _ hmem (nodesLike_nodup hl.good _) t hl.good (.refl _) fun e he => kindAt_some.mpr ⟨e.2, hmem e he, rfl⟩

/-! ## Sizes -/

/-- All fields have types. -/
def AllTyped (t : Tree) : Prop := ∀ q ty rg o, kindAt t q = some (.field ty rg o) → ty ≠ .none

theorem setOffsets_succ {p : Path} {cs : List Tree} : ∀ {r : Tree} {off : Nat}, (∀ c ∈ cs, ∀ ty rg o, c.kind = .field ty rg o → ty ≠ .none) →
    ∃ res, setOffsets p r cs off = .ok res := by
  induction cs with
  | nil => intro r off _; exact ⟨_, rfl⟩
  | cons c cs ih =>
    intro r off h
    unfold setOffsets
    split
    · rename_i ty rg o hk
      have : ∃ w, ty.width = .ok w := by
        cases ty with
        | none => exact absurd rfl (h c (by simp) _ _ _ hk)
        | basic b => exact ⟨_, rfl⟩
        | enum n b => exact ⟨_, rfl⟩
      obtain ⟨w, hw⟩ := this
      simp only [hw, bind, Except.bind]
      exact ih fun x hx => h x (by simp [hx])
    · exact ih fun x hx => h x (by simp [hx])

theorem computeSize_succ {r : Tree} {p : Path} (hg : Good r) (h : AllTyped r) : ∃ r', computeSize r p = .ok r' := by
  unfold computeSize
  split
  · exact ⟨r, rfl⟩
  · rename_i n hn
    split
    · obtain ⟨res, hres⟩ := setOffsets_succ (p := p) (cs := n.children) (r := r) (off := 0) fun c hc ty rg o hk =>
        h (p ++ [c.name]) ty rg o (kindAt_some.mpr ⟨c, descend_child hg hn hc, hk⟩)
      exact ⟨_, by rw [hres]; rfl⟩
    · exact ⟨r, rfl⟩

theorem AllTyped.unsized {t t' : Tree} (h : AllTyped t) (hs : SameBy Kind.unsized t t') : AllTyped t' := by
  intro q ty rg o hk
  obtain ⟨n, hn, hnk⟩ := kindAt_some.mp hk
  obtain ⟨m, h1, _, h3, _⟩ := hs.symm.node hn
  rw [hnk] at h3
  cases hc : m.kind <;> rw [hc] at h3 <;> simp [Kind.unsized] at h3
  obtain ⟨rfl, rfl⟩ := h3
  exact h q _ _ _ (kindAt_some.mpr ⟨m, h1, hc⟩)

theorem computeSizes_succ {t : Tree} (hl : Lk t) (hty : AllTyped t) (ha : ∀ p, ¬ OnCycle (depChildren t) p) : ∃ n t', computeSizes n t = some (.ok t') := by
  obtain ⟨n, out, hn⟩ := computeSizes_total hl
  unfold computeSizes at hn
  split at hn
  · cases hn
  · rename_i e he
    obtain ⟨p, _, hp⟩ := (Props.C50_circular_iff _ _ _ (depChildren_finite hl) _ ⟨n, he⟩).1.mp ⟨e, rfl⟩
    exact absurd hp (ha p)
  · rename_i events hev
    have key : ∀ (l : List Path) (r : Tree), Good r → AllTyped r → ∃ t', l.foldlM computeSize r = .ok t' := by
      intro l
      induction l with
      | nil => intro r _ _; exact ⟨r, rfl⟩
      | cons p l ih =>
        intro r hg h
        obtain ⟨r1, h1⟩ := computeSize_succ (p := p) hg h
        obtain ⟨a1, a2, _⟩ := computeSize_spec hg h1
        obtain ⟨t', ht'⟩ := ih r1 a1 (h.unsized a2)
        exact ⟨t', by simp only [List.foldlM_cons, h1, bind, Except.bind]; exact ht'⟩
    obtain ⟨t', ht'⟩ := key (dependencyOrder events) t hl.good hty
    exact ⟨n, t', by unfold computeSizes; rw [hev]; simp only [ht']⟩

/-! ## Limits -/

theorem limitResource_succ {t r : Tree} {e : Path × Tree} (hl : Lk t) (hty : AllTyped t) (he : t.descend e.1 = some e.2)
    (hs : SameBy Kind.unlimited t r) (hch : childKinds e.2.children = [.ref .resource, .ref .field, .ref .structure]) :
    ∃ r', limitResource r e = .ok r' := by
  have honly : ∀ (P : Kind → Bool) (k : Kind), P .namespace = false → [Kind.ref .resource, .ref .field, .ref .structure].filter P = [k] →
      ∃ c ∈ e.2.children, c.kind = k ∧ e.2.onlyChild P = .ok c := by
    intro P k hns hf
    have h1 : (e.2.childrenLike P).map Tree.kind = [k] := by
      rw [← hf, ← hch]
      unfold Tree.childrenLike childKinds
      rw [List.filter_filter, List.filter_map, List.filter_congr]
      intro c _
      simp only [Function.comp_apply]
      by_cases hc : c.kind = .namespace
      · rw [hc]; simp [hns]
      · simp [hc]
    unfold Tree.onlyChild
    match hm : e.2.childrenLike P, h1 with
    | [c], h1 =>
      simp only [List.map_cons, List.map_nil, List.cons.injEq, and_true] at h1
      have : c ∈ e.2.childrenLike P := by rw [hm]; simp
      exact ⟨c, (List.mem_filter.mp this).1, h1, rfl⟩
  obtain ⟨f, f1, f2, f3⟩ := honly (fun k => k = .ref .field) (.ref .field) (by simp) (by decide)
  obtain ⟨d, d1, d2, d3⟩ := honly Kind.isResourceReference (.ref .resource) rfl (by decide)
  have hfind : ∀ {c : Tree} {rk}, c ∈ e.2.children → c.kind = .ref rk → ∃ m m', t.descend c.targetPath = some m ∧ KindFits rk m.kind ∧
      r.find c.target = .ok m' ∧ m'.kind.unlimited = m.kind.unlimited := by
    intro c rk hc hk
    obtain ⟨m, t1, t2, _, t4⟩ := hl.target (descend_child hl.good he hc) hk
    obtain ⟨m', m1, _, m3, _⟩ := hs.node t2
    exact ⟨m, m', t2, t4, by rw [t1]; exact (find_path (hs.name.trans hl.name) (descend_nodot hl.good t2)).mpr m1, m3⟩
  obtain ⟨m, m', a1, ⟨ty, rg, o, a2⟩, a3, a4⟩ := hfind f1 f2
  obtain ⟨x, x', b1, ⟨k, op, l, b2⟩, b3, b4⟩ := hfind d1 d2
  have hm' : m'.kind = .field ty rg o := unlimited_field (by rw [a4, a2]; rfl)
  obtain ⟨l', hx'⟩ : ∃ l', x'.kind = .resource k op l' := by
    rw [b2] at b4
    cases hc : x'.kind <;> rw [hc] at b4 <;> simp [Kind.unlimited] at b4
    obtain ⟨rfl, rfl⟩ := b4
    exact ⟨_, rfl⟩
  have : ∃ w, ty.width = .ok w := by
    cases ty with
    | none => exact absurd rfl (hty _ _ _ _ (kindAt_some.mpr ⟨m, a1, a2⟩))
    | basic b => exact ⟨_, rfl⟩
    | enum n b => exact ⟨_, rfl⟩
  obtain ⟨w, hw⟩ := this
  unfold limitResource
  simp only [f3, a3, hm', hw, bind, Except.bind]
  split
  · exact ⟨r, rfl⟩
  · simp only [d3, b3, hx']
    exact ⟨_, rfl⟩

theorem computeMaxSizes_succ {t : Tree} (hl : Lk t) (hty : AllTyped t) (h0 : ∀ q k o m, kindAt t q = some (.resource k o m) → m = none)
    (hch : ∀ p e, t.descend p = some e → e.kind = .explicitReference → childKinds e.children = [.ref .resource, .ref .field, .ref .structure]) :
    ∃ t', computeMaxSizes t = .ok t' := by
  have hm : ∀ {e : Path × Tree}, e ∈ t.nodesLike (fun k => k = .explicitReference) → t.descend e.1 = some e.2 ∧ e.2.kind = .explicitReference := by
    rintro ⟨p, n⟩ h; rw [mem_nodesLike hl.good] at h; simpa using h
  have key : ∀ (l : List (Path × Tree)), (∀ e ∈ l, t.descend e.1 = some e.2 ∧ e.2.kind = .explicitReference) → ∀ (done : List (Path × Tree)) (r : Tree), Good r →
      SameBy Kind.unlimited t r → (∀ q k o m, kindAt r q = some (.resource k o m) → Least (fun l => ∃ x ∈ done, LimitBy t x.2 q l) m) →
      ∃ t', l.foldlM limitResource r = .ok t' := by
    intro l
    induction l with
    | nil => intro _ _ r _ _ _; exact ⟨r, rfl⟩
    | cons e l ih =>
      intro hd done r hg hs hinv
      obtain ⟨e1, e2⟩ := hd e (by simp)
      obtain ⟨r1, h1⟩ := limitResource_succ hl hty e1 hs (hch _ _ e1 e2)
      obtain ⟨g1, g2, g3⟩ := limitResource_spec hl e1 hg hs hinv h1
      obtain ⟨t', ht'⟩ := ih (fun x hx => hd x (by simp [hx])) _ r1 g1 (hs.trans g2) g3
      exact ⟨t', by simp only [List.foldlM_cons, h1, bind, Except.bind]; exact ht'⟩
  exact key _ (fun e he => hm he) [] t hl.good (.refl _) fun q k o m hk => by
    rw [h0 q k o m hk]; rintro n ⟨x, hx, _⟩; cases hx

end Gen
