import Verif.Lemmas.GenAgainWhole
import Verif.Lemmas.GenOrder

/-! # Dependency orders and records (for C107) -/

namespace Gen
open Spec Props

/-! ## Index types refer to nothing -/

theorem foldlM_back {t0 : Tree} {l : List (Path × Nat)} : ∀ {t t' : Tree}, (l.map (·.1)).Nodup →
    (∀ e ∈ l, ∃ n o m, t.descend e.1 = some n ∧ n.kind = .resource (.multivector e.2) o m) →
    Indexed t0 (l.map (·.1)) t → l.foldlM (fun r e => appendBuiltin r e.1 e.2) t = .ok t' → Back NewKind t t' ∧
      ∀ q n, t.descend q = some n → ∃ n', t'.descend q = some n' ∧ n'.kind = n.kind := by
  induction l with
  | nil =>
    intro t t' _ _ _ h
    simp only [List.foldlM_nil, pure, Except.pure, Except.ok.injEq] at h
    subst h
    exact ⟨fun q n hn => .inl ⟨n, hn⟩, fun q n hn => ⟨n, hn, rfl⟩⟩
  | cons e l ih =>
    intro t t' hnd hl hi h
    simp only [List.foldlM_cons] at h
    obtain ⟨t1, h1, h⟩ := bind_ok h
    rw [List.map_cons, List.nodup_cons] at hnd
    obtain ⟨a, b, c⟩ := appendBuiltin_indexed hi hnd.1 (hl e (by simp)) h1
    obtain ⟨d1, d2⟩ := ih hnd.2 (by
      intro x hx
      obtain ⟨n, o, m, g1, g2⟩ := hl x (by simp [hx])
      obtain ⟨n', g3, g4⟩ := b _ _ g1
      exact ⟨n', o, m, g3, g4.trans g2⟩) a h
    refine ⟨?_, ?_⟩
    · intro q n' hq
      rcases d1 q n' hq with ⟨n1, hn1⟩ | hn
      · rcases c q n1 hn1 with hn | hn
        · exact .inl hn
        · obtain ⟨n2, g1, g2⟩ := d2 _ _ hn1
          rw [hq] at g1; cases g1
          exact .inr (hn.newKind.congr g2)
      · exact .inr hn
    · intro q n hq
      obtain ⟨n1, g1, g2⟩ := b _ _ hq
      obtain ⟨n2, g3, g4⟩ := d2 _ _ g1
      exact ⟨n2, g3, g4.trans g2⟩

theorem appendBuiltins_back {blocks : List PBlock} {t t' : Tree} (h0 : buildNodeTree blocks = .ok t) (h : appendBuiltins t = .ok t') : Back NewKind t t' := by
  have hg := (built_merged h0).1.good
  have hmem : ∀ e ∈ multivectors t, ∃ n o m, t.descend e.1 = some n ∧ n.kind = .resource (.multivector e.2) o m := by
    rintro ⟨p, w⟩ he
    obtain ⟨pos, n, o, m, h1, h2, h3⟩ := multivectors_mem.mp he
    exact ⟨n, o, m, by rw [← h2]; exact descend_namesAt hg h1, h3⟩
  refine (foldlM_back (t0 := t) (multivectors_nodup hg) hmem ⟨hg, ?_, ?_⟩ h).1
  · intro p n w o m hn hk
    have : p ∈ (multivectors t).map (·.1) := by
      obtain ⟨pos, h1, h2⟩ := descend_treeAt hn
      exact List.mem_map.mpr ⟨(p, w), multivectors_mem.mpr ⟨pos, n, o, m, h1, h2, hk⟩, rfl⟩
    rw [if_pos this]
    simp only [indexRefs, List.map_eq_nil_iff, List.filter_eq_nil_iff, info, List.mem_map]
    rintro x ⟨c, hc, rfl⟩
    simpa using (((built_noIndex h0).descend hn).children c hc).kind
  · intro q n w hn hq
    rw [hq] at hn; cases hn

/-- Definitions in `_builtin` are index types, and their fields refer to nothing. -/
theorem index_plain {s : Text} {blocks : List PBlock} {t : Tree} (hs : parseSource s = .ok blocks) (h : Compile s (.ok t))
    (hno : ∀ b ∈ blocks, "_builtin".toList ∉ splitDot b.name) {p : Path} {m : Tree} (hm : t.descend p = some m) (hd : Spec.Kind.isDefinition m.kind = true)
    (hp : InBuiltin p) : (∃ sz, m.kind = .structure sz) ∧ ∀ f ∈ m.children, f.kind = .namespace ∨ f.kind.isField = true ∧ ∀ r ∈ f.children, ∀ rk, r.kind ≠ .ref rk := by
  have hc := compile_compiled h
  obtain ⟨bs, h1, h2, h3⟩ := compile_blocks h
  rw [hs] at h1; cases h1
  have hb : ∀ b ∈ blocks, PlainNames b := fun b hb => lexical_plain (h2 b hb)
  rcases C66_only hs h hm hd with ⟨b, hbm, k, _, rfl⟩ | ⟨q, r, w, o, mx, hr, hrk, rfl⟩
  · unfold InBuiltin at hp
    rw [List.dropLast_concat] at hp
    exact absurd hp (hno b hbm)
  obtain ⟨st, _⟩ := buildAst_stages h3
  have hr1 := st.h1
  unfold buildResolved at hr1
  obtain ⟨t0, h0, hr1⟩ := bind_ok hr1
  obtain ⟨t1, hb1, hr1⟩ := bind_ok hr1
  have hnone := index_undeclared hs h h0 hno hr hrk
  obtain ⟨x, f, bits, e1, e2, e3, e4, e5, e6, e7⟩ := C63_generated_type hb h3 h0 hr hrk hnone
  rw [hm] at e2; cases e2
  refine ⟨⟨_, e3⟩, ?_⟩
  intro f' hf'
  by_cases hff : f' = f
  swap
  · exact .inl (e7 f' hf' hff)
  subst hff
  refine .inr ⟨by rw [e6]; rfl, ?_⟩
  intro r' hr' rk hrk'
  have hfd := hc.child hm hf'
  rcases st.origin h2 hfd with ⟨f0, ext, g1, g2, g3, g4, g5, _⟩ | ⟨hk, _⟩
  swap
  · rw [e6] at hk; cases hk
  rw [g5 (by rw [e6]; simp), List.append_nil] at g4
  have hmm : (r'.name, r'.kind.blank) ∈ f0.children.map fun c => (c.name, c.kind.blank) := by
    rw [← g4]; exact List.mem_map_of_mem hr'
  obtain ⟨c0, c1, c2⟩ := List.mem_map.mp hmm
  have c0k : c0.kind = .ref rk := Same.ref_eq (congrArg Prod.snd c2).symm hrk'
  have hmg := (built_merged h0).1
  have hrd := appendBuiltins_ready ⟨hmg.good, (built_named hb h0).1, hmg.name, hmg.kind⟩ hb1
  obtain ⟨hren, hg', hw'⟩ := resolve_renamed hrd.good hrd.named hrd.name hr1
  have hpat := descend_noat hw' g1 (by intro r hk; rw [hk, e6] at g3; simp [Kind.blank] at g3)
  obtain ⟨r1, r2⟩ := renamed_descend hpat hren
  generalize hpf : (q.dropLast.dropLast ++ ["_builtin".toList, "multivector".toList, "IndexType".toList ++ natText w]) ++ [f'.name] = pf at *
  cases ht : t1.descend pf with
  | none => rw [r2 ht] at g1; cases g1
  | some y =>
    obtain ⟨n', a1, a2⟩ := r1 y ht
    rw [g1] at a1; cases a1
    obtain ⟨d, d1, d2⟩ : ∃ d ∈ y.children, d.kind = c0.kind := by
      have hlen : y.children.length = f0.children.length ∧ ∀ (i : Nat) c c', y.children[i]? = some c → f0.children[i]? = some c' → Renamed c c' := by
        cases a2 with
        | mk _ b c => exact ⟨b, c⟩
      obtain ⟨i, hi, rfl⟩ := List.getElem_of_mem c1
      have hi' : i < y.children.length := by rw [hlen.1]; exact hi
      have := hlen.2 i _ _ (List.getElem?_eq_getElem hi') (List.getElem?_eq_getElem hi)
      refine ⟨_, List.getElem_mem hi', ?_⟩
      generalize y.children[i] = u at this ⊢
      generalize f0.children[i] = v at this ⊢
      cases this; rfl
    have hdd := descend_child hrd.good ht d1
    rcases appendBuiltins_back h0 hb1 _ _ hdd with ⟨z, hz⟩ | hn
    · rw [← hpf, List.append_assoc, descend_append, hnone] at hz; cases hz
    · have hbs : rk = .builtinStructure := by
        rcases hn with e | e | ⟨w, e⟩ | e <;> rw [d2.trans c0k] at e <;> simp [indexField] at e
        exact e
      subst hbs
      obtain ⟨w', o', m', hh⟩ := builtin_parent h hfd hr' hrk'
      rw [e6] at hh; cases hh

/-! ## Dependencies between definitions -/

mutual
/-- The definitions a node refers to, directly or by what is below it. -/
def refsBelow (D : Path → Bool) : Tree → List Path
  | .mk _ _ cs => refsBelowAll D cs ++ ((cs.filter fun c => c.kind.isTypeReference).map Tree.targetPath).filter D
def refsBelowAll (D : Path → Bool) : List Tree → List Path
  | [] => []
  | c :: cs => (if c.kind.isReference then [] else refsBelow D c) ++ refsBelowAll D cs
end

theorem refsBelowAll_eq (D : Path → Bool) (cs : List Tree) : refsBelowAll D cs = (cs.filter fun c => !c.kind.isReference).flatMap (refsBelow D) := by
  induction cs with
  | nil => rfl
  | cons c cs ih =>
    unfold refsBelowAll
    rw [ih]
    cases hc : c.kind.isReference <;> simp [hc]

theorem refsBelow_eq (D : Path → Bool) (n : Tree) : refsBelow D n = (n.children.filter fun c => !c.kind.isReference).flatMap (refsBelow D) ++
    ((n.children.filter fun c => c.kind.isTypeReference).map Tree.targetPath).filter D := by
  cases n with
  | mk a b cs => unfold refsBelow; rw [refsBelowAll_eq]; rfl

/-- Definitions that are printed. -/
def isDef (t : Tree) (p : Path) : Bool := (match t.descend p with | some n => Spec.Kind.isDefinition n.kind | none => false) && !decide (InBuiltin p)

theorem isDef_iff {t : Tree} {p : Path} : isDef t p = true ↔ (∃ n, t.descend p = some n ∧ Spec.Kind.isDefinition n.kind = true) ∧ ¬ InBuiltin p := by
  unfold isDef
  cases t.descend p <;> simp

def defDeps (t : Tree) (p : Path) : List Path := match t.descend p with
  | some n => refsBelow (isDef t) n
  | none => []

/-- What is needed of a tree. -/
structure Ground (t : Tree) : Prop where
  source : ∃ s, Compile s (.ok t)
  flat : Flat t
  noBuiltin : NoBuiltin t
  index : ∀ p m, t.descend p = some m → Spec.Kind.isDefinition m.kind = true → InBuiltin p → (∃ sz, m.kind = .structure sz) ∧
    ∀ f ∈ m.children, f.kind = .namespace ∨ f.kind.isField = true ∧ ∀ r ∈ f.children, ∀ rk, r.kind ≠ .ref rk

def InnerNode (t : Tree) (v : Path) : Prop := ∃ n, t.descend v = some n ∧ (∀ rk, n.kind ≠ .ref rk) ∧ n.kind ≠ .namespace ∧ n.kind ≠ .root

section
variable {t : Tree} (hg : Ground t)
include hg

theorem Ground.compiled : Compiled t := by
  obtain ⟨s, h⟩ := hg.source
  exact compile_compiled h

theorem Ground.kid {v : Path} {n c : Tree} (hn : t.descend v = some n) (h2 : n.kind ≠ .namespace) (h3 : n.kind ≠ .root) (hcm : c ∈ n.children) :
    c.kind ≠ .namespace ∧ c.kind ≠ .root ∧ Spec.Kind.isDefinition c.kind = false := by
  have hc := hg.compiled
  have hcd := hc.child hn hcm
  refine ⟨?_, ?_, ?_⟩
  · intro hk
    rcases hg.flat _ _ _ hcd hk with rfl | ⟨m, hm, hmk⟩
    · simp only [Tree.descend, Option.some.injEq] at hn
      subst hn
      exact h3 hc.rootKind
    · rw [hn] at hm; cases hm
      exact h2 hmk
  · intro hk
    have := hc.root _ _ hcd hk
    simp at this
  · rw [← Bool.not_eq_true]
    intro hd
    obtain ⟨m, hm, _, h, _⟩ := hc.parents _ _ _ hcd
    rw [hn] at hm; cases hm
    exact h2 (h hd)

theorem Ground.typeTarget {v : Path} {n r : Tree} (hn : t.descend v = some n) (hr : r ∈ n.children) (hk : r.kind.isTypeReference = true) :
    ∃ m, t.descend r.targetPath = some m ∧ Spec.Kind.isDefinition m.kind = true ∧ (InBuiltin r.targetPath ↔ r.kind = .ref .builtinStructure) := by
  have hc := hg.compiled
  have hrd := hc.child hn hr
  cases hrk : r.kind <;> rw [hrk] at hk <;> first | (cases hk; done) | skip
  rename_i rk
  obtain ⟨m, _, h2, h3, _⟩ := hc.target hrd hrk
  refine ⟨m, h2, type_definition h3 hk, ?_, ?_⟩
  · intro hb
    by_contra hne
    exact hg.noBuiltin _ _ _ hrd hrk (fun e => hne (by rw [e])) (List.dropLast_subset _ hb)
  · intro he
    simp only [Kind.ref.injEq] at he
    subst he
    obtain ⟨s, hs⟩ := hg.source
    obtain ⟨w, o, mx, hnk⟩ := builtin_parent hs hn hr hrk
    have ht := hc.index _ _ _ _ _ hn hnk r hr hrk
    have hp : r.targetPath = indexTypePath v w := targetPath_of (indexTypePath_nodot (descend_nodot hc.lk.good hn) w) ht
    rw [hp]
    unfold InBuiltin indexTypePath
    simp

theorem Ground.isDef_target {v : Path} {n r : Tree} (hn : t.descend v = some n) (hr : r ∈ n.children) (hk : r.kind.isTypeReference = true) :
    isDef t r.targetPath = true ↔ r.kind ≠ .ref .builtinStructure := by
  obtain ⟨m, h1, h2, h3⟩ := hg.typeTarget hn hr hk
  rw [isDef_iff]
  constructor
  · rintro ⟨_, h⟩ e; exact h (h3.mpr e)
  · intro h; exact ⟨⟨m, h1, h2⟩, fun hb => h (h3.mp hb)⟩

theorem Ground.inner_kids {v : Path} (hv : InnerNode t v) : ∀ c ∈ depChildren t v, InnerNode t c := by
  obtain ⟨n, hn, h1, h2, h3⟩ := hv
  intro c hcm
  unfold depChildren at hcm
  rw [hn] at hcm
  simp only [List.mem_append, List.mem_map, Tree.childrenLike, List.mem_filter] at hcm
  rcases hcm with ⟨d, ⟨hd, hdk⟩, rfl⟩ | ⟨d, ⟨hd, hdk⟩, rfl⟩
  · obtain ⟨k1, k2, _⟩ := hg.kid hn h2 h3 hd
    exact ⟨d, hg.compiled.child hn hd, (by intro rk e; rw [e] at hdk; cases hdk), k1, k2⟩
  · obtain ⟨m, m1, m2, _⟩ := hg.typeTarget hn hd hdk
    refine ⟨m, m1, ?_, ?_, ?_⟩ <;> intro e <;> (try intro e') <;> simp_all [Spec.Kind.isDefinition]

theorem Ground.index_deps {p : Path} {m : Tree} (hm : t.descend p = some m) (hd : Spec.Kind.isDefinition m.kind = true) (hp : InBuiltin p) :
    defDeps t p = [] := by
  obtain ⟨⟨sz, hk⟩, hall⟩ := hg.index p m hm hd hp
  unfold defDeps
  rw [hm]
  dsimp only
  have hkid : ∀ f ∈ m.children, f.kind.isField = true ∧ ∀ r ∈ f.children, ∀ rk, r.kind ≠ .ref rk := fun f hf =>
    (hall f hf).resolve_left (hg.kid hm (by rw [hk]; simp) (by rw [hk]; simp) hf).1
  rw [refsBelow_eq]
  have h1 : (m.children.filter fun c => c.kind.isTypeReference) = [] := by
    rw [List.filter_eq_nil_iff]
    intro c hc
    have := (hkid c hc).1
    cases hck : c.kind <;> rw [hck] at this <;> first | (cases this; done) | simp [Kind.isTypeReference]
  rw [h1, List.map_nil, List.filter_nil, List.append_nil, List.flatMap_eq_nil_iff]
  intro f hf
  have hf := (List.mem_filter.mp hf).1
  obtain ⟨g1, g2⟩ := hkid f hf
  have hfd := hg.compiled.child hm hf
  obtain ⟨s, hs⟩ := hg.source
  obtain ⟨k0, ks, e1, e2, e3⟩ := compiled_kinds hs hfd
  have hnone : f.children = [] := by
    rw [List.eq_nil_iff_forall_not_mem]
    intro r hr
    have hns := (hg.kid hfd (by intro e; rw [e] at g1; cases g1) (by intro e; rw [e] at g1; cases g1) hr).1
    rcases e3 r hr hns with ⟨x, x1, x2⟩ | ⟨ha, _⟩
    · have : ∃ rk, x = .ref rk := by
        cases hfk : f.kind <;> rw [hfk] at g1 e1 <;> first | (cases g1; done) | skip
        cases k0 <;> simp [Kind.blank] at e1
        rename_i ty _ _
        have hconst : ∀ {k : Kind}, k.isConstantReference = true → ∃ rk, k = .ref rk := by
          intro k hk; cases k <;> first | exact ⟨_, rfl⟩ | cases hk
        cases ty with
        | basic b => exact hconst (e2 _ x1)
        | enum a b =>
          obtain ⟨cs, w, rfl, hcs⟩ := e2
          rcases List.mem_append.mp x1 with h | h
          · exact hconst (hcs _ h)
          · rw [List.mem_singleton] at h; exact ⟨_, h⟩
        | none =>
          obtain ⟨cs, w, rfl, hcs⟩ := e2
          rcases List.mem_append.mp x1 with h | h
          · exact hconst (hcs _ h)
          · rw [List.mem_singleton] at h; exact ⟨_, h⟩
      obtain ⟨rk, rfl⟩ := this
      exact g2 r hr rk (blank_ref.mp x2.symm)
    · rw [ha] at g1; cases g1
  rw [refsBelow_eq, hnone]; rfl

theorem Ground.deps_eq {v : Path} (hv : InnerNode t v) : defDeps t v = (depChildren t v).flatMap fun c => if isDef t c then [c] else defDeps t c := by
  obtain ⟨n, hn, h1, h2, h3⟩ := hv
  have hl : defDeps t v = refsBelow (isDef t) n := by unfold defDeps; rw [hn]
  rw [hl, refsBelow_eq]
  unfold depChildren
  rw [hn]
  dsimp only
  rw [List.flatMap_append, List.flatMap_map, List.flatMap_map]
  congr 1
  · apply List.flatMap_congr
    intro c hcm
    have hcm := (List.mem_filter.mp hcm).1
    have hcd := hg.compiled.child hn hcm
    have : isDef t (v ++ [c.name]) = false := by
      rw [← Bool.not_eq_true, isDef_iff]
      rintro ⟨⟨m, hm, hd⟩, _⟩
      rw [hcd] at hm; cases hm
      rw [(hg.kid hn h2 h3 hcm).2.2] at hd; cases hd
    rw [this]
    unfold defDeps
    rw [hcd]; rfl
  · have : ∀ l : List Tree, (∀ c ∈ l, c ∈ n.children ∧ c.kind.isTypeReference = true) → (l.map Tree.targetPath).filter (isDef t) =
        l.flatMap fun c => if isDef t c.targetPath then [c.targetPath] else defDeps t c.targetPath := by
      intro l
      induction l with
      | nil => intro _; rfl
      | cons c l ih =>
        intro hl
        have hcm := hl c (by simp)
        obtain ⟨m, m1, m2, m3⟩ := hg.typeTarget hn hcm.1 hcm.2
        rw [List.map_cons, List.flatMap_cons, ← ih fun x hx => hl x (by simp [hx])]
        cases hd : isDef t c.targetPath with
        | true => rw [List.filter_cons_of_pos hd]; simp
        | false =>
          rw [List.filter_cons_of_neg (by simp [hd])]
          have hb : InBuiltin c.targetPath := by
            by_contra hb
            have := isDef_iff.mpr ⟨⟨m, m1, m2⟩, hb⟩
            rw [hd] at this; cases this
          rw [hg.index_deps m1 m2 hb]; simp
    exact this _ fun c hcm => List.mem_filter.mp hcm

theorem Ground.deps_mem : ∀ (k : Nat) {v : Path} {n : Tree}, sizeOf n < k → t.descend v = some n → ∀ c ∈ refsBelow (isDef t) n, isDef t c = true ∧ Reachable (depChildren t) v c := by
  intro k
  induction k with
  | zero => intro v n h; omega
  | succ k ih =>
    intro v n hk hn c hcm
    rw [refsBelow_eq] at hcm
    have hstep : ∀ {a b : Path}, b ∈ depChildren t a → Reachable (depChildren t) b c → Reachable (depChildren t) a c := by
      rintro a b hab ⟨j, hj⟩
      exact ⟨_, walk_trans (.step (.refl _) hab) hj⟩
    rcases List.mem_append.mp hcm with hcm | hcm
    · obtain ⟨d, hd, hdc⟩ := List.mem_flatMap.mp hcm
      obtain ⟨hd1, hd2⟩ := List.mem_filter.mp hd
      have hs : sizeOf d < k := by
        have h1 := List.sizeOf_lt_of_mem hd1
        have h2 : sizeOf n.children < sizeOf n := by cases n; simp [Tree.children]
        omega
      obtain ⟨g1, g2⟩ := ih hs (hg.compiled.child hn hd1) c hdc
      refine ⟨g1, hstep ?_ g2⟩
      unfold depChildren
      rw [hn]
      exact List.mem_append_left _ (List.mem_map.mpr ⟨d, List.mem_filter.mpr ⟨hd1, hd2⟩, rfl⟩)
    · obtain ⟨h1, h2⟩ := List.mem_filter.mp hcm
      refine ⟨h2, hstep (b := c) ?_ ⟨0, .refl _⟩⟩
      unfold depChildren
      rw [hn]
      exact List.mem_append_right _ h1

theorem Ground.deps_reachable {v c : Path} (h : c ∈ defDeps t v) : isDef t c = true ∧ Reachable (depChildren t) v c := by
  unfold defDeps at h
  cases hn : t.descend v with
  | none => rw [hn] at h; cases h
  | some n => rw [hn] at h; exact hg.deps_mem _ (Nat.lt_succ_self _) hn c h

/-- The order of definitions is that of the graph of definitions. -/
theorem Ground.contracted {l : List Path} {r : List Path} (hl : ∀ v ∈ l, InnerNode t v) (h : PostS (depChildren t) [] (l.map (·, false)) r) :
    PostS (defDeps t) [] ((l.flatMap fun c => if isDef t c then [c] else defDeps t c).map (·, false)) (r.filter (isDef t)) := by
  have := PostS.contracted (ch := depChildren t) (deps := defDeps t) (D := isDef t) (R := InnerNode t) (fun v hv => hg.inner_kids hv) (fun v hv => hg.deps_eq hv)
    (fun v hv c hcm => hg.deps_reachable hcm) h (by
      intro e he
      obtain ⟨v, hv, rfl⟩ := List.mem_map.mp he
      exact hl v hv) (by simp) (by
      have : ∀ (l : List Path) (seen : List Path), EInv (depChildren t) [] seen (l.map (·, false)) := by
        intro l
        induction l with
        | nil => intro _; trivial
        | cons a l ih => intro seen; exact ⟨by simp, ih _⟩
      exact this l [])
  rw [contract_pending] at this
  exact this

end

end Gen
