import Verif.Lemmas.GenAttr
import Verif.Spec.Layout
import Verif.Props.Gen.Traversal

/-! # Structure sizes -/

namespace Gen
open Spec

theorem width_bitsOf {t : FieldType} {w : Nat} (h : t.width = .ok w) (r : Option Text) (o : Option Nat) : bitsOf (.field t r o) = w := by
  cases t <;> simp [FieldType.width, pure, Except.pure, throw, throwThe, MonadExceptOf.throw, bitsOf] at h ⊢ <;> exact h

theorem bitsOf_unsized {k k' : Kind} (h : k.unsized = k'.unsized) : bitsOf k = bitsOf k' := by
  cases k with
  | field t r o =>
    cases k' <;> simp [Kind.unsized] at h
    obtain ⟨rfl, rfl⟩ := h
    cases t <;> rfl
  | _ => cases k' <;> simp_all [Kind.unsized, bitsOf]

theorem setOffsets_spec {p : Path} {cs : List Tree} : ∀ {r : Tree} {off : Nat} {res : Tree × Nat}, Good r → (cs.map Tree.name).Nodup →
    (∀ c ∈ cs, kindAt r (p ++ [c.name]) = some c.kind) → setOffsets p r cs off = .ok res →
    Good res.1 ∧ SameBy Kind.unsized r res.1 ∧ res.2 = off + totalBits cs ∧
    (∀ q, (∀ c ∈ cs, c.kind.isField = true → q ≠ p ++ [c.name]) → kindAt res.1 q = kindAt r q) ∧
    ∀ (i : Nat) c t rg o, cs[i]? = some c → c.kind = .field t rg o →
      kindAt res.1 (p ++ [c.name]) = some (.field t rg (some (off + totalBits (cs.take i)))) := by
  induction cs with
  | nil =>
    intro r off res hg _ _ h
    simp only [setOffsets, pure, Except.pure, Except.ok.injEq] at h
    subst h
    exact ⟨hg, .refl _, by simp [totalBits], fun _ _ => rfl, by simp⟩
  | cons c cs ih =>
    intro r off res hg hnd hk h
    simp only [List.map_cons, List.nodup_cons] at hnd
    have hne : ∀ d ∈ cs, d.name ≠ c.name := fun d hd he => hnd.1 (he ▸ List.mem_map.mpr ⟨d, hd, rfl⟩)
    simp only [setOffsets] at h
    split at h
    · rename_i t rg o hck
      obtain ⟨w, hw, h⟩ := bind_ok h
      have hkc := hk c (by simp)
      have hsome : (r.descend (p ++ [c.name])).isSome := by
        obtain ⟨n, h1, _⟩ := kindAt_some.mp hkc; rw [h1]; rfl
      have hat := fun q => setKind_kindAt (k := .field t rg (some off)) hg hsome q
      obtain ⟨a1, a2, a3, a4, a5⟩ := ih (setKind_spec hg).1 hnd.2 (by
        intro d hd
        rw [hat, if_neg]
        · exact hk d (by simp [hd])
        · intro he
          have := List.append_cancel_left he
          simp only [List.cons.injEq, and_true] at this
          exact hne d hd this) h
      have hbits : bitsOf c.kind = w := by rw [hck]; exact width_bitsOf hw _ _
      refine ⟨a1, (setKind_same hg hkc (by rw [hck]; rfl)).trans a2, ?_, ?_, ?_⟩
      · rw [a3]; simp only [totalBits, List.map_cons, List.sum_cons, hbits]; omega
      · intro q hq
        rw [a4 q (fun d hd => hq d (by simp [hd])), hat, if_neg]
        exact hq c (by simp) (by rw [hck]; rfl)
      · intro i d t' rg' o' hi hdk
        cases i with
        | zero =>
          simp only [List.getElem?_cons_zero, Option.some.injEq] at hi
          subst hi
          rw [hck] at hdk; cases hdk
          rw [a4, hat, if_pos rfl]
          · simp [totalBits]
          · intro d hd _ he
            have := List.append_cancel_left he
            simp only [List.cons.injEq, and_true] at this
            exact hne d hd this.symm
        | succ i =>
          simp only [List.getElem?_cons_succ] at hi
          rw [a5 i d t' rg' o' hi hdk]
          simp only [List.take_succ_cons, totalBits, List.map_cons, List.sum_cons, hbits]
          congr 3
          omega
    · rename_i hnf
      obtain ⟨a1, a2, a3, a4, a5⟩ := ih hg hnd.2 (fun d hd => hk d (by simp [hd])) h
      have hbits : bitsOf c.kind = 0 := by
        cases hck : c.kind with
        | field t rg o => exact absurd hck (hnf t rg o)
        | _ => rfl
      refine ⟨a1, a2, ?_, ?_, ?_⟩
      · rw [a3]; simp only [totalBits, List.map_cons, List.sum_cons, hbits]; omega
      · intro q hq
        exact a4 q (fun d hd => hq d (by simp [hd]))
      · intro i d t' rg' o' hi hdk
        cases i with
        | zero =>
          simp only [List.getElem?_cons_zero, Option.some.injEq] at hi
          subst hi
          exact absurd hdk (hnf _ _ _)
        | succ i =>
          simp only [List.getElem?_cons_succ] at hi
          rw [a5 i d t' rg' o' hi hdk]
          simp only [List.take_succ_cons, totalBits, List.map_cons, List.sum_cons, hbits]
          congr 3
          omega

/-- The structure at a path is laid out, if there is one. -/
def LaidOutAt (t : Tree) (p : Path) : Prop := ∀ s sz, t.descend p = some s → s.kind = .structure sz → LaidOut s

/-- The attributes apart from the sizes of structures and resources. -/
def Kind.outline : Kind → Kind
  | .structure _ => .structure none
  | .resource k o _ => .resource k o none
  | k => k

theorem bitsOf_outline (k : Kind) : bitsOf k.outline = bitsOf k := by cases k <;> rfl

theorem outline_field {k : Kind} {t : FieldType} {r : Option Text} {o : Option Nat} (h : k.outline = .field t r o) : k = .field t r o := by
  cases k <;> simp_all [Kind.outline]

/-- The layout is determined by the attributes of the structure and its children. -/
theorem laidOutAt_congr {b : Kind → Kind} {t t' : Tree} (hg : Good t) (hg' : Good t') (hs : SameBy b t t') {p : Path}
    (h0 : kindAt t' p = kindAt t p) (hc : ∀ k, (kindAt t' (p ++ [k])).map Kind.outline = (kindAt t (p ++ [k])).map Kind.outline)
    (h : LaidOutAt t p) : LaidOutAt t' p := by
  intro s' sz hs' hsk
  obtain ⟨s, a1, a2, _, a4⟩ := hs.symm.node hs'
  have hkk : s'.kind = s.kind := by
    rw [kindAt, kindAt, hs', a1] at h0; simpa using h0
  have hinfo : s'.children.map (fun c => (c.name, c.kind.outline)) = s.children.map (fun c => (c.name, c.kind.outline)) := by
    have key : ∀ (u : Tree) (x : Tree), Good u → u.descend p = some x → 
        x.children.map (fun c => (c.name, c.kind.outline)) =
          (x.children.map Tree.name).map fun k => (k, ((kindAt u (p ++ [k])).map Kind.outline).getD .root) := by
      intro u x hu hx
      rw [List.map_map]
      apply List.map_congr_left
      intro c hcm
      simp only [Function.comp, kindAt, descend_child hu hx hcm, Option.map_some, Option.getD_some]
    rw [key t' s' hg' hs', key t s hg a1, ← a4]
    apply List.map_congr_left
    intro k _
    rw [hc k]
  obtain ⟨l1, l2⟩ := h s sz a1 (hkk.symm.trans hsk)
  have htot : ∀ i, totalBits (s'.children.take i) = totalBits (s.children.take i) := by
    intro i
    have := congrArg (fun l : List (Text × Kind) => ((l.take i).map fun x => bitsOf x.2).sum) hinfo
    simpa only [totalBits, ← List.map_take, List.map_map, Function.comp_def, bitsOf_outline] using this
  have htot' : totalBits s'.children = totalBits s.children := by
    have := congrArg (fun l : List (Text × Kind) => (l.map fun x => bitsOf x.2).sum) hinfo
    simpa only [totalBits, List.map_map, Function.comp_def, bitsOf_outline] using this
  refine ⟨by rw [hkk, htot', ← l1], ?_⟩
  intro i c ty rg o hi hck
  have := congrArg (fun l : List (Text × Kind) => l[i]?) hinfo
  simp only [List.getElem?_map, hi, Option.map_some] at this
  obtain ⟨d, hd, he⟩ := Option.map_eq_some_iff.mp this.symm
  simp only [Prod.mk.injEq] at he
  rw [htot]
  exact l2 i d ty rg o hd (outline_field (by rw [he.2, hck]; rfl))

theorem computeSize_spec {r r' : Tree} {p : Path} (hg : Good r) (h : computeSize r p = .ok r') :
    Good r' ∧ SameBy Kind.unsized r r' ∧ LaidOutAt r' p ∧ ∀ q, LaidOutAt r q → LaidOutAt r' q := by
  unfold computeSize at h
  cases hp : r.descend p with
  | none =>
    rw [hp] at h
    simp only [pure, Except.pure, Except.ok.injEq] at h
    subst h
    exact ⟨hg, .refl _, fun s sz hs => (by rw [hp] at hs; cases hs), fun _ h => h⟩
  | some s =>
    rw [hp] at h
    simp only at h
    split at h
    · rename_i sz hsk
      obtain ⟨res, hres, h⟩ := bind_ok h
      simp only [pure, Except.pure, Except.ok.injEq] at h
      obtain ⟨a1, a2, a3, a4, a5⟩ := setOffsets_spec hg (descend_good hg hp).nodup
        (fun c hc => kindAt_some.mpr ⟨c, descend_child hg hp hc, rfl⟩) hres
      have hpk : kindAt res.1 p = some (.structure sz) := by
        rw [a4, kindAt, hp, Option.map_some, hsk]
        intro c hc _ he
        have := congrArg List.length he
        simp at this
      have hsome : (res.1.descend p).isSome := by obtain ⟨n, h1, _⟩ := kindAt_some.mp hpk; rw [h1]; rfl
      have hat := fun q => setKind_kindAt (k := .structure (some res.2)) a1 hsome q
      have g1 : Good r' := by rw [← h]; exact (setKind_spec a1).1
      have g2 : SameBy Kind.unsized r r' := by rw [← h]; exact a2.trans (setKind_same a1 hpk rfl)
      have hlaid : LaidOutAt r' p := by
        intro s' sz' hs' hsk'
        obtain ⟨s0, b1, b2, _, b4⟩ := g2.symm.node hs'
        rw [hp] at b1; cases b1
        have hkids : ∀ (i : Nat) (c' : Tree), s'.children[i]? = some c' → ∃ c, s.children[i]? = some c ∧ c.name = c'.name ∧
            c.kind.unsized = c'.kind.unsized ∧ kindAt r' (p ++ [c.name]) = some c'.kind := by
          intro i c' hi
          have h1 := congrArg (fun l : List Text => l[i]?) b4
          simp only [List.getElem?_map, hi, Option.map_some] at h1
          obtain ⟨c, hc, hcn⟩ := Option.map_eq_some_iff.mp h1
          have h2 := descend_child g1 hs' (List.mem_of_getElem? hi)
          have h3 := descend_child hg hp (List.mem_of_getElem? hc)
          obtain ⟨x, x1, _, x3, _⟩ := g2.node h3
          rw [hcn] at x1
          rw [h2] at x1; cases x1
          exact ⟨c, hc, hcn, x3.symm, by rw [hcn]; exact kindAt_some.mpr ⟨c', h2, rfl⟩⟩
        have hlen : s'.children.length = s.children.length := by
          have := congrArg List.length b4; simpa using this.symm
        have hbits : s'.children.map (fun n => bitsOf n.kind) = s.children.map (fun n => bitsOf n.kind) := by
          apply List.ext_getElem?
          intro i
          simp only [List.getElem?_map]
          cases hi : s'.children[i]? with
          | none =>
            have : s.children[i]? = none := by rw [List.getElem?_eq_none_iff] at hi ⊢; omega
            rw [this]
          | some c' =>
            obtain ⟨c, c1, _, c3, _⟩ := hkids i c' hi
            rw [c1]
            simp only [Option.map_some, bitsOf_unsized c3]
        have htot : totalBits s'.children = totalBits s.children := by rw [totalBits, totalBits, hbits]
        have htake : ∀ i, totalBits (s'.children.take i) = totalBits (s.children.take i) := by
          intro i; rw [totalBits, totalBits, List.map_take, List.map_take, hbits]
        constructor
        · have : kindAt r' p = some (.structure (some res.2)) := by rw [← h, hat, if_pos rfl]
          rw [kindAt, hs'] at this
          simp only [Option.map_some, Option.some.injEq] at this
          rw [this, a3, htot, Nat.zero_add]
        · intro i c' t rg o hi hck
          obtain ⟨c, c1, c2, c3, c4⟩ := hkids i c' hi
          obtain ⟨o0, hc0⟩ : ∃ o0, c.kind = .field t rg o0 := by
            rw [hck] at c3
            cases hcc : c.kind <;> rw [hcc] at c3 <;> simp [Kind.unsized] at c3
            obtain ⟨rfl, rfl⟩ := c3; exact ⟨_, rfl⟩
          have h5 := a5 i c t rg o0 c1 hc0
          have : kindAt r' (p ++ [c.name]) = kindAt res.1 (p ++ [c.name]) := by
            rw [← h, hat, if_neg]
            intro he
            have := congrArg List.length he
            simp at this
          rw [this, h5, hck] at c4
          simp only [Option.some.injEq, Kind.field.injEq, true_and] at c4
          rw [htake, ← c4, Nat.zero_add]
      refine ⟨g1, g2, hlaid, ?_⟩
      intro q hq
      by_cases hqp : q = p
      · rw [hqp]; exact hlaid
      · intro s2 sz2 hs2 hk2
        -- nothing of another structure was changed
        have hs2k : ∃ sz0, kindAt r q = some (.structure sz0) := by
          obtain ⟨s0, b1, _, b3, _⟩ := g2.symm.node hs2
          rw [hk2] at b3
          cases hcc : s0.kind <;> rw [hcc] at b3 <;> simp [Kind.unsized] at b3
          exact ⟨_, kindAt_some.mpr ⟨s0, b1, hcc⟩⟩
        have hfr : ∀ x, (x ≠ p) → (∀ c ∈ s.children, c.kind.isField = true → x ≠ p ++ [c.name]) → kindAt r' x = kindAt r x := by
          intro x hx hx2
          rw [← h, hat, if_neg hx, a4 x hx2]
        refine laidOutAt_congr hg g1 g2 ?_ ?_ hq s2 sz2 hs2 hk2
        · refine hfr q hqp ?_
          rintro c hc hcf rfl
          obtain ⟨sz0, hs0⟩ := hs2k
          rw [kindAt, descend_child hg hp hc] at hs0
          simp only [Option.map_some, Option.some.injEq] at hs0
          rw [hs0] at hcf; cases hcf
        · intro k
          by_cases hkp : q ++ [k] = p
          · -- the structure at `p` would be a child of a structure: only its size changes
            have e1 : kindAt r' p = some (.structure (some res.2)) := by rw [← h, hat, if_pos rfl]
            have e2 : kindAt r p = some (.structure sz) := kindAt_some.mpr ⟨s, hp, hsk⟩
            rw [hkp, e1, e2]; rfl
          · refine congrArg (Option.map Kind.outline) (hfr _ hkp ?_)
            intro c hc _ he
            have := List.append_inj_left' he rfl
            exact hqp this
    · rename_i hnk
      simp only [pure, Except.pure, Except.ok.injEq] at h
      subst h
      exact ⟨hg, .refl _, fun s' sz hs hk => (by rw [hp] at hs; cases hs; exact absurd hk (hnk _)), fun _ h => h⟩

/-! ## The dependency order -/

theorem depChildren_finite {t : Tree} (hl : Lk t) : Props.FiniteFrom (depChildren t) [] ((t.iter []).map (·.1)) := by
  have hmem : ∀ {p : Path}, p ∈ (t.iter []).map (·.1) ↔ ∃ n, t.descend p = some n := by
    intro p
    simp only [List.mem_map, Prod.exists, exists_and_right, exists_eq_right, iter_descend hl.good]
  constructor
  · exact hmem.mpr ⟨t, rfl⟩
  · intro p hp c hc
    obtain ⟨n, hn⟩ := hmem.mp hp
    simp only [depChildren, hn, List.mem_append, List.mem_map, Tree.childrenLike, List.mem_filter] at hc
    rcases hc with ⟨d, ⟨hd, _⟩, rfl⟩ | ⟨d, ⟨hd, hk⟩, rfl⟩
    · exact hmem.mpr ⟨d, descend_child hl.good hn hd⟩
    · have : ∃ rk, d.kind = .ref rk := by
        cases hdk : d.kind with
        | ref rk => exact ⟨rk, rfl⟩
        | _ => rw [hdk] at hk; cases hk
      obtain ⟨rk, hrk⟩ := this
      obtain ⟨m, _, hm, _⟩ := hl.target (descend_child hl.good hn hd) hrk
      exact hmem.mpr ⟨m, hm⟩

/-- The traversal reaches every node except references. -/
theorem all_reachable {t : Tree} (hl : Lk t) : ∀ (p : Path) (n : Tree), t.descend p = some n → (∀ rk, n.kind ≠ .ref rk) →
    Reachable (depChildren t) [] p := by
  intro p
  induction p using List.reverseRecOn with
  | nil => intro n _ _; exact ⟨0, .refl _⟩
  | append_singleton q k ih =>
    intro n hn hk
    obtain ⟨m, hm, hmem, rfl⟩ := descend_parent hn
    obtain ⟨i, hi⟩ := ih m hm (by
      intro rk hrk
      have := hl.leaf q m rk hm hrk
      rw [this] at hmem; cases hmem)
    refine ⟨i + 1, .step hi ?_⟩
    simp only [depChildren, hm, List.mem_append, List.mem_map, Tree.childrenLike, List.mem_filter]
    refine .inl ⟨n, ⟨hmem, ?_⟩, rfl⟩
    cases hnk : n.kind with
    | ref rk => exact absurd hnk (hk rk)
    | _ => rfl

theorem foldlM_computeSize {l : List Path} : ∀ {t t' : Tree}, Good t → l.foldlM computeSize t = .ok t' →
    Good t' ∧ SameBy Kind.unsized t t' ∧ (∀ q, LaidOutAt t q → LaidOutAt t' q) ∧ ∀ q ∈ l, LaidOutAt t' q := by
  induction l with
  | nil =>
    intro t t' hg h
    simp only [List.foldlM_nil, pure, Except.pure, Except.ok.injEq] at h
    subst h
    exact ⟨hg, .refl _, fun _ h => h, by simp⟩
  | cons p l ih =>
    intro t t' hg h
    simp only [List.foldlM_cons] at h
    obtain ⟨t1, h1, h⟩ := bind_ok h
    obtain ⟨a1, a2, a3, a4⟩ := computeSize_spec hg h1
    obtain ⟨b1, b2, b3, b4⟩ := ih a1 h
    refine ⟨b1, a2.trans b2, fun q hq => b3 q (a4 q hq), ?_⟩
    intro q hq
    rcases List.mem_cons.mp hq with rfl | hq
    · exact b3 _ a3
    · exact b4 q hq

theorem computeSizes_ok {n : Nat} {t t' : Tree} (h : computeSizes n t = some (.ok t')) :
    ∃ events, DfsYields (depChildren t) [] (.ok events) ∧ (dependencyOrder events).foldlM computeSize t = .ok t' := by
  unfold computeSizes at h
  split at h
  · cases h
  · cases h
  · rename_i events hev
    simp only [Option.some.injEq] at h
    exact ⟨events, ⟨n, hev⟩, h⟩

theorem computeSizes_spec {n : Nat} {t t' : Tree} (hl : Lk t) (h : computeSizes n t = some (.ok t')) :
    Good t' ∧ SameBy Kind.unsized t t' ∧ (∀ q, LaidOutAt t' q) ∧
    ∀ p, Reachable (depChildren t) [] p → ¬ OnCycle (depChildren t) p := by
  obtain ⟨events, hev, h⟩ := computeSizes_ok h
  have hf := depChildren_finite hl
  obtain ⟨_, h2, _⟩ := Props.C49_dependency_order _ _ _ hf events hev
  obtain ⟨a1, a2, _, a4⟩ := foldlM_computeSize hl.good h
  refine ⟨a1, a2, ?_, ?_⟩
  · intro q s sz hs hk
    obtain ⟨s0, b1, _, b3, _⟩ := a2.symm.node hs
    refine a4 q ((h2 q).mpr (all_reachable hl q s0 b1 ?_)) s sz hs hk
    intro rk hrk
    rw [hk, hrk] at b3; cases b3
  · intro p hp hc
    have := (Props.C50_circular_iff _ _ _ hf _ hev).1.mpr ⟨p, hp, hc⟩
    obtain ⟨e, he⟩ := this
    cases he

/-- The loop always ends, with one outcome. -/
theorem computeSizes_total {t : Tree} (hl : Lk t) : ∃ n out, computeSizes n t = some out := by
  obtain ⟨out, ⟨n, hn⟩, _⟩ := Props.C50_terminates _ _ _ (depChildren_finite hl)
  refine ⟨n, ?_⟩
  unfold computeSizes
  rw [hn]
  cases out <;> exact ⟨_, rfl⟩

theorem computeSizes_unique {t : Tree} {n m : Nat} {a b : M Tree} (ha : computeSizes n t = some a) (hb : computeSizes m t = some b) : a = b := by
  unfold computeSizes at ha hb
  cases h1 : Dfs.run (depChildren t) n (Dfs.init []) with
  | none => rw [h1] at ha; cases ha
  | some x =>
    cases h2 : Dfs.run (depChildren t) m (Dfs.init []) with
    | none => rw [h2] at hb; cases hb
    | some y =>
      have : x = y := Props.dfs_deterministic ⟨n, h1⟩ ⟨m, h2⟩
      subst this
      rw [h1] at ha
      rw [h2] at hb
      rw [ha] at hb
      exact Option.some.inj hb

end Gen
