import Verif.Lemmas.GenIndex
import Verif.Props.Gen.Ast

/-!
# C63: index types of multivectors
-/

namespace Props
open Gen Spec

theorem renamed_namesAt {pos : List Nat} : ∀ {t t' n : Tree}, WellNamed t → Renamed t t' → treeAt t pos = some n → (∀ r, n.kind ≠ .ref r) →
    namesAt t' pos = namesAt t pos := by
  induction pos with
  | nil => intro t t' n _ _ _ _; rfl
  | cons i is ih =>
    intro t t' n hw hr hn hk
    simp only [treeAt] at hn
    cases hc : t.children[i]? with
    | none => rw [hc] at hn; cases hn
    | some c =>
      rw [hc] at hn
      cases hr with
      | @mk _ n' _ cs cs' _ hl hel =>
        simp only [Tree.children] at hc
        have hi : i < cs'.length := by have := (List.getElem?_eq_some_iff.mp hc).1; omega
        have hc' : cs'[i]? = some cs'[i] := List.getElem?_eq_getElem hi
        have hcc := hel i c _ hc hc'
        have hwc : WellNamed c := hw.children c (List.mem_of_getElem? hc)
        have hnr : ∀ r, c.kind ≠ .ref r := by
          cases is with
          | nil => simp only [treeAt, Option.some.injEq] at hn; rw [hn]; exact hk
          | cons j js =>
            refine (hwc.plain ?_).2
            intro h0
            simp [treeAt, h0] at hn
        have hname : cs'[i].name = c.name := by
          generalize cs'[i] = d at hcc
          cases hcc with
          | mk a _ _ =>
            rcases a with a | ⟨⟨r, hr⟩, _⟩
            · exact a
            · exact absurd hr (hnr r)
        simp only [namesAt, Tree.children, hc, hc', hname]
        rw [ih hwc hcc hn hk]

theorem treeAt_snoc {pos : List Nat} {i : Nat} : ∀ {t n c : Tree}, treeAt t pos = some n → n.children[i]? = some c → treeAt t (pos ++ [i]) = some c := by
  induction pos with
  | nil => intro t n c h hc; simp only [treeAt, Option.some.injEq] at h; subst h; simp [treeAt, hc]
  | cons j js ih =>
    intro t n c h hc
    simp only [List.cons_append, treeAt] at h ⊢
    cases hj : t.children[j]? with
    | none => rw [hj] at h; cases h
    | some d => rw [hj] at h; exact ih h hc

/-- Path of the index type of the multivector of width `w` at `p`. -/
def indexTypePath (p : Path) (w : Nat) : Path :=
  p.dropLast.dropLast ++ ["_builtin".toList, "multivector".toList, "IndexType".toList ++ natText w]

theorem indexTypePath_eq (p : Path) (w : Nat) : builtinKeys p ++ [indexTypeName w] = indexTypePath p w := by
  have key : ∀ (a : Path) (x y z : Text), (a ++ [x, y]) ++ [z] = a ++ [x, y, z] := by simp
  exact key _ _ _ _

theorem indexTypePath_noat {p : Path} (hp : ∀ k ∈ p, '@' ∉ k) (w : Nat) : ∀ k ∈ indexTypePath p w, '@' ∉ k := by
  intro k hk
  simp only [indexTypePath, List.mem_append, List.mem_cons, List.not_mem_nil, or_false] at hk
  rcases hk with hk | rfl | rfl | rfl
  · exact hp k (List.dropLast_subset _ (List.dropLast_subset _ hk))
  · decide
  · decide
  · simp only [List.mem_append, not_or]; exact ⟨by decide, natText_noat w⟩

theorem indexTypePath_nodot {p : Path} (hp : ∀ k ∈ p, '.' ∉ k) (w : Nat) : ∀ k ∈ indexTypePath p w, '.' ∉ k := by
  intro k hk
  simp only [indexTypePath, List.mem_append, List.mem_cons, List.not_mem_nil, or_false] at hk
  rcases hk with hk | rfl | rfl | rfl
  · exact hp k (List.dropLast_subset _ (List.dropLast_subset _ hk))
  · decide
  · decide
  · simp only [List.mem_append, not_or]
    refine ⟨by decide, ?_⟩
    intro h
    exact absurd (natText_digits w _ h) (by unfold IsDigit; decide)

/-- After resolution every multivector has one reference to an index type. -/
theorem resolved_index {blocks : List PBlock} (hb : ∀ b ∈ blocks, PlainNames b) {r : Tree} (h : buildResolved blocks = .ok r)
    {p : Path} {n : Tree} {w : Nat} {o m} (hn : r.descend p = some n) (hk : n.kind = .resource (.multivector w) o m) :
    (∃ c ∈ n.children, c.kind = .ref .builtinStructure) ∧
    ∀ c ∈ n.children, c.kind = .ref .builtinStructure → c.target = pathText (indexTypePath p w) := by
  unfold buildResolved at h
  obtain ⟨t0, h1, h⟩ := bind_ok h
  obtain ⟨t1, h2, h⟩ := bind_ok h
  have hm := (built_merged h1).1
  have hr := appendBuiltins_ready ⟨hm.good, (built_named hb h1).1, hm.name, hm.kind⟩ h2
  have hix := appendBuiltins_indexed h1 h2
  obtain ⟨hren, hg', hw'⟩ := resolve_renamed hr.good hr.named hr.name h
  have hnr : ∀ x, n.kind ≠ .ref x := by rw [hk]; simp
  have hpat := descend_noat hw' hn hnr
  have hpdot := descend_nodot hg' hn
  obtain ⟨pos, hp1, hp2⟩ := descend_treeAt hn
  cases ht : treeAt t1 pos with
  | none => rw [(renamed_treeAt hren).2 ht] at hp1; cases hp1
  | some x =>
    obtain ⟨n', a1, a2⟩ := (renamed_treeAt hren).1 x ht
    rw [hp1] at a1; cases a1
    have hxk : x.kind = n.kind := by cases a2; rfl
    have hnames := renamed_namesAt hr.named hren ht (by rw [hxk]; exact hnr)
    have hxp : t1.descend p = some x := by rw [← hp2, hnames]; exact descend_namesAt hr.good ht
    have hrefs := hix.refs p x w o m hxp (hxk.trans hk)
    simp only [List.not_mem_nil, if_false] at hrefs
    have hlen : x.children.length = n.children.length ∧ ∀ (i : Nat) c c', x.children[i]? = some c → n.children[i]? = some c' → Renamed c c' := by
      cases a2 with
      | mk _ b c => exact ⟨b, c⟩
    constructor
    · have : indexRefName p w ∈ indexRefs (info x) := by rw [hrefs]; simp
      simp only [indexRefs, List.mem_map, List.mem_filter, info] at this
      obtain ⟨_, ⟨⟨c, hc, rfl⟩, hck⟩, _⟩ := this
      obtain ⟨i, hi, rfl⟩ := List.getElem_of_mem hc
      have hi' : i < n.children.length := by omega
      refine ⟨n.children[i], List.getElem_mem hi', ?_⟩
      have := hlen.2 i _ _ (List.getElem?_eq_getElem hi) (List.getElem?_eq_getElem hi')
      have hkk : n.children[i].kind = x.children[i].kind := by
        generalize n.children[i] = a at this ⊢
        generalize x.children[i] = b at this ⊢
        cases this; rfl
      rw [hkk]; simpa using hck
    · intro c' hc' hck'
      obtain ⟨i, hi, rfl⟩ := List.getElem_of_mem hc'
      have hi' : i < x.children.length := by omega
      have hcx := List.getElem?_eq_getElem hi'
      have hcn := List.getElem?_eq_getElem hi
      have hrn := hlen.2 i _ _ hcx hcn
      generalize n.children[i] = c' at *
      generalize hxc : x.children[i] = c at *
      have hck : c.kind = .ref .builtinStructure := by cases hrn; exact hck'
      have hcname : c.name = indexRefName p w := by
        have : c.name ∈ indexRefs (info x) := by
          simp only [indexRefs, List.mem_map, List.mem_filter, info]
          exact ⟨_, ⟨⟨c, List.mem_of_getElem? hcx, rfl⟩, by simpa using hck⟩, rfl⟩
        rw [hrefs] at this; simpa using this
      have hct : c.target = pathText (indexTypePath p w) := by
        rw [Tree.target, hcname, indexRefName, indexTypePath_eq, dereferencify_referencify (pathText_noat (indexTypePath_noat hpat w))]
      obtain ⟨r', q, y, b1, b2, b3, b4, b5, b6⟩ := C48_resolved hr.good hr.named hr.name h (treeAt_snoc ht hcx) hck
      rw [treeAt_snoc hp1 hcn] at b1
      cases b1
      rw [hct] at b3
      have hne : indexTypePath p w ≠ [] := by simp [indexTypePath]
      rw [b4]
      generalize htx : pathText (indexTypePath p w) = tx at b3 ⊢
      have hdot : tx.head? = some '.' := by rw [← htx]; exact pathText_head hne
      cases b3 with
      | absolute => rfl
      | inDefinition hrel => exact absurd hdot hrel
      | inNamespace hrel => exact absurd hdot hrel

theorem stages_index {blocks : List PBlock} (hb : ∀ b ∈ blocks, PlainNames b) {t : Tree} (s : Stages blocks t)
    {p : Path} {n : Tree} {w : Nat} {o m} (hn : t.descend p = some n) (hk : n.kind = .resource (.multivector w) o m) :
    (∃ c ∈ n.children, c.kind = .ref .builtinStructure) ∧
    ∀ c ∈ n.children, c.kind = .ref .builtinStructure → c.target = pathText (indexTypePath p w) := by
  obtain ⟨hlc, hgr, hbk⟩ := appendConstantRefs_spec (s.linked hb).1 s.h2
  have hsame := s.sameCT hb
  obtain ⟨nc, c1, c2, c3, _⟩ := hsame.symm.node hn
  have hck : ∃ m', nc.kind = .resource (.multivector w) o m' := by
    rw [hk] at c3
    cases hx : nc.kind <;> rw [hx] at c3 <;> simp [Kind.blank] at c3
    obtain ⟨rfl, rfl⟩ := c3; exact ⟨_, rfl⟩
  obtain ⟨m', hck⟩ := hck
  rcases hbk p nc c1 with ⟨n0, d1, d2⟩ | ⟨a, x, _, _, _, _, _, _, hkc⟩
  · obtain ⟨y, ext, e1, e2, e3, e4, e5⟩ := hgr p n0 d1
    rw [c1] at e1; cases e1
    rw [if_neg (by rw [← d2, hck]; simp)] at e5
    subst e5
    rw [List.append_nil] at e4
    obtain ⟨f1, f2⟩ := resolved_index hb s.h1 d1 (d2.symm.trans hck)
    have hinfo : ∀ a b : Tree, info a = info b → ∀ c ∈ a.children, ∃ c' ∈ b.children, c'.name = c.name ∧ c'.kind = c.kind := by
      intro a b hab c hc
      have : (c.name, c.kind) ∈ info b := by rw [← hab]; exact List.mem_map.mpr ⟨c, hc, rfl⟩
      obtain ⟨c', h1, h2⟩ := List.mem_map.mp this
      simp only [Prod.mk.injEq] at h2
      exact ⟨c', h1, h2.1, h2.2⟩
    constructor
    · obtain ⟨c, hc, hcb⟩ := f1
      obtain ⟨c', g1, _, g3⟩ := hinfo _ _ e4.symm c hc
      obtain ⟨c'', i1, _, i3, _⟩ := hsame.mem hlc.good c1 hn g1
      exact ⟨c'', i1, Same.ref_eq i3.symm (g3.trans hcb)⟩
    · intro c hc hcb
      obtain ⟨c', g1, g2, g3, _⟩ := hsame.child c1 hn (s.lkT hb).good hc
      obtain ⟨c'', i1, i2, i3⟩ := hinfo _ _ e4 c' g1
      have := f2 c'' i1 (i3.trans (Same.ref_eq g3.symm hcb))
      rw [Tree.target] at this ⊢
      rw [← g2, ← i2]; exact this
  · rw [hkc] at hck; cases hck

theorem refName {blocks : List PBlock} (hb : ∀ b ∈ blocks, PlainNames b) {t : Tree} (s : Stages blocks t) {p : Path} {n c : Tree} {rk : RefKind}
    (hn : t.descend p = some n) (hc : c ∈ n.children) (hk : c.kind = .ref rk) : ∃ b, c.name = '@' :: b ∧ '.' ∉ b := by
  have hsame := s.sameCT hb
  have hd := descend_child (s.lkT hb).good hn hc
  obtain ⟨x, h1, h2, h3, _⟩ := hsame.symm.node hd
  obtain ⟨b, h4, _⟩ := (wellNamed_descend (s.linkedC hb).named h1).ref_name (Same.ref_eq h3.symm hk)
  refine ⟨b, h2.symm.trans h4, ?_⟩
  have := (descend_good (s.lkT hb).good hd).name
  rw [← h2, h4] at this
  simp only [List.mem_cons, not_or] at this
  exact this.2

/-- C63. In an accepted schema every multivector of width `w` refers to exactly one index type, and that is the structure
`IndexType<w>` of the namespace `_builtin.multivector` beside its archive. -/
theorem C63_index_type {blocks : List PBlock} (hb : ∀ b ∈ blocks, PlainNames b) {t : Tree} (h : BuildAst blocks (.ok t))
    {p : Path} {n : Tree} {w : Nat} {o : Bool} {m : Option Nat} (hn : t.descend p = some n) (hk : n.kind = .resource (.multivector w) o m) :
    ∃ r ∈ n.children, (∀ c ∈ n.children, c.kind = .ref .builtinStructure ↔ c = r) ∧
      ∃ s size, t.find r.target = .ok s ∧ s.kind = .structure size ∧
        t.descend (p.dropLast.dropLast ++ ["_builtin".toList, "multivector".toList, "IndexType".toList ++ natText w]) = some s := by
  obtain ⟨s, _⟩ := buildAst_stages h
  have hlk := s.lkT hb
  obtain ⟨⟨r, h1, h2⟩, h3⟩ := stages_index hb s hn hk
  have hrt := h3 r h1 h2
  refine ⟨r, h1, ?_, ?_⟩
  · intro c hc
    constructor
    · intro hck
      have hct := h3 c hc hck
      have e : c.name = r.name := by
        obtain ⟨b1, hb1, hd1⟩ := refName hb s hn hc hck
        obtain ⟨b2, hb2, hd2⟩ := refName hb s hn h1 h2
        rw [Tree.target] at hct hrt
        rw [hb1] at hct ⊢
        rw [hb2] at hrt ⊢
        rw [← referencify_dereferencify hd1, ← referencify_dereferencify hd2, hct, hrt]
      have g1 := child_of_mem (descend_good hlk.good hn).nodup hc
      have g2 := child_of_mem (descend_good hlk.good hn).nodup h1
      rw [e, g2] at g1
      exact (Option.some.inj g1).symm
    · rintro rfl; exact h2
  · obtain ⟨x, g1, g2, g3, g4⟩ := hlk.target (descend_child hlk.good hn h1) h2
    obtain ⟨size, hs⟩ := g4
    rw [targetPath_of (indexTypePath_nodot (descend_nodot hlk.good hn) w) hrt] at g2
    exact ⟨x, size, g3, hs, g2⟩

/-- The index type after resolution. -/
theorem resolved_type {blocks : List PBlock} (hb : ∀ b ∈ blocks, PlainNames b) {t0 r : Tree} (h0 : buildNodeTree blocks = .ok t0)
    (h : buildResolved blocks = .ok r) {q : Path} {w : Nat} {n : Tree} (hn : r.descend (q ++ [indexTypeName w]) = some n)
    (hk : n.kind = .structure none) (hnew : t0.descend (q ++ [indexTypeName w]) = none) :
    (∃ c ∈ n.children, c.name = "value".toList ∧ c.kind = indexField w) ∧
    ∀ c ∈ n.children, c.kind ≠ .namespace → c.name = "value".toList ∧ c.kind = indexField w := by
  unfold buildResolved at h
  rw [h0] at h
  obtain ⟨t0', h1, h⟩ := bind_ok h
  cases h1
  obtain ⟨t1, h2, h⟩ := bind_ok h
  have hm := (built_merged h0).1
  have hr := appendBuiltins_ready ⟨hm.good, (built_named hb h0).1, hm.name, hm.kind⟩ h2
  have hix := appendBuiltins_indexed h0 h2
  obtain ⟨hren, hg', hw'⟩ := resolve_renamed hr.good hr.named hr.name h
  have hpat := descend_noat hw' hn (by rw [hk]; simp)
  obtain ⟨r1, r2⟩ := renamed_descend hpat hren
  cases ht : t1.descend (q ++ [indexTypeName w]) with
  | none => rw [r2 ht] at hn; cases hn
  | some x =>
    obtain ⟨n', a1, a2⟩ := r1 x ht
    rw [hn] at a1; cases a1
    have hxk : x.kind = .structure none := by cases a2; exact hk
    have hty := hix.types q x w ht hnew hxk
    have hlen : x.children.length = n.children.length ∧ ∀ (i : Nat) c c', x.children[i]? = some c → n.children[i]? = some c' → Renamed c c' := by
      cases a2 with
      | mk _ b c => exact ⟨b, c⟩
    have hcorr : ∀ c c' : Tree, Renamed c c' → (∀ r, c.kind ≠ .ref r) → c'.name = c.name ∧ c'.kind = c.kind := by
      intro c c' hcc hnr
      cases hcc with
      | mk a _ _ =>
        rcases a with a | ⟨⟨r, hr⟩, _⟩
        · exact ⟨a, rfl⟩
        · exact absurd hr (hnr r)
    have hkind : ∀ c c' : Tree, Renamed c c' → c'.kind = c.kind := by
      intro c c' hcc; cases hcc; rfl
    have hmem : ∀ c ∈ x.children, c.kind ≠ .namespace → c.name = "value".toList ∧ c.kind = indexField w := by
      intro c hc hck
      have : (c.name, c.kind) ∈ (info x).filter fun x => x.2 ≠ .namespace :=
        List.mem_filter.mpr ⟨List.mem_map.mpr ⟨c, hc, rfl⟩, by simpa using hck⟩
      rw [hty, List.mem_singleton, Prod.mk.injEq] at this
      exact this
    constructor
    · have : ("value".toList, indexField w) ∈ (info x).filter fun x => x.2 ≠ .namespace := by rw [hty]; exact List.mem_singleton.mpr rfl
      obtain ⟨c, hc, hce⟩ := List.mem_map.mp (List.mem_filter.mp this).1
      rw [Prod.mk.injEq] at hce
      obtain ⟨i, hi, rfl⟩ := List.getElem_of_mem hc
      have hi' : i < n.children.length := by omega
      have hrn := hlen.2 i _ _ (List.getElem?_eq_getElem hi) (List.getElem?_eq_getElem hi')
      obtain ⟨e1, e2⟩ := hcorr _ _ hrn (by intro r hr; rw [hce.2] at hr; cases hr)
      exact ⟨_, List.getElem_mem hi', e1.trans hce.1, e2.trans hce.2⟩
    · intro c' hc' hck'
      obtain ⟨i, hi', rfl⟩ := List.getElem_of_mem hc'
      have hi : i < x.children.length := by omega
      have hrn := hlen.2 i _ _ (List.getElem?_eq_getElem hi) (List.getElem?_eq_getElem hi')
      obtain ⟨m1, m2⟩ := hmem _ (List.getElem_mem hi) (by rw [← hkind _ _ hrn]; exact hck')
      obtain ⟨e1, e2⟩ := hcorr _ _ hrn (by intro r hr; rw [m2] at hr; cases hr)
      exact ⟨e1.trans m1, e2.trans m2⟩

theorem totalBits_ns {l : List Tree} (h : ∀ c ∈ l, c.kind = .namespace) : totalBits l = 0 := by
  induction l with
  | nil => rfl
  | cons c l ih =>
    have h1 := ih fun x hx => h x (by simp [hx])
    simp only [totalBits, List.map_cons, List.sum_cons, h c (by simp), bitsOf] at h1 ⊢
    omega

/-- C63, the index type. Unless the schema itself defines something of that name, the index type of a multivector of width `w` has
the single field `value` of type `u64 : w` at offset 0 with the range `range`, and a size of `w` bits. (For width 0 it has 64.) -/
theorem C63_generated_type {blocks : List PBlock} (hb : ∀ b ∈ blocks, PlainNames b) {t0 t : Tree} (h : BuildAst blocks (.ok t))
    (h0 : buildNodeTree blocks = .ok t0) {p : Path} {n : Tree} {w : Nat} {o : Bool} {m : Option Nat} (hn : t.descend p = some n)
    (hk : n.kind = .resource (.multivector w) o m)
    (hnew : t0.descend (p.dropLast.dropLast ++ ["_builtin".toList, "multivector".toList, "IndexType".toList ++ natText w]) = none) :
    ∃ s f bits, bits = (if w = 0 then 64 else w) ∧
      t.descend (p.dropLast.dropLast ++ ["_builtin".toList, "multivector".toList, "IndexType".toList ++ natText w]) = some s ∧
      s.kind = .structure (some bits) ∧ f ∈ s.children ∧ f.name = "value".toList ∧
      f.kind = .field (.basic ⟨.u64, bits⟩) (some "range".toList) (some 0) ∧
      ∀ c ∈ s.children, c ≠ f → c.kind = .namespace := by
  obtain ⟨_, _, _, x, size, _, hxk, hx⟩ := C63_index_type hb h hn hk
  obtain ⟨s, _⟩ := buildAst_stages h
  have hlk := s.lkT hb
  have hsame := s.sameCT hb
  obtain ⟨hlc, hgr, hbk⟩ := appendConstantRefs_spec (s.linked hb).1 s.h2
  have hpath : p.dropLast.dropLast ++ ["_builtin".toList, "multivector".toList, "IndexType".toList ++ natText w] = builtinKeys p ++ [indexTypeName w] :=
    (indexTypePath_eq p w).symm
  rw [hpath] at hx hnew ⊢
  generalize builtinKeys p = q at hx hnew ⊢
  obtain ⟨nc, c1, c2, c3, _⟩ := hsame.symm.node hx
  have hck : nc.kind = .structure none := by
    rw [hxk] at c3
    have hok := hlc.kindOk _ _ c1
    cases hz : nc.kind <;> rw [hz] at c3 hok <;> simp [Kind.blank] at c3
    simp only [KindOk] at hok
    rw [hok]
  have hc : (∃ c ∈ nc.children, c.name = "value".toList ∧ c.kind = indexField w) ∧
      ∀ c ∈ nc.children, c.kind ≠ .namespace → c.name = "value".toList ∧ c.kind = indexField w := by
    rcases hbk _ nc c1 with ⟨n0, d1, d2⟩ | ⟨a, y, _, _, _, _, _, _, hkc⟩
    · obtain ⟨y, ext, e1, e2, e3, e4, e5⟩ := hgr _ n0 d1
      rw [c1] at e1; cases e1
      rw [if_neg (by rw [← d2, hck]; simp)] at e5
      subst e5
      rw [List.append_nil] at e4
      obtain ⟨f1, f2⟩ := resolved_type hb h0 s.h1 d1 (d2.symm.trans hck) hnew
      have hinfo : ∀ a b : Tree, info a = info b → ∀ c ∈ a.children, ∃ c' ∈ b.children, c'.name = c.name ∧ c'.kind = c.kind := by
        intro a b hab c hc
        have : (c.name, c.kind) ∈ info b := by rw [← hab]; exact List.mem_map.mpr ⟨c, hc, rfl⟩
        obtain ⟨c', h1, h2⟩ := List.mem_map.mp this
        simp only [Prod.mk.injEq] at h2
        exact ⟨c', h1, h2.1, h2.2⟩
      constructor
      · obtain ⟨c, g1, g2, g3⟩ := f1
        obtain ⟨c', i1, i2, i3⟩ := hinfo _ _ e4.symm c g1
        exact ⟨c', i1, i2.trans g2, i3.trans g3⟩
      · intro c g1 g2
        obtain ⟨c', i1, i2, i3⟩ := hinfo _ _ e4 c g1
        obtain ⟨j1, j2⟩ := f2 c' i1 (by rw [i3]; exact g2)
        exact ⟨i2.symm.trans j1, i3.symm.trans j2⟩
    · rw [hkc] at hck; cases hck
  -- the same node in the final tree
  have hty := (updateFieldTypes_spec hlc.lk s.h4).2.2.1
  have final : ∀ c ∈ nc.children, c.kind = indexField w → ∀ c' ∈ x.children, c'.name = c.name →
      ∃ o, c'.kind = .field (.basic ⟨.u64, if w = 0 then 64 else w⟩) (some "range".toList) o := by
    intro c hcm hckd c' hc' hcn
    have hdc := descend_child hlc.good c1 hcm
    have hdc' := descend_child hlk.good hx hc'
    have k1 := hty _ _ (kindAt_some.mpr ⟨c, hdc, hckd⟩) (by intro rg o; simp [indexField])
    obtain ⟨y, y1, y2⟩ := kindAt_some.mp k1
    obtain ⟨z, z1, _, z3, _⟩ := (s.sizedSpec hb).2.1.node y1
    obtain ⟨u, u1, _, u3, _⟩ := (s.maxSpec hb).2.1.node z1
    rw [hcn] at hdc'
    rw [hdc'] at u1; cases u1
    rw [y2] at z3
    have hzk : ∃ o, z.kind = .field (.basic ⟨.u64, if w = 0 then 64 else w⟩) (some "range".toList) o := by
      cases hz : z.kind <;> rw [hz] at z3 <;> simp only [Kind.unsized, indexField, reduceCtorEq, Kind.field.injEq, and_true] at z3
      rw [z3.1, z3.2]; exact ⟨_, rfl⟩
    obtain ⟨o, hzk⟩ := hzk
    rw [hzk] at u3
    exact ⟨o, unlimited_field u3⟩
  obtain ⟨⟨c, g1, g2, g3⟩, hc2⟩ := hc
  obtain ⟨f, i1, i2, i3, _⟩ := hsame.mem hlc.good c1 hx g1
  obtain ⟨o, hfk⟩ := final c g1 g3 f i1 i2
  have honly : ∀ c ∈ x.children, c ≠ f → c.kind = .namespace := by
    intro d hd hne
    obtain ⟨d', j1, j2, j3, _⟩ := hsame.child c1 hx hlk.good hd
    by_contra hdn
    have : d'.kind ≠ .namespace := by
      intro hh
      rw [hh] at j3
      apply hdn
      cases hz : d.kind <;> rw [hz] at j3 <;> simp [Kind.blank] at j3
    obtain ⟨l1, l2⟩ := hc2 d' j1 this
    apply hne
    have e : d.name = f.name := by rw [← j2, l1, i2, g2]
    have m1 := child_of_mem (descend_good hlk.good hx).nodup hd
    have m2 := child_of_mem (descend_good hlk.good hx).nodup i1
    rw [e, m2] at m1
    exact (Option.some.inj m1).symm
  have hlaid := (C62_layout hb h hx).1 size hxk
  obtain ⟨k, hkl, hke⟩ := List.getElem_of_mem i1
  have hsplit : x.children = x.children.take k ++ f :: x.children.drop (k + 1) := by
    rw [← hke, List.cons_getElem_drop_succ, List.take_append_drop]
  have hnd := (descend_good hlk.good hx).nodup
  have hne : ∀ c, c ∈ x.children.take k ∨ c ∈ x.children.drop (k + 1) → c.kind = .namespace := by
    intro d hd
    refine honly d ?_ ?_
    · rcases hd with hd | hd
      · exact List.mem_of_mem_take hd
      · exact List.mem_of_mem_drop hd
    · rintro rfl
      rw [hsplit, List.map_append, List.map_cons, List.nodup_middle, List.nodup_cons] at hnd
      apply hnd.1
      rw [← List.map_append]
      exact List.mem_map_of_mem (by simpa using hd)
  have htake := totalBits_ns fun c hc => hne c (.inl hc)
  have hdrop := totalBits_ns fun c hc => hne c (.inr hc)
  have hsum : totalBits x.children = if w = 0 then 64 else w := by
    rw [hsplit]
    simp only [totalBits, List.map_append, List.map_cons, List.sum_append, List.sum_cons, hfk, bitsOf] at htake hdrop ⊢
    omega
  refine ⟨x, f, _, rfl, hx, ?_, i1, i2.trans g2, ?_, honly⟩
  · rw [hlaid.1, hsum]
  · rw [hfk]
    have := hlaid.2 k f _ _ _ (by rw [List.getElem?_eq_getElem hkl, hke]) hfk
    rw [this, htake]

/-! ## A multivector that is accepted -/

/-- The multivector `w` of `astSample` meets the hypotheses of both theorems. -/
example : (∀ b ∈ astSample, PlainNames b) ∧ BuildAst astSample (.ok astSampleTree) ∧
    ((astSampleTree.descend ["n".toList, "m".toList, "R".toList, "w".toList]).map Tree.kind) =
      some (.resource (.multivector 33) false none) ∧
    (match buildNodeTree astSample with
      | .ok t0 => (t0.descend ["n".toList, "m".toList, "_builtin".toList, "multivector".toList, "IndexType".toList ++ natText 33]).isNone
      | .error _ => false) = true :=
  ⟨astSample_ok.1, astSample_ok.2.1, by decide +kernel, by decide +kernel⟩

end Props
