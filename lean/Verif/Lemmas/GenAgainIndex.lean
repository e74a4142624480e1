import Verif.Lemmas.GenAgainTrack
import Verif.Lemmas.GenUsage
import Verif.Props.Gen.ExplicitField

/-! # The index types of a stored schema (for C106) -/

namespace Gen
open Spec Props

theorem track_of {Q : Tree → Prop} {t : Tree} (hg : Good t) {z : Tree} {p : List Text} : ∀ {a : Path} {y : Tree}, t.descend a = some y → y.descend p = some z →
    (∀ b c m, c ≠ [] → p = b ++ c → t.descend (a ++ b) = some m → ∀ d ∈ m.children, d.kind ≠ .explicitReference) →
    (∀ b c m, b ≠ [] → p = b ++ c → t.descend (a ++ b) = some m → Q m) → Track Q y p z := by
  induction p with
  | nil =>
    intro a y _ hz _ _
    simp only [Tree.descend, Option.some.injEq] at hz
    exact hz
  | cons k ks ih =>
    intro a y ha hz h1 h2
    unfold Tree.descend at hz
    cases hcd : y.child k with
    | none => rw [hcd] at hz; cases hz
    | some d =>
      rw [hcd] at hz
      obtain ⟨hm, hname⟩ := child_some hcd
      have hd : t.descend (a ++ [k]) = some d := by rw [← hname]; exact descend_child hg ha hm
      refine ⟨h1 [] (k :: ks) y (by simp) rfl (by rw [List.append_nil]; exact ha), (descend_good hg ha).nodup, d, hm, hname, h2 [k] ks d (by simp) rfl hd, ?_⟩
      refine ih hd hz ?_ ?_
      · intro b c m hc hk hm
        exact h1 (k :: b) c m hc (by rw [hk]; rfl) (by simpa using hm)
      · intro b c m hb hk hm
        exact h2 (k :: b) c m (by simp) (by rw [hk]; rfl) (by simpa using hm)

/-- Above a namespace there are only namespaces. -/
theorem flat_above {t : Tree} (hf : Flat t) {c : List Text} : ∀ {b : Path} {z m : Tree}, t.descend (b ++ c) = some z → z.kind = .namespace →
    t.descend b = some m → b ≠ [] → m.kind = .namespace := by
  induction c using List.reverseRecOn with
  | nil =>
    intro b z m hz hk hm _
    rw [List.append_nil, hm] at hz
    cases hz; exact hk
  | append_singleton c k ih =>
    intro b z m hz hk hm hb
    rw [← List.append_assoc] at hz
    rcases hf _ _ _ hz hk with h | ⟨x, h1, h2⟩
    · exact absurd (List.append_eq_nil_iff.mp h).1 hb
    · exact ih h1 h2 hm hb

theorem no_explicit {s : Text} {t : Tree} (h : Compile s (.ok t)) {p : Path} {n : Tree} (hn : t.descend p = some n) (hk : n.kind.isResource = false) :
    ∀ d ∈ n.children, d.kind ≠ .explicitReference := by
  intro d hd he
  have hc := compile_compiled h
  obtain ⟨q, r, rk, o, m, h1, h2, h3, h4⟩ := explicit_parent h (hc.child hn hd) he
  rw [List.append_inj_left' h1 rfl] at hn
  rw [hn] at h2; cases h2
  rw [h3] at hk; cases hk

/-- What a multivector in an accepted schema comes with. -/
structure IndexIn (t : Tree) (p : Path) (w : Nat) (z x m rr : Tree) : Prop where
  small : w ≤ 64
  keys : Track (fun d => d.kind = .namespace ∧ '.' ∉ d.name ∧ d.name ≠ []) t (builtinKeys p) z
  nodup : (z.children.map Tree.name).Nodup
  plain : ∀ d ∈ z.children, d.kind ≠ .explicitReference
  type : x ∈ z.children
  typeName : x.name = indexTypeName w
  typeKind : ∃ sz, x.kind = .structure sz
  typeLike : Like (.mk (indexTypeName w) (.structure none) [.mk "value".toList (indexField w) []]) x
  way : Track (fun d => ∀ rk, d.kind ≠ .ref rk) t p m
  names : (m.children.map Tree.name).Nodup
  ref : rr ∈ m.children
  refName : rr.name = indexRefName p w
  refKind : rr.kind = .ref .builtinStructure

theorem indexIn {s : Text} {t : Tree} (h : Compile s (.ok t)) (hf : Flat t) {blocks : List PBlock} (hs : parseSource s = .ok blocks)
    (hno : ∀ b ∈ blocks, "_builtin".toList ∉ splitDot b.name) {p : Path} {m : Tree} {w : Nat} {o : Bool} {mx : Option Nat}
    (hm : t.descend p = some m) (hk : m.kind = .resource (.multivector w) o mx) : ∃ z x rr, IndexIn t p w z x m rr := by
  have hc := compile_compiled h
  obtain ⟨bs, h1, h2, h3⟩ := compile_blocks h
  rw [hs] at h1; cases h1
  have hb : ∀ b ∈ blocks, PlainNames b := fun b hb => lexical_plain (h2 b hb)
  obtain ⟨st, _⟩ := buildAst_stages h3
  have hr1 := st.h1
  unfold buildResolved at hr1
  obtain ⟨t0, h0, _⟩ := bind_ok hr1
  obtain ⟨x, f, bits, e1, e2, e3, e4, e5, e6, e7⟩ := C63_generated_type hb h3 h0 hm hk (index_undeclared hs h h0 hno hm hk)
  obtain ⟨rr, r1, r2, _⟩ := C63_index_type hb h3 hm hk
  have hrk := (r2 rr r1).mpr rfl
  have hpath : p.dropLast.dropLast ++ ["_builtin".toList, "multivector".toList, "IndexType".toList ++ natText w] = builtinKeys p ++ [indexTypeName w] :=
    (indexTypePath_eq p w).symm
  rw [hpath] at e2
  obtain ⟨z, z1, z2, z3, _⟩ := hc.parents _ _ _ e2
  have z3 := z3 (by rw [e3]; rfl)
  have hfd := hc.child e2 e4
  have h64 : bits ≤ 64 := by
    obtain ⟨b, hb1, hb2⟩ := (C62_layout hb h3 hfd).2 _ _ _ e6
    rcases hb1 with hb1 | ⟨_, hb1⟩ <;> cases hb1
    exact hb2
  -- the way to the resource
  have hp : p ≠ [] := by
    rintro rfl
    simp only [Tree.descend, Option.some.injEq] at hm
    subst hm
    rw [hc.rootKind] at hk; cases hk
  obtain ⟨pa, kr, rfl⟩ : ∃ pa kr, p = pa ++ [kr] := ⟨_, _, (List.dropLast_append_getLast hp).symm⟩
  obtain ⟨ar, a1, a2, _, a4⟩ := hc.parents _ _ _ hm
  have a4 := a4 (by rw [hk]; rfl)
  have hpa : pa ≠ [] := by
    rintro rfl
    simp only [Tree.descend, Option.some.injEq] at a1
    subst a1
    rw [hc.rootKind] at a4; cases a4
  obtain ⟨pn, ka, rfl⟩ : ∃ pn ka, pa = pn ++ [ka] := ⟨_, _, (List.dropLast_append_getLast hpa).symm⟩
  obtain ⟨ns, n1, n2, n3, _⟩ := hc.parents _ _ _ a1
  have n3 := n3 (by rw [a4]; rfl)
  have above : ∀ b c y, pn = b ++ c → t.descend b = some y → y.kind = .namespace ∨ y.kind = .root := by
    intro b c y hbc hy
    by_cases hb0 : b = []
    · subst hb0
      simp only [Tree.descend, Option.some.injEq] at hy
      subst hy
      exact .inr hc.rootKind
    · subst hbc
      exact .inl (flat_above hf n1 n3 hy hb0)
  have split : ∀ b c, (pn ++ [ka]) ++ [kr] = b ++ c → c ≠ [] → b = pn ++ [ka] ∨ ∃ c', pn = b ++ c' := by
    intro b c hbc hc0
    obtain ⟨c1, cl, rfl⟩ : ∃ c1 cl, c = c1 ++ [cl] := ⟨_, _, (List.dropLast_append_getLast hc0).symm⟩
    rw [← List.append_assoc] at hbc
    have hbc := List.append_inj_left' hbc rfl
    by_cases hc1 : c1 = []
    · subst hc1; left; rw [List.append_nil] at hbc; exact hbc.symm
    · obtain ⟨c2, cl2, rfl⟩ : ∃ c2 cl2, c1 = c2 ++ [cl2] := ⟨_, _, (List.dropLast_append_getLast hc1).symm⟩
      rw [← List.append_assoc] at hbc
      exact .inr ⟨c2, List.append_inj_left' hbc rfl⟩
  have hway : Track (fun d => ∀ rk, d.kind ≠ .ref rk) t ((pn ++ [ka]) ++ [kr]) m := by
    refine track_of (a := []) hc.lk.good rfl hm ?_ ?_
    · intro b c y hc0 hbc hy
      rw [List.nil_append] at hy
      refine no_explicit h hy ?_
      rcases split b c hbc hc0 with rfl | ⟨c', hc'⟩
      · rw [a1] at hy; cases hy; rw [a4]; rfl
      · rcases above b c' y hc' hy with e | e <;> rw [e] <;> rfl
    · intro b c y hb0 hbc hy rk
      rw [List.nil_append] at hy
      by_cases hc0 : c = []
      · subst hc0
        rw [List.append_nil] at hbc
        rw [← hbc, hm] at hy; cases hy
        rw [hk]; simp
      · rcases split b c hbc hc0 with rfl | ⟨c', hc'⟩
        · rw [a1] at hy; cases hy; rw [a4]; simp
        · rcases above b c' y hc' hy with e | e <;> rw [e] <;> simp
  have hkeys : Track (fun d => d.kind = .namespace ∧ '.' ∉ d.name ∧ d.name ≠ []) t (builtinKeys ((pn ++ [ka]) ++ [kr])) z := by
    have hns : ∀ b c y, builtinKeys ((pn ++ [ka]) ++ [kr]) = b ++ c → t.descend b = some y → b ≠ [] → y.kind = .namespace := by
      intro b c y hbc hy hb0
      rw [hbc] at z1
      exact flat_above hf z1 z3 hy hb0
    refine track_of (a := []) hc.lk.good rfl z1 ?_ ?_
    · intro b c y _ hbc hy
      rw [List.nil_append] at hy
      refine no_explicit h hy ?_
      by_cases hb0 : b = []
      · subst hb0
        simp only [Tree.descend, Option.some.injEq] at hy
        subst hy; rw [hc.rootKind]; rfl
      · rw [hns b c y hbc hy hb0]; rfl
    · intro b c y hb0 hbc hy
      rw [List.nil_append] at hy
      have hyk := hns b c y hbc hy hb0
      have hok := hc.name _ _ hy
      rw [hyk] at hok
      exact ⟨hyk, (descend_good hc.lk.good hy).name, hok.1⟩
  have hrn : rr.name = indexRefName ((pn ++ [ka]) ++ [kr]) w := by
    have ht := hc.index _ _ _ _ _ hm hk rr r1 hrk
    obtain ⟨b, hb1, hb2⟩ := Props.refName hb st hm r1 hrk
    rw [Tree.target, hb1] at ht
    have := congrArg referencify ht
    rw [referencify_dereferencify hb2, ← hb1] at this
    rw [this, indexRefName, indexTypePath_eq]
  refine ⟨z, x, rr, ?_⟩
  refine { small := by split at e1 <;> omega, keys := hkeys, nodup := (descend_good hc.lk.good z1).nodup,
           plain := no_explicit h z1 (by rw [z3]; rfl), type := z2, typeName := descend_last e2, typeKind := ⟨_, e3⟩, typeLike := ?_,
           way := hway, names := (descend_good hc.lk.good hm).nodup, ref := r1, refName := hrn, refKind := hrk }
  refine .intro (by rw [e3]; rfl) (by simp [Tree.children, Tree.kind, indexField]) ?_
  intro c hcm
  simp only [Tree.children, List.mem_singleton] at hcm
  subst hcm
  refine ⟨f, e4, .inr e5.symm, like_leaf ?_ rfl⟩
  rw [e6, e1]; rfl

theorem indexType_accepted {w : Nat} (h : w ≤ 64) :
    createStruct (indexTypeDef w) = .ok (.mk (indexTypeName w) (.structure none) [.mk "value".toList (indexField w) []]) := by
  have hb : basicOfText "u64".toList = some .u64 := by decide +kernel
  have hbt : BasicType.create .u64 (if w = 0 then none else some w) = .ok ⟨.u64, if w = 0 then 64 else w⟩ := by
    unfold BasicType.create
    by_cases hw : w = 0
    · subst hw; rfl
    · have hu : BasicName.u64.width = 64 := rfl
      simp only [hw, if_false, Option.getD_some, hu]
      rw [if_neg (by omega)]; rfl
  have hv : Tree.create "value".toList (.field .none (some "range".toList) none) = .ok (.mk "value".toList (.field .none (some "range".toList) none) []) := by
    unfold Tree.create
    rw [if_neg (by decide), if_neg (by decide)]; rfl
  have hf : createField ⟨"value".toList, [.range "range".toList], "u64".toList, if w = 0 then none else some w⟩ = .ok (.mk "value".toList (indexField w) []) := by
    unfold createField
    simp only [fieldRange, hv, fieldRefs]
    simp only [insertEach, hb, bind, Except.bind, pure, Except.pure, hbt]
    rfl
  have hn : Tree.create (indexTypeName w) (.structure none) = .ok (.mk (indexTypeName w) (.structure none) []) := by
    unfold Tree.create
    have n1 : '.' ∉ indexTypeName w := by
      unfold indexTypeName
      simp only [List.mem_append, not_or]
      refine ⟨by decide, ?_⟩
      intro h
      exact absurd (natText_digits w _ h) (by unfold IsDigit; decide)
    have n2 : indexTypeName w ≠ [] := by unfold indexTypeName; simp
    rw [if_neg n1, if_neg n2]; rfl
  have hfl : (indexTypeDef w).fields = [⟨"value".toList, [.range "range".toList], "u64".toList, if w = 0 then none else some w⟩] := rfl
  have hnm : (indexTypeDef w).name = indexTypeName w := rfl
  unfold createStruct
  rw [hfl, hnm, hn]
  simp only [List.map_cons, List.map_nil, bind, Except.bind, insertEach, hf]
  rw [insert_fresh_ok (by simp [Tree.children])]
  rfl

end Gen
