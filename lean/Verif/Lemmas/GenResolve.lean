import Verif.Spec.Resolve
import Verif.Lemmas.GenMerge

/-! # Lemmas about name resolution -/

namespace Gen
open Spec

/-- Induction over trees. -/
theorem Tree.induct {P : Tree → Prop} (h : ∀ n k cs, (∀ c ∈ cs, P c) → P (.mk n k cs)) : ∀ t, P t
  | .mk n k cs => h n k cs (fun c _ => Tree.induct h c)
termination_by t => sizeOf t
decreasing_by
  have := List.sizeOf_lt_of_mem ‹c ∈ cs›
  simp only [Tree.mk.sizeOf_spec]; omega

theorem accepts_iff (r : RefKind) (k : Kind) : r.accepts k = true ↔ KindFits r k := by
  cases r <;> cases k <;> simp [RefKind.accepts, KindFits]
  all_goals rename_i a b c <;> cases a <;> simp [RefKind.accepts]

/-! ## Texts -/

theorem dereferencify_referencify {t : Text} (h : '@' ∉ t) : dereferencify (referencify t) = t := by
  simp only [dereferencify, referencify, List.drop_succ_cons, List.drop_zero, List.map_map]
  conv_rhs => rw [← List.map_id t]
  apply List.map_congr_left
  intro c hc
  simp only [Function.comp, id]
  by_cases h1 : c = '.'
  · simp [h1]
  · have : c ≠ '@' := fun h2 => h (h2 ▸ hc)
    simp [h1, this]

theorem referencify_dereferencify {b : Text} (h : '.' ∉ b) : referencify (dereferencify ('@' :: b)) = '@' :: b := by
  simp only [dereferencify, referencify, List.drop_succ_cons, List.drop_zero, List.map_map]
  congr 1
  conv_rhs => rw [← List.map_id b]
  apply List.map_congr_left
  intro c hc
  simp only [Function.comp, id]
  by_cases h1 : c = '@'
  · simp [h1]
  · have : c ≠ '.' := fun h2 => h (h2 ▸ hc)
    simp [h1, this]

theorem referencify_nodot (t : Text) : '.' ∉ referencify t := by
  simp only [referencify, List.mem_cons, List.mem_map, not_or, not_exists, not_and]
  refine ⟨by decide, ?_⟩
  intro c _
  split
  · decide
  · assumption

theorem dereferencify_noat (t : Text) : '@' ∉ dereferencify t := by
  simp only [dereferencify, List.mem_map, not_exists, not_and]
  intro c _
  split
  · decide
  · assumption

theorem qualified_iff {b : Text} (h : '.' ∉ b) :
    isQualified ('@' :: b) = true ↔ (dereferencify ('@' :: b)).head? = some '.' := by
  cases b with
  | nil => simp [isQualified, dereferencify]
  | cons c b =>
    simp only [List.mem_cons, not_or] at h
    simp only [isQualified, dereferencify, List.drop_succ_cons, List.drop_zero, List.map_cons, List.head?_cons,
      List.take_succ_cons, List.take_zero, decide_eq_true_eq, Option.some.injEq, List.cons.injEq, true_and, and_true]
    split
    · simp_all
    · rename_i h1; simp [h1]; exact fun h2 => h.1 h2.symm

theorem pathText_noat {q : Path} (h : ∀ k ∈ q, '@' ∉ k) : '@' ∉ pathText q := by
  simp only [pathText, List.mem_flatMap, not_exists, not_and, List.mem_cons, not_or]
  exact fun k hk => ⟨by decide, h k hk⟩

theorem splitDot_noat {t : Text} (h : '@' ∉ t) : ∀ k ∈ splitDot t, '@' ∉ k := by
  intro k hk hc
  cases hs : splitDot t with
  | nil => exact absurd hs (splitDot_ne_nil t)
  | cons w ws =>
    have hj := splitDot_join t w ws hs
    apply h
    rw [← hj]
    rw [hs] at hk
    rcases List.mem_cons.mp hk with rfl | hk
    · simp [hc]
    · simp only [List.mem_append, List.mem_flatMap, List.mem_cons]
      exact .inr ⟨k, hk, .inr hc⟩

theorem splitDot_pathText {q : Path} (h : ∀ k ∈ q, '.' ∉ k) : splitDot (pathText q) = [] :: q := by
  have := splitDot_path (w := []) (p := q) (by simp) h
  simpa [pathText] using this

/-! ## Scopes -/

theorem isNamespaceAt_iff (root : Tree) (p : Path) : isNamespaceAt root p = true ↔ NamespaceAt root p := by
  unfold isNamespaceAt NamespaceAt
  cases root.descend p with
  | none => simp
  | some n => simp [Tree.isNamespace]

theorem prefix_take {p s : Path} (h : s <+: p) : s = p.take s.length := (List.prefix_iff_eq_take.mp h)

/-- The loop finds the innermost enclosing definition among those of length below `j`. -/
theorem resolveInParentScope_spec (root : Tree) (p : Path) (keys : List Text) (j : Nat) (hj : j ≤ p.length)
    (hns : ∀ i, j ≤ i → i < p.length → ¬ NamespaceAt root (p.take i)) :
    (∀ q, resolveInParentScope root p keys j = some q → ∃ s, q = s ++ keys ∧ EnclosingDefinition root p s ∧
      Contains root s keys ∧ s.length < j ∧
      ∀ s', EnclosingDefinition root p s' → Contains root s' keys → s'.length < j → s' <+: s) ∧
    (resolveInParentScope root p keys j = none → ∀ s, EnclosingDefinition root p s → s.length < j → ¬ Contains root s keys) := by
  induction j with
  | zero => simp [resolveInParentScope]
  | succ j ih =>
    simp only [resolveInParentScope]
    have hlen : (p.take j).length = j := by rw [List.length_take]; omega
    by_cases hn : isNamespaceAt root (p.take j) = true
    · rw [if_pos hn]
      refine ⟨by simp, ?_⟩
      intro _ s hs hsl hc
      apply hs.2.2 (p.take j)
      · rw [prefix_take hs.1]; exact List.take_prefix_take_left (by omega)
      · exact List.take_prefix _ _
      · intro he; have := congrArg List.length he; omega
      · exact (isNamespaceAt_iff _ _).mp hn
    · rw [if_neg hn]
      have hn' : ¬ NamespaceAt root (p.take j) := fun h => hn ((isNamespaceAt_iff _ _).mpr h)
      have hns' : ∀ i, j ≤ i → i < p.length → ¬ NamespaceAt root (p.take i) := by
        intro i h1 h2
        by_cases he : i = j
        · exact he ▸ hn'
        · exact hns i (by omega) h2
      have hdef : EnclosingDefinition root p (p.take j) := by
        refine ⟨List.take_prefix _ _, ?_, ?_⟩
        · intro he; have := congrArg List.length he; omega
        · intro r h1 h2 h3
          rw [prefix_take h2]
          apply hns'
          · have := h1.length_le; omega
          · have h4 := h2.length_le
            rcases Nat.lt_or_ge r.length p.length with h | h
            · exact h
            · exact absurd (List.IsPrefix.eq_of_length h2 (by omega)) h3
      by_cases hc : (root.descend (p.take j ++ keys)).isSome = true
      · rw [if_pos hc]
        refine ⟨?_, by simp⟩
        intro q hq
        simp only [Option.some.injEq] at hq
        subst hq
        refine ⟨p.take j, rfl, hdef, Option.isSome_iff_exists.mp hc, by omega, ?_⟩
        intro s' h1 _ h3
        rw [prefix_take h1.1]; exact List.take_prefix_take_left (by omega)
      · rw [if_neg hc]
        obtain ⟨i1, i2⟩ := ih (by omega) hns'
        refine ⟨?_, ?_⟩
        · intro q hq
          obtain ⟨s, h1, h2, h3, h4, h5⟩ := i1 q hq
          refine ⟨s, h1, h2, h3, by omega, ?_⟩
          intro s' g1 g2 g3
          by_cases he : s'.length = j
          · exfalso
            apply hc
            have : s' = p.take j := by rw [← he]; exact prefix_take g1.1
            rw [← this]; exact Option.isSome_iff_exists.mpr g2
          · exact h5 s' g1 g2 (by omega)
        · intro hq s h1 h2 h3
          by_cases he : s.length = j
          · apply hc
            have : s = p.take j := by rw [← he]; exact prefix_take h1.1
            rw [← this]; exact Option.isSome_iff_exists.mpr h3
          · exact i2 hq s h1 (by omega) h3

theorem enclosing_shorter {root : Tree} {p s : Path} (h : EnclosingDefinition root p s) : s.length < p.length := by
  have h4 := h.1.length_le
  rcases Nat.lt_or_ge s.length p.length with h' | h'
  · exact h'
  · exact absurd (List.IsPrefix.eq_of_length h.1 (by omega)) h.2.1

theorem firstNamespace_spec (root : Tree) (p : Path) (j : Nat) (hj : j ≤ p.length)
    (hns : ∀ i, j < i → i ≤ p.length → ¬ NamespaceAt root (p.take i)) :
    (∀ s, firstNamespace root p j = some s → EnclosingNamespace root p s) ∧
    (firstNamespace root p j = none → ∀ s, ¬ EnclosingNamespace root p s) := by
  have found : ∀ j, j ≤ p.length → (∀ i, j < i → i ≤ p.length → ¬ NamespaceAt root (p.take i)) →
      NamespaceAt root (p.take j) → EnclosingNamespace root p (p.take j) := by
    intro j hj hns h
    refine ⟨List.take_prefix _ _, h, ?_⟩
    intro r h1 h2 h3
    have h4 := h1.length_le
    rw [List.length_take] at h4
    by_cases he : r.length = j
    · rw [prefix_take h2, he]
    · exact absurd (prefix_take h2 ▸ h3) (hns r.length (by omega) h2.length_le)
  induction j with
  | zero =>
    simp only [firstNamespace]
    by_cases hn : isNamespaceAt root [] = true
    · rw [if_pos hn]
      refine ⟨?_, by simp⟩
      intro s hs
      simp only [Option.some.injEq] at hs
      subst hs
      simpa using found 0 hj hns (by simpa using (isNamespaceAt_iff _ _).mp hn)
    · rw [if_neg hn]
      refine ⟨by simp, ?_⟩
      intro _ s hs
      have h1 := prefix_take hs.1
      by_cases he : s.length = 0
      · rw [he, List.take_zero] at h1
        subst h1
        exact hn ((isNamespaceAt_iff _ _).mpr hs.2.1)
      · exact hns s.length (by omega) hs.1.length_le (h1 ▸ hs.2.1)
  | succ j ih =>
    simp only [firstNamespace]
    by_cases hn : isNamespaceAt root (p.take (j + 1)) = true
    · rw [if_pos hn]
      refine ⟨?_, by simp⟩
      intro s hs
      simp only [Option.some.injEq] at hs
      subst hs
      exact found (j + 1) hj hns ((isNamespaceAt_iff _ _).mp hn)
    · rw [if_neg hn]
      apply ih (by omega)
      intro i h1 h2
      by_cases he : i = j + 1
      · rw [he]; exact fun h => hn ((isNamespaceAt_iff _ _).mpr h)
      · exact hns i (by omega) h2

theorem enclosingNamespace_unique {root : Tree} {p s s' : Path} (h : EnclosingNamespace root p s)
    (h' : EnclosingNamespace root p s') : s = s' := by
  rcases List.prefix_or_prefix_of_prefix h.1 h'.1 with h1 | h1
  · exact (h.2.2 s' h1 h'.1 h'.2.1).symm
  · exact h'.2.2 s h1 h.1 h.2.1

theorem pathText_inj {q q' : Path} (h : ∀ k ∈ q, '.' ∉ k) (h' : ∀ k ∈ q', '.' ∉ k) (he : pathText q = pathText q') : q = q' := by
  have h1 := splitDot_pathText h
  rw [he, splitDot_pathText h'] at h1
  injection h1 with _ h1
  exact h1.symm

theorem pathText_head {q : Path} (h : q ≠ []) : (pathText q).head? = some '.' := by
  cases q with
  | nil => exact absurd rfl h
  | cons k q => simp [pathText]

theorem descend_nodot {t n : Tree} {q : Path} (h : Good t) (hd : t.descend q = some n) : ∀ k ∈ q, '.' ∉ k := by
  obtain ⟨pos, _, h2⟩ := descend_treeAt hd
  rw [← h2]; exact namesAt_nodot h pos

/-- A text means at most one node. -/
theorem means_unique {root : Tree} (hg : Good root) {p : Path} {t : Text} {q q' : Path} (h : Means root p t q)
    (h' : Means root p t q') : q = q' := by
  cases h with
  | absolute hd hq =>
    generalize ht : pathText q = t at h'
    cases h' with
    | absolute hd' hq' =>
      obtain ⟨n, hd⟩ := hd
      obtain ⟨n', hd'⟩ := hd'
      exact pathText_inj (descend_nodot hg hd) (descend_nodot hg hd') ht
    | inDefinition hrel => rw [← ht, pathText_head hq] at hrel; exact absurd rfl hrel
    | inNamespace hrel => rw [← ht, pathText_head hq] at hrel; exact absurd rfl hrel
  | inDefinition hrel hs hc hin =>
    rename_i s
    cases h' with
    | absolute hd' hq' => rw [pathText_head hq'] at hrel; exact absurd rfl hrel
    | inDefinition _ hs' hc' hin' =>
      have h1 := hin _ hs' hc'
      have h2 := hin' _ hs hc
      rw [List.IsPrefix.eq_of_length h1 (Nat.le_antisymm h1.length_le h2.length_le)]
    | inNamespace _ hno => exact absurd hc (hno _ hs)
  | inNamespace hrel hno hs hc =>
    cases h' with
    | absolute hd' hq' => rw [pathText_head hq'] at hrel; exact absurd rfl hrel
    | inDefinition _ hs' hc' hin' => exact absurd hc' (hno _ hs')
    | inNamespace _ _ hs' _ => rw [enclosingNamespace_unique hs hs']

theorem means_node {root : Tree} {p : Path} {t : Text} {q : Path} (h : Means root p t q) : ∃ n, root.descend q = some n := by
  cases h with
  | absolute hd => exact hd
  | inDefinition _ _ hc => exact hc
  | inNamespace _ _ _ hc => exact hc

theorem means_ne_nil {root : Tree} {p : Path} {t : Text} {q : Path} (h : Means root p t q) : q ≠ [] := by
  intro h0
  cases h with
  | absolute _ hq => exact hq h0
  | inDefinition => simp only [List.append_eq_nil_iff] at h0; exact splitDot_ne_nil _ h0.2
  | inNamespace => simp only [List.append_eq_nil_iff] at h0; exact splitDot_ne_nil _ h0.2

theorem means_noat {root : Tree} {p : Path} {t : Text} {q : Path} (h : Means root p t q) (ht : '@' ∉ t) (hp : ∀ k ∈ p, '@' ∉ k) :
    ∀ k ∈ q, '@' ∉ k := by
  have app : ∀ s : Path, s <+: p → ∀ k ∈ s ++ splitDot t, '@' ∉ k := by
    intro s hs k hk
    rcases List.mem_append.mp hk with hk | hk
    · exact hp k (hs.subset hk)
    · exact splitDot_noat ht k hk
  cases h with
  | absolute hd hq =>
    intro k hk h2
    apply ht
    simp only [pathText, List.mem_flatMap, List.mem_cons]
    exact ⟨k, hk, .inr h2⟩
  | inDefinition _ hs _ _ => exact app _ hs.1
  | inNamespace _ _ hs _ => exact app _ hs.1

/-! ## Resolving one name -/

/-- What resolving a name gives. -/
theorem resolveName_spec {root : Tree} (hg : Good root) (hn : root.name = []) (p : Path) {b : Text} (hb : '.' ∉ b) :
    (∃ q, Means root p (dereferencify ('@' :: b)) q ∧ resolveName root p ('@' :: b) = .ok (referencify (pathText q))) ∨
    (resolveName root p ('@' :: b) = .error (.missingSymbol (dereferencify ('@' :: b))) ∧
      ∀ q, ¬ Means root p (dereferencify ('@' :: b)) q) ∨
    (resolveName root p ('@' :: b) = .error .assertionError ∧ ∀ s, ¬ EnclosingNamespace root p s) := by
  generalize ht : dereferencify ('@' :: b) = target
  unfold resolveName
  rw [ht]
  simp only
  by_cases hq : isQualified ('@' :: b) = true
  · rw [if_pos hq]
    have hhead := (qualified_iff hb).mp hq
    rw [ht] at hhead
    have hsplit : ∃ k ks, splitDot target = [] :: k :: ks := by
      cases target with
      | nil => simp at hhead
      | cons c t =>
        simp only [List.head?_cons, Option.some.injEq] at hhead
        simp only [splitDot, hhead, if_true]
        cases hs : splitDot t with
        | nil => exact absurd hs (splitDot_ne_nil t)
        | cons k ks => exact ⟨k, ks, rfl⟩
    obtain ⟨k, ks, hs⟩ := hsplit
    have hpt : target = pathText (k :: ks) := by
      have := splitDot_join target _ _ hs
      simpa [pathText] using this.symm
    cases hf : root.find target with
    | ok n =>
      left
      have hd := ((find_eq hs).mp hf).2
      refine ⟨k :: ks, ?_, ?_⟩
      · have hm : Means root p (pathText (k :: ks)) (k :: ks) := .absolute ⟨n, hd⟩ (by simp)
        rw [hpt]; exact hm
      · rw [← hpt, ← ht, referencify_dereferencify hb]; rfl
    | error e =>
      right; left
      refine ⟨rfl, ?_⟩
      intro q hm
      generalize htt : target = tt at hm
      cases hm with
      | absolute hd hqn =>
        obtain ⟨n, hd⟩ := hd
        have hnd := descend_nodot hg hd
        have := splitDot_pathText hnd
        rw [← htt] at this
        have : root.find target = .ok n := (find_eq this).mpr ⟨hn, hd⟩
        rw [hf] at this; cases this
      | inDefinition hrel => exact hrel (htt ▸ hhead)
      | inNamespace hrel => exact hrel (htt ▸ hhead)
  · rw [if_neg hq]
    have hrel : target.head? ≠ some '.' := fun h => hq ((qualified_iff hb).mpr (ht ▸ h))
    obtain ⟨s1, s2⟩ := resolveInParentScope_spec root p (splitDot target) p.length (Nat.le_refl _) (fun i h1 h2 => by omega)
    cases hsc : resolveInParentScope root p (splitDot target) p.length with
    | some q =>
      left
      obtain ⟨s, h1, h2, h3, _, h5⟩ := s1 q hsc
      refine ⟨q, ?_, rfl⟩
      rw [h1]
      exact .inDefinition hrel h2 h3 (fun s' g1 g2 => h5 s' g1 g2 (enclosing_shorter g1))
    | none =>
      have hno : ∀ s, EnclosingDefinition root p s → ¬ Contains root s (splitDot target) :=
        fun s h => s2 hsc s h (enclosing_shorter h)
      obtain ⟨n1, n2⟩ := firstNamespace_spec root p p.length (Nat.le_refl _) (fun i h1 h2 => by omega)
      simp only [resolveInParentNamespace]
      cases hns : firstNamespace root p p.length with
      | none => right; right; exact ⟨rfl, n2 hns⟩
      | some s =>
        have hs := n1 s hns
        by_cases hc : (root.descend (s ++ splitDot target)).isSome = true
        · left
          refine ⟨s ++ splitDot target, .inNamespace hrel hno hs (Option.isSome_iff_exists.mp hc), ?_⟩
          simp [hc, pure, Except.pure, bind, Except.bind]
        · right; left
          refine ⟨?_, ?_⟩
          · simp [hc, pure, Except.pure, bind, Except.bind, throw, throwThe, MonadExceptOf.throw]
          · intro q hm
            generalize htt : target = tt at hm
            cases hm with
            | absolute hd hqn => rw [htt, pathText_head hqn] at hrel; exact hrel rfl
            | inDefinition _ h2 h3 => exact hno _ h2 (htt ▸ h3)
            | inNamespace _ _ h2 h3 =>
              rw [enclosingNamespace_unique hs h2] at hc
              exact hc (Option.isSome_iff_exists.mpr (htt ▸ h3))

/-- Resolving one reference: success, or exactly why not. -/
theorem resolveRef_spec {root : Tree} (hg : Good root) (hn : root.name = []) {p : Path} (hp : ∀ k ∈ p, '@' ∉ k)
    (rk : RefKind) {b : Text} (hb : '.' ∉ b) (sib : List Text) :
    (∃ q m, Means root p (dereferencify ('@' :: b)) q ∧ root.descend q = some m ∧ KindFits rk m.kind ∧
      (referencify (pathText q) = '@' :: b ∨ referencify (pathText q) ∉ sib) ∧
      resolveRef root p rk ('@' :: b) sib = .ok (referencify (pathText q))) ∨
    (resolveRef root p rk ('@' :: b) sib = .error (.missingSymbol (dereferencify ('@' :: b))) ∧
      ∀ q, ¬ Means root p (dereferencify ('@' :: b)) q) ∨
    (∃ q m, Means root p (dereferencify ('@' :: b)) q ∧ root.descend q = some m ∧ ¬ KindFits rk m.kind ∧
      resolveRef root p rk ('@' :: b) sib = .error (.incorrectReferenceType (referencify (pathText q)))) ∨
    (∃ q, Means root p (dereferencify ('@' :: b)) q ∧ referencify (pathText q) ≠ '@' :: b ∧ referencify (pathText q) ∈ sib ∧
      resolveRef root p rk ('@' :: b) sib = .error .runtimeError) ∨
    (resolveRef root p rk ('@' :: b) sib = .error .assertionError ∧ ∀ s, ¬ EnclosingNamespace root p s) := by
  rcases resolveName_spec hg hn p hb with ⟨q, hm, hr⟩ | ⟨hr, h2⟩ | ⟨hr, h2⟩
  · obtain ⟨m, hd⟩ := means_node hm
    have hnat := means_noat hm (dereferencify_noat _) hp
    by_cases hcol : referencify (pathText q) ≠ '@' :: b ∧ referencify (pathText q) ∈ sib
    · right; right; right; left
      refine ⟨q, hm, hcol.1, hcol.2, ?_⟩
      unfold resolveRef
      rw [hr]
      simp only [bind, Except.bind]
      rw [if_pos hcol]; rfl
    · have hfind : root.find (dereferencify (referencify (pathText q))) = .ok m := by
        rw [dereferencify_referencify (pathText_noat hnat)]
        exact (find_eq (splitDot_pathText (descend_nodot hg hd))).mpr ⟨hn, hd⟩
      by_cases hk : KindFits rk m.kind
      · left
        refine ⟨q, m, hm, hd, hk, ?_, ?_⟩
        · by_cases h : referencify (pathText q) = '@' :: b
          · exact .inl h
          · exact .inr fun h' => hcol ⟨h, h'⟩
        · unfold resolveRef
          rw [hr]
          simp only [bind, Except.bind]
          rw [if_neg hcol]
          simp [pure, Except.pure, hfind, (accepts_iff _ _).mpr hk]
      · right; right; left
        refine ⟨q, m, hm, hd, hk, ?_⟩
        have hk' : rk.accepts m.kind = false := by
          cases h : rk.accepts m.kind with
          | false => rfl
          | true => exact absurd ((accepts_iff _ _).mp h) hk
        unfold resolveRef
        rw [hr]
        simp only [bind, Except.bind]
        rw [if_neg hcol]
        simp [pure, Except.pure, hfind, hk', throw, throwThe, MonadExceptOf.throw]
  · right; left
    refine ⟨?_, h2⟩
    unfold resolveRef; rw [hr]; rfl
  · right; right; right; right
    refine ⟨?_, h2⟩
    unfold resolveRef; rw [hr]; rfl

/-! ## Resolving trees -/

/-- What happens to the name of a node. -/
def NewName (root : Tree) (p : Path) (sib : List Text) (k : Kind) (n n' : Text) : Prop :=
  match k with
  | .ref rk => resolveRef root p rk n sib = .ok n'
  | _ => n' = n

theorem resolveTree_ok {root : Tree} {p : Path} {sib : List Text} {n : Text} {k : Kind} {cs : List Tree} {t' : Tree}
    (h : resolveTree root p sib (.mk n k cs) = .ok t') :
    ∃ n' cs', t' = .mk n' k cs' ∧ resolveList root (p ++ [n]) [] cs = .ok cs' ∧ NewName root p sib k n n' := by
  cases k
  case ref rk =>
    simp only [resolveTree] at h
    obtain ⟨n', h1, h⟩ := bind_ok h
    obtain ⟨cs', h2, h⟩ := bind_ok h
    simp only [pure, Except.pure, Except.ok.injEq] at h
    exact ⟨n', cs', h.symm, h2, h1⟩
  all_goals
    simp only [resolveTree] at h
    obtain ⟨n', h1, h⟩ := bind_ok h
    obtain ⟨cs', h2, h⟩ := bind_ok h
    simp only [pure, Except.pure, Except.ok.injEq] at h h1
    exact ⟨n', cs', h.symm, h2, h1.symm⟩

theorem resolveTree_error {root : Tree} {p : Path} {sib : List Text} {n : Text} {k : Kind} {cs : List Tree} {e : Err}
    (h : resolveTree root p sib (.mk n k cs) = .error e) :
    (∃ rk, k = .ref rk ∧ resolveRef root p rk n sib = .error e) ∨ resolveList root (p ++ [n]) [] cs = .error e := by
  cases k
  case ref rk =>
    simp only [resolveTree] at h
    cases hr : resolveRef root p rk n sib with
    | error e' =>
      rw [hr] at h
      simp only [bind, Except.bind, Except.error.injEq] at h
      exact .inl ⟨rk, rfl, by rw [hr, h]⟩
    | ok n' =>
      rw [hr] at h
      right
      cases hl : resolveList root (p ++ [n]) [] cs with
      | error e' =>
        rw [hl] at h
        simpa only [bind, Except.bind, Except.error.injEq] using h
      | ok cs' => rw [hl] at h; simp [bind, Except.bind, pure, Except.pure] at h
  all_goals
    simp only [resolveTree] at h
    right
    cases hl : resolveList root (p ++ [n]) [] cs with
    | error e' =>
      rw [hl] at h
      simpa only [bind, Except.bind, pure, Except.pure, Except.error.injEq] using h
    | ok cs' => rw [hl] at h; simp [bind, Except.bind, pure, Except.pure] at h

/-- The list is resolved element by element; `Sib` says what the siblings of an element are at that time. -/
theorem resolveList_ok {root : Tree} {p : Path} {cs : List Tree} : ∀ {done out : List Tree},
    resolveList root p done cs = .ok out → ∃ cs', out = done ++ cs' ∧ cs.length = cs'.length ∧
      ∀ (i : Nat) c c', cs[i]? = some c → cs'[i]? = some c' →
        resolveTree root p ((done ++ cs'.take i ++ cs.drop (i + 1)).map Tree.name) c = .ok c' := by
  induction cs with
  | nil => intro done out h; simp only [resolveList, pure, Except.pure, Except.ok.injEq] at h
           exact ⟨[], by simp [h], rfl, by simp⟩
  | cons c cs ih =>
    intro done out h
    simp only [resolveList] at h
    obtain ⟨c', h1, h⟩ := bind_ok h
    obtain ⟨cs', h2, h3, h4⟩ := ih h
    refine ⟨c' :: cs', by simp [h2], by simp [h3], ?_⟩
    intro i d d' hd hd'
    cases i with
    | zero =>
      simp only [List.getElem?_cons_zero, Option.some.injEq] at hd hd'
      subst hd; subst hd'
      simpa using h1
    | succ i =>
      simp only [List.getElem?_cons_succ] at hd hd'
      have := h4 i d d' hd hd'
      simpa using this

theorem resolveList_error {root : Tree} {p : Path} {cs : List Tree} {e : Err} : ∀ {done : List Tree},
    resolveList root p done cs = .error e → ∃ l c r l', cs = l ++ c :: r ∧ l.length = l'.length ∧
      (∀ (i : Nat) d d', l[i]? = some d → l'[i]? = some d' → ∃ sib, resolveTree root p sib d = .ok d') ∧
      resolveTree root p ((done ++ l' ++ r).map Tree.name) c = .error e := by
  induction cs with
  | nil => intro done h; simp [resolveList, pure, Except.pure] at h
  | cons c cs ih =>
    intro done h
    simp only [resolveList] at h
    cases hc : resolveTree root p ((done ++ cs).map Tree.name) c with
    | error e' =>
      rw [hc] at h
      simp only [bind, Except.bind, Except.error.injEq] at h
      subst h
      exact ⟨[], c, cs, [], rfl, rfl, by simp, by simpa using hc⟩
    | ok c' =>
      rw [hc] at h
      obtain ⟨l, d, r, l', h1, h2, h3, h4⟩ := ih h
      refine ⟨c :: l, d, r, c' :: l', by simp [h1], by simp [h2], ?_, by simpa using h4⟩
      intro i x x' hx hx'
      cases i with
      | zero =>
        simp only [List.getElem?_cons_zero, Option.some.injEq] at hx hx'
        subst hx; subst hx'
        exact ⟨_, hc⟩
      | succ i =>
        simp only [List.getElem?_cons_succ] at hx hx'
        exact h3 i x x' hx hx'

end Gen

namespace Spec
open Gen

theorem WellNamed.children {n : Text} {k : Kind} {cs : List Tree} (h : WellNamed (.mk n k cs)) : ∀ c ∈ cs, WellNamed c := by
  cases h with
  | ref => simp
  | node _ _ h => exact h

theorem WellNamed.ref_name {t : Tree} (h : WellNamed t) {rk : RefKind} (hk : t.kind = .ref rk) :
    ∃ b, t.name = '@' :: b ∧ t.children = [] := by
  cases h with
  | ref => exact ⟨_, rfl, rfl⟩
  | node _ h => exact absurd hk (h rk)

theorem WellNamed.plain {t : Tree} (h : WellNamed t) (hc : t.children ≠ []) : '@' ∉ t.name ∧ ∀ r, t.kind ≠ .ref r := by
  cases h with
  | ref => exact absurd rfl hc
  | node h1 h2 => exact ⟨h1, h2⟩

theorem WellNamed.other {t : Tree} (h : WellNamed t) (hc : ∀ r, t.kind ≠ .ref r) : '@' ∉ t.name := by
  cases h with
  | ref => exact absurd rfl (hc _)
  | node h1 h2 => exact h1

end Spec

namespace Gen
open Spec

theorem treeAt_wellNamed {t : Tree} (h : WellNamed t) {pos : List Nat} {n : Tree} (hn : treeAt t pos = some n) : WellNamed n := by
  induction pos generalizing t with
  | nil => simp only [treeAt, Option.some.injEq] at hn; exact hn ▸ h
  | cons i is ih =>
    cases t with
    | mk m k cs =>
      simp only [treeAt, Tree.children] at hn
      cases hc : cs[i]? with
      | none => simp [hc] at hn
      | some c => rw [hc] at hn; exact ih (WellNamed.children h c (List.mem_of_getElem? hc)) hn

/-- Names on the way to a node that is no reference contain no `@`. -/
theorem namesAt_noat {t : Tree} (h : WellNamed t) {pos : List Nat} {n : Tree} (hn : treeAt t pos = some n)
    (hc : ∀ r, n.kind ≠ .ref r) : ∀ k ∈ namesAt t pos, '@' ∉ k := by
  induction pos generalizing t with
  | nil => simp [namesAt]
  | cons i is ih =>
    cases t with
    | mk m k cs =>
      simp only [treeAt, Tree.children] at hn
      cases hi : cs[i]? with
      | none => simp [hi] at hn
      | some c =>
        rw [hi] at hn
        have hw := WellNamed.children h c (List.mem_of_getElem? hi)
        simp only [namesAt, Tree.children, hi, List.forall_mem_cons]
        refine ⟨?_, ih hw hn⟩
        cases is with
        | nil => simp only [treeAt, Option.some.injEq] at hn; exact WellNamed.other hw (hn ▸ hc)
        | cons j js =>
          refine (WellNamed.plain hw ?_).1
          intro h0
          simp [treeAt, h0] at hn

/-- The result has the same shape, and good names. -/
theorem resolveTree_renamed {root : Tree} (hg : Good root) (hn : root.name = []) (t : Tree) :
    ∀ {p : Path} {sib : List Text} {t' : Tree}, Good t → WellNamed t → (∀ k ∈ p, '@' ∉ k) →
      resolveTree root p sib t = .ok t' → Renamed t t' ∧ Good t' ∧ WellNamed t' ∧ (t'.name = t.name ∨ t'.name ∉ sib) := by
  induction t using Tree.induct with
  | h n k cs ih =>
    intro p sib t' hgt hwt hp h
    obtain ⟨n', cs', rfl, hl, hname⟩ := resolveTree_ok h
    obtain ⟨cs'', he, hlen, hel⟩ := resolveList_ok hl
    simp only [List.nil_append] at he
    subst he
    have hnm : (∃ rk q, k = .ref rk ∧ cs = [] ∧ (∃ b, n = '@' :: b) ∧ n' = referencify (pathText q) ∧ (n' = n ∨ n' ∉ sib)) ∨
        (n' = n ∧ ∀ r, k ≠ .ref r) := by
      cases hk : k
      case ref rk =>
        left
        subst hk
        obtain ⟨b, hb, hc⟩ := hwt.ref_name rfl
        simp only [Tree.name] at hb
        simp only [Tree.children] at hc
        subst hb
        have hdot : '.' ∉ b := fun h => hgt.name (by simp [Tree.name, h])
        simp only [NewName] at hname
        rcases resolveRef_spec hg hn hp rk hdot sib with ⟨q, m, _, _, _, h5, h6⟩ | ⟨h1, _⟩ | ⟨q, m, _, _, _, h1⟩ | ⟨q, _, _, _, h1⟩ | ⟨h1, _⟩
        · rw [h6] at hname
          simp only [Except.ok.injEq] at hname
          refine ⟨rk, q, rfl, hc, ⟨b, rfl⟩, hname.symm, ?_⟩
          rw [← hname]; exact h5
        all_goals rw [h1] at hname; cases hname
      all_goals
        right
        subst hk
        exact ⟨hname, by simp⟩
    have hkids : ∀ i c c', cs[i]? = some c → cs'[i]? = some c' → Renamed c c' ∧ Good c' ∧ WellNamed c' ∧
        (c'.name = c.name ∨ c'.name ∉ (cs'.take i ++ cs.drop (i + 1)).map Tree.name) := by
      intro i c c' hc hc'
      have hm := List.mem_of_getElem? hc
      refine ih c hm (hgt.children c hm) (WellNamed.children hwt c hm) ?_ (by simpa using hel i c c' hc hc')
      have : '@' ∉ n := (hwt.plain (by simp only [Tree.children]; intro h0; simp [h0] at hc)).1
      intro x hx
      rcases List.mem_append.mp hx with hx | hx
      · exact hp x hx
      · simp only [List.mem_singleton] at hx; exact hx ▸ this
    have hnodup : ∀ i, i ≤ cs.length → ((cs'.take i ++ cs.drop i).map Tree.name).Nodup := by
      intro i
      induction i with
      | zero => intro _; simpa [Tree.children] using hgt.nodup
      | succ i ihi =>
        intro hi
        have h0 := ihi (by omega)
        have hc : cs[i]? = some cs[i] := List.getElem?_eq_getElem (by omega)
        have hc' : cs'[i]? = some (cs'[i]'(by omega)) := List.getElem?_eq_getElem (by omega)
        have hk := (hkids i _ _ hc hc').2.2.2
        rw [List.take_add_one, hc']
        rw [List.drop_eq_getElem_cons (by omega : i < cs.length)] at h0
        simp only [Option.toList_some, List.map_append, List.map_cons, List.map_nil, List.append_assoc, List.cons_append,
          List.nil_append] at h0 hk ⊢
        rw [List.nodup_middle] at h0 ⊢
        rw [List.nodup_cons] at h0 ⊢
        refine ⟨?_, h0.2⟩
        rcases hk with hk | hk
        · rw [hk]; exact h0.1
        · exact hk
    have hmem' : ∀ c' ∈ cs', ∃ (i : Nat) (c : Tree), cs[i]? = some c ∧ cs'[i]? = some c' := by
      intro c' hc'
      obtain ⟨i, hi⟩ := List.mem_iff_getElem?.mp hc'
      have hlt : i < cs'.length := by
        rcases Nat.lt_or_ge i cs'.length with h | h
        · exact h
        · rw [List.getElem?_eq_none h] at hi; cases hi
      exact ⟨i, cs[i]'(by omega), List.getElem?_eq_getElem (by omega), hi⟩
    refine ⟨?_, ?_, ?_, ?_⟩
    · refine .mk ?_ hlen (fun i c c' h1 h2 => (hkids i c c' h1 h2).1)
      rcases hnm with ⟨rk, q, h1, _, ⟨b, h2⟩, h3, _⟩ | ⟨h1, _⟩
      · exact .inr ⟨⟨rk, h1⟩, by simp [h2], by simp [h3, referencify]⟩
      · exact .inl h1
    · refine .mk ?_ ?_ ?_
      · rcases hnm with ⟨rk, q, _, _, _, h3, _⟩ | ⟨h1, _⟩
        · rw [h3]; exact referencify_nodot _
        · rw [h1]; exact hgt.name
      · have := hnodup cs.length (Nat.le_refl _)
        rw [hlen, List.take_length, ← hlen, List.drop_length, List.append_nil] at this
        exact this
      · intro c' hc'
        obtain ⟨i, c, h1, h2⟩ := hmem' c' hc'
        exact (hkids i c c' h1 h2).2.1
    · rcases hnm with ⟨rk, q, h1, h2, _, h3, _⟩ | ⟨h1, h2⟩
      · subst h1; subst h2
        have : cs' = [] := by simpa using hlen.symm
        subst this
        rw [h3]; exact .ref
      · rw [h1]
        refine .node (hwt.other h2) h2 ?_
        intro c' hc'
        obtain ⟨i, c, h3, h4⟩ := hmem' c' hc'
        exact (hkids i c c' h3 h4).2.2.1
    · rcases hnm with ⟨_, _, _, _, _, _, h⟩ | ⟨h, _⟩
      · exact h
      · exact .inl h

/-- Lookups of names without `@` do not notice renamed references. -/
theorem renamed_child {n n' : Text} {k : Kind} {cs cs' : List Tree} (h : Renamed (.mk n k cs) (.mk n' k cs')) {key : Text} (hk : '@' ∉ key) :
    (∀ c, (Tree.mk n k cs).child key = some c → ∃ c', (Tree.mk n' k cs').child key = some c' ∧ Renamed c c') ∧
    ((Tree.mk n k cs).child key = none → (Tree.mk n' k cs').child key = none) := by
  cases h with
  | mk _ hlen hel =>
    unfold Tree.child
    simp only [Tree.children]
    induction cs generalizing cs' with
    | nil =>
      have : cs' = [] := by simpa using hlen.symm
      subst this; simp
    | cons c cs ih =>
      cases cs' with
      | nil => simp at hlen
      | cons c' cs' =>
        have h0 := hel 0 c c' rfl rfl
        have hiff : c.name = key ↔ c'.name = key := by
          cases h0 with
          | mk hnm _ _ =>
            simp only [Tree.name]
            rcases hnm with rfl | ⟨_, h1, h2⟩
            · rfl
            · have hno : ∀ m : Text, m.head? = some '@' → m ≠ key := by
                intro m hm he
                cases m with
                | nil => simp at hm
                | cons x m => simp only [List.head?_cons, Option.some.injEq] at hm; exact hk (he ▸ by simp [hm])
              constructor
              · intro h; exact absurd h (hno _ h1)
              · intro h; exact absurd h (hno _ h2)
        have ih' := ih (cs' := cs') (by simpa using hlen) (fun i d d' h1 h2 => hel (i + 1) d d' (by simpa using h1) (by simpa using h2))
        simp only [List.find?_cons]
        by_cases hc : c.name = key
        · have hc' := hiff.mp hc
          simp only [hc, hc', decide_true, Option.some.injEq]
          exact ⟨fun d hd => ⟨c', rfl, hd ▸ h0⟩, by simp⟩
        · have hc' : c'.name ≠ key := fun h => hc (hiff.mpr h)
          simp only [hc, hc', decide_false]
          exact ih'

theorem renamed_descend {ks : List Text} (hks : ∀ k ∈ ks, '@' ∉ k) : ∀ {t t' : Tree}, Renamed t t' →
    (∀ m, t.descend ks = some m → ∃ m', t'.descend ks = some m' ∧ Renamed m m') ∧
    (t.descend ks = none → t'.descend ks = none) := by
  induction ks with
  | nil => intro t t' h; simp [Tree.descend, h]
  | cons k ks ih =>
    intro t t' h
    have hk := hks k (by simp)
    have hr : (∀ c, t.child k = some c → ∃ c', t'.child k = some c' ∧ Renamed c c') ∧ (t.child k = none → t'.child k = none) := by
      cases h with
      | mk a b c => exact renamed_child (.mk a b c) hk
    simp only [Tree.descend]
    cases hc : t.child k with
    | none => rw [hr.2 hc]; simp
    | some c =>
      obtain ⟨c', hc', hcc⟩ := hr.1 c hc
      rw [hc']
      exact ih (fun x hx => hks x (by simp [hx])) hcc

/-- Positions: a node and its renamed counterpart. -/
theorem renamed_treeAt {pos : List Nat} : ∀ {t t' : Tree}, Renamed t t' →
    (∀ m, treeAt t pos = some m → ∃ m', treeAt t' pos = some m' ∧ Renamed m m') ∧
    (treeAt t pos = none → treeAt t' pos = none) := by
  induction pos with
  | nil => intro t t' h; simp [treeAt, h]
  | cons i is ih =>
    intro t t' h
    cases h with
    | mk hnm hlen hel =>
      rename_i cs cs'
      simp only [treeAt, Tree.children]
      rcases Nat.lt_or_ge i cs.length with hi | hi
      · rw [List.getElem?_eq_getElem hi, List.getElem?_eq_getElem (by omega : i < cs'.length)]
        exact ih (hel i _ _ (List.getElem?_eq_getElem hi) (List.getElem?_eq_getElem (by omega)))
      · rw [List.getElem?_eq_none hi, List.getElem?_eq_none (by omega)]; simp

/-- Every node is resolved where it stands. -/
theorem resolveTree_at {root : Tree} {pos : List Nat} : ∀ {p : Path} {sib : List Text} {t t' m : Tree},
    resolveTree root p sib t = .ok t' → treeAt t pos = some m →
    ∃ m' sib', treeAt t' pos = some m' ∧ resolveTree root (p ++ t.name :: namesAt t pos).dropLast sib' m = .ok m' := by
  induction pos with
  | nil =>
    intro p sib t t' m h hm
    simp only [treeAt, Option.some.injEq] at hm
    subst hm
    exact ⟨t', sib, rfl, by simpa [namesAt] using h⟩
  | cons i is ih =>
    intro p sib t t' m h hm
    cases t with
    | mk n k cs =>
      obtain ⟨n', cs', rfl, hl, _⟩ := resolveTree_ok h
      obtain ⟨cs'', he, hlen, hel⟩ := resolveList_ok hl
      simp only [List.nil_append] at he
      subst he
      simp only [treeAt, Tree.children] at hm ⊢
      cases hi : cs[i]? with
      | none => simp [hi] at hm
      | some c =>
        rw [hi] at hm
        have hlt : i < cs.length := by
          rcases Nat.lt_or_ge i cs.length with h | h
          · exact h
          · rw [List.getElem?_eq_none h] at hi; cases hi
        have hi' : cs'[i]? = some (cs'[i]'(by omega)) := List.getElem?_eq_getElem (by omega)
        rw [hi']
        obtain ⟨m', sib', h1, h2⟩ := ih (hel i c _ hi hi') hm
        refine ⟨m', sib', h1, ?_⟩
        simpa [namesAt, Tree.children, hi, Tree.name] using h2

/-- An error comes from a reference, of which the siblings to the left are resolved. -/
theorem resolve_error_at {root : Tree} {e : Err} (t : Tree) : ∀ {p : Path}, resolveList root p [] t.children = .error e →
    ∃ pos node l c r l' rk, treeAt t pos = some node ∧ node.children = l ++ c :: r ∧ l.length = l'.length ∧
      (∀ (i : Nat) d d', l[i]? = some d → l'[i]? = some d' → ∃ sib, resolveTree root (p ++ namesAt t pos) sib d = .ok d') ∧
      c.kind = .ref rk ∧ resolveRef root (p ++ namesAt t pos) rk c.name ((l' ++ r).map Tree.name) = .error e := by
  induction t using Tree.induct with
  | h n k cs ih =>
    intro p h
    simp only [Tree.children] at h
    obtain ⟨l, c, r, l', h1, h2, h3, h4⟩ := resolveList_error h
    cases c with
    | mk m kd ds =>
      rcases resolveTree_error h4 with ⟨rk, hk, hr⟩ | hl
      · exact ⟨[], .mk n k cs, l, .mk m kd ds, r, l', rk, rfl, h1, h2, by simpa [namesAt] using h3, hk, by simpa [namesAt, Tree.name] using hr⟩
      · obtain ⟨pos, node, l0, c0, r0, l0', rk, g1, g2, g3, g4, g5, g6⟩ := ih (.mk m kd ds) (by simp [h1]) hl
        have hi : cs[l.length]? = some (.mk m kd ds) := by simp [h1]
        refine ⟨l.length :: pos, node, l0, c0, r0, l0', rk, ?_, g2, g3, ?_, g5, ?_⟩
        · simp only [treeAt, Tree.children, hi]; exact g1
        · simpa [namesAt, Tree.children, hi, Tree.name] using g4
        · simpa [namesAt, Tree.children, hi, Tree.name] using g6

end Gen
