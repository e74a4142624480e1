import Verif.Spec.Alike
import Verif.Lemmas.GenUsage

/-! # Classes of archives with the same meaning -/

namespace Gen
open Spec Props Model

/-- What is reachable from `q` in `t` means the same in `t'`. -/
def Agree (t t' : Tree) (q : Path) : Prop :=
  ∀ p m, Reachable (depChildren t) q p → t.descend p = some m → Spec.Kind.isDefinition m.kind = true → ¬ InBuiltin p →
    ∃ m', t'.descend p = some m' ∧ meaning m' = meaning m

theorem reachable_trans {children : Path → List Path} {a b c : Path} (h1 : Reachable children a b) (h2 : Reachable children b c) : Reachable children a c := by
  obtain ⟨n, h1⟩ := h1
  obtain ⟨m, h2⟩ := h2
  induction m generalizing c with
  | zero => cases h2; exact ⟨n, h1⟩
  | succ m ih =>
    cases h2 with
    | step hw hc =>
      obtain ⟨k, hk⟩ := ih hw
      exact ⟨k + 1, .step hk hc⟩

theorem reachable_step {children : Path → List Path} {a b c : Path} (h1 : Reachable children a b) (h2 : c ∈ children b) : Reachable children a c := by
  obtain ⟨n, h1⟩ := h1
  exact ⟨n + 1, .step h1 h2⟩

theorem Agree.mono {t t' : Tree} {q p : Path} (h : Agree t t' q) (hr : Reachable (depChildren t) q p) : Agree t t' p :=
  fun x m hx => h x m (reachable_trans hr hx)

theorem declared_of_layout (f : Tree) : declaredField f = (fieldLayout f).map fun l => ⟨String.ofList l.name, l.width, l.signed⟩ := by
  unfold declaredField fieldLayout
  split <;> simp_all

theorem structure_meaning {t t' : Tree} {p : Path} {m m' : Tree} {s s' : StructType} (hm : t.descend p = some m) (hm' : t'.descend p = some m')
    (hmean : meaning m' = meaning m) (h : StructureAt t p s) (h' : StructureAt t' p s') : s = s' := by
  obtain ⟨n, sz, e1, e2, rfl⟩ := h
  obtain ⟨n', sz', f1, f2, rfl⟩ := h'
  rw [hm] at e1; cases e1
  rw [hm'] at f1; cases f1
  unfold meaning at hmean
  rw [e2, f2] at hmean
  simp only [Option.some.injEq, Meaning.structure.injEq] at hmean
  have key : ∀ l : List Tree, l.filterMap declaredField = (l.filterMap fieldLayout).map fun l => ⟨String.ofList l.name, l.width, l.signed⟩ := by
    intro l
    induction l with
    | nil => rfl
    | cons a l ih =>
      cases hf : fieldLayout a with
      | none => rw [List.filterMap_cons_none hf, List.filterMap_cons_none (by rw [declared_of_layout, hf]; rfl), ih]
      | some x => rw [List.filterMap_cons_some hf, List.filterMap_cons_some (by rw [declared_of_layout, hf]; rfl), ih]; rfl
  unfold structureClass
  rw [key, key, hmean.2.2]

/-- A type referred to by the resource at `q` means the same on both sides. -/
theorem ref_structure {t t' : Tree} (hc : Compiled t) (hb : NoBuiltin t) {q : Path} {r ref : Tree} (hr : t.descend q = some r) (ha : Agree t t' q)
    (href : ref ∈ childrenOf r (.ref .structure)) {s s' : StructType} (h : StructureAt t ref.targetPath s) (h' : StructureAt t' ref.targetPath s') :
    s = s' := by
  obtain ⟨hm, hk⟩ := List.mem_filter.mp href
  have hk : ref.kind = .ref .structure := by simpa using hk
  have hd := hc.child hr hm
  have hnb := hb _ _ _ hd hk (by simp)
  obtain ⟨m, sz, e1, e2, _⟩ := id h
  have hreach : Reachable (depChildren t) q ref.targetPath := by
    refine ⟨1, .step (.refl _) ?_⟩
    unfold depChildren
    rw [hr]
    exact List.mem_append_right _ (List.mem_map_of_mem (List.mem_filter.mpr ⟨hm, by rw [hk]; rfl⟩))
  obtain ⟨m', f1, f2⟩ := ha _ m hreach e1 (by rw [e2]; rfl) (fun hi => hnb (List.dropLast_subset _ hi))
  exact structure_meaning e1 f1 f2 h h'

theorem structures_eq {t t' : Tree} (hc : Compiled t) (hb : NoBuiltin t) {q : Path} {r : Tree} (hr : t.descend q = some r) (ha : Agree t t' q)
    {refs refs' : List Tree} (hsub : ∀ x ∈ refs, x ∈ childrenOf r (.ref .structure)) (ht : refs.map Tree.targetPath = refs'.map Tree.targetPath)
    {ss ss' : List StructType} (h : StructuresAt t refs ss) (h' : StructuresAt t' refs' ss') : ss = ss' := by
  induction h generalizing refs' ss' with
  | nil =>
    cases refs' with
    | nil => cases h'; rfl
    | cons => cases ht
  | cons h1 _ ih =>
    cases h' with
    | nil => cases ht
    | cons g1 g2 =>
      simp only [List.map_cons, List.cons.injEq] at ht
      rw [← ht.1] at g1
      rw [ref_structure hc hb hr ha (hsub _ (by simp)) h1 g1, ih (fun x hx => hsub x (by simp [hx])) ht.2 g2]

/-- What is needed of both sides. -/
structure Side (source : Text) (blocks : List PBlock) (t : Tree) : Prop where
  parsed : parseSource source = .ok blocks
  compiled : Compile source (.ok t)
  nobuiltin : NoBuiltin t
  undeclared : ∀ b ∈ blocks, "_builtin".toList ∉ splitDot b.name

theorem targetPaths_eq {l l' : List Tree} (h : l.map Tree.target = l'.map Tree.target) : l.map Tree.targetPath = l'.map Tree.targetPath := by
  have := congrArg (List.map fun x => (splitDot x).tail) h
  rw [List.map_map, List.map_map] at this
  exact this

section
variable {source source' : Text} {blocks blocks' : List PBlock} {t t' : Tree}

theorem isResource_of_layout {r : Tree} (h : (resourceLayout r).isSome) : r.kind.isReference = false := by
  unfold resourceLayout at h
  cases hk : r.kind <;> rw [hk] at h <;> first | rfl | cases h

mutual
theorem resource_alike (hs : Side source blocks t) (hs' : Side source' blocks' t') : ∀ {q : Path} {r : Tree} {s : Sig}, ResourceAt t q r s → t.descend q = some r →
    Agree t t' q → ∀ {r' : Tree} {s' : Sig}, t'.descend q = some r' → ResourceAt t' q r' s' → resourceLayout r = resourceLayout r' → Alike s s'
  | q, r, _, .instance (ref := ref) hk hch hst hx, hr, ha, r', s', hr', h', hl => by
    unfold resourceLayout at hl
    rw [hk] at hl
    cases h' with
    | «instance» hk' hch' hst' hx' =>
      rw [hk'] at hl
      simp only [Option.some.injEq, ResourceLayout.mk.injEq] at hl
      have := targetPaths_eq hl.2.2.2.1
      rw [hch, hch'] at this
      simp only [List.map_cons, List.map_nil, List.cons.injEq, and_true] at this
      rw [← this] at hst'
      rw [ref_structure (compile_compiled hs.compiled) hs.nobuiltin hr ha (by rw [hch]; simp) hst hst', hl.2.2.1]
      exact .instance
    | vector hk' | multivector hk' | rawData hk' | archive hk' => rw [hk'] at hl; simp at hl
  | q, r, _, .vector (ref := ref) hk hch hst hx, hr, ha, r', s', hr', h', hl => by
    unfold resourceLayout at hl
    rw [hk] at hl
    cases h' with
    | vector hk' hch' hst' hx' =>
      rw [hk'] at hl
      simp only [Option.some.injEq, ResourceLayout.mk.injEq] at hl
      have := targetPaths_eq hl.2.2.2.1
      rw [hch, hch'] at this
      simp only [List.map_cons, List.map_nil, List.cons.injEq, and_true] at this
      rw [← this] at hst'
      rw [ref_structure (compile_compiled hs.compiled) hs.nobuiltin hr ha (by rw [hch]; simp) hst hst', hl.2.2.1]
      exact .vector
    | «instance» hk' | multivector hk' | rawData hk' | archive hk' => rw [hk'] at hl; simp at hl
  | q, r, _, .multivector (index := index) hk hch hst hss hx, hr, ha, r', s', hr', h', hl => by
    unfold resourceLayout at hl
    rw [hk] at hl
    cases h' with
    | multivector hk' hch' hst' hss' hx' =>
      rw [hk'] at hl
      simp only [Option.some.injEq, ResourceLayout.mk.injEq, ResKind.multivector.injEq] at hl
      have i1 := (index_class_any hs.parsed hs.compiled hs.undeclared hr hk (by rw [hch]; simp) hst).2
      have i2 := (index_class_any hs'.parsed hs'.compiled hs'.undeclared hr' hk' (by rw [hch']; simp) hst').2
      rw [← hl.2.1] at i2
      rw [structures_eq (compile_compiled hs.compiled) hs.nobuiltin hr ha (fun x hx => hx) (targetPaths_eq hl.2.2.2.1) hss hss', hl.2.2.1, i1, i2]
      exact .multivector
    | «instance» hk' | vector hk' | rawData hk' | archive hk' => rw [hk'] at hl; simp at hl
  | q, r, _, .rawData hk hx, hr, ha, r', s', hr', h', hl => by
    unfold resourceLayout at hl
    rw [hk] at hl
    cases h' with
    | rawData hk' hx' =>
      rw [hk'] at hl
      simp only [Option.some.injEq, ResourceLayout.mk.injEq] at hl
      rw [hl.2.2.1]
      exact .rawData
    | «instance» hk' | vector hk' | multivector hk' | archive hk' => rw [hk'] at hl; simp at hl
  | q, r, _, .archive (ref := ref) hk hch hA hx, hr, ha, r', s', hr', h', hl => by
    unfold resourceLayout at hl
    rw [hk] at hl
    cases h' with
    | archive hk' hch' hA' hx' =>
      rw [hk'] at hl
      simp only [Option.some.injEq, ResourceLayout.mk.injEq] at hl
      have := targetPaths_eq hl.2.2.2.2
      rw [hch, hch'] at this
      simp only [List.map_cons, List.map_nil, List.cons.injEq, and_true] at this
      rw [← this] at hA'
      have hm : ref ∈ childrenOf r (.ref .archive) := by rw [hch]; simp
      obtain ⟨hm, hrk⟩ := List.mem_filter.mp hm
      have hrk : ref.kind = .ref .archive := by simpa using hrk
      have hd := (compile_compiled hs.compiled).child hr hm
      have hnb := hs.nobuiltin _ _ _ hd hrk (by simp)
      have hreach : Reachable (depChildren t) q ref.targetPath := by
        refine ⟨1, .step (.refl _) ?_⟩
        unfold depChildren
        rw [hr]
        exact List.mem_append_right _ (List.mem_map_of_mem (List.mem_filter.mpr ⟨hm, by rw [hrk]; rfl⟩))
      obtain ⟨e1, e2⟩ := archive_alike hs hs' hA (ha.mono hreach) (fun hi => hnb (List.dropLast_subset _ hi)) hA'
      rw [hl.2.2.1, e1]
      exact .sub e2
    | «instance» hk' | vector hk' | multivector hk' | rawData hk' => rw [hk'] at hl; simp at hl
theorem resources_alike (hs : Side source blocks t) (hs' : Side source' blocks' t') : ∀ {p : Path} {rs : List Tree} {ss : List (String × Sig)}, ResourcesAt t p rs ss →
    (∀ r ∈ rs, t.descend (p ++ [r.name]) = some r ∧ Agree t t' (p ++ [r.name])) → ∀ {rs' : List Tree} {ss' : List (String × Sig)},
    (∀ r ∈ rs', t'.descend (p ++ [r.name]) = some r) → ResourcesAt t' p rs' ss' →
    rs.map (fun r => (r.name, resourceLayout r)) = rs'.map (fun r => (r.name, resourceLayout r)) → AlikeAll ss ss'
  | p, _, _, .nil, _, rs', ss', _, h', hl => by
    cases rs' with
    | nil => cases h'; exact .nil
    | cons => cases hl
  | p, _, _, .cons h1 h2, hr, rs', ss', hr', h', hl => by
    cases h' with
    | nil => cases hl
    | cons g1 g2 =>
      simp only [List.map_cons, List.cons.injEq, Prod.mk.injEq] at hl
      have a1 := hr _ (List.mem_cons_self ..)
      have a2 := hr' _ (List.mem_cons_self ..)
      rw [← hl.1.1] at g1 a2 ⊢
      exact .cons (resource_alike hs hs' h1 a1.1 a1.2 a2 g1 hl.1.2)
        (resources_alike hs hs' h2 (fun r hx => hr r (List.mem_cons_of_mem _ hx)) (fun r hx => hr' r (List.mem_cons_of_mem _ hx)) g2 hl.2)
theorem archive_alike (hs : Side source blocks t) (hs' : Side source' blocks' t') : ∀ {p : Path} {A : ArchiveType}, ArchiveAt t p A → Agree t t' p → ¬ InBuiltin p →
    ∀ {A' : ArchiveType}, ArchiveAt t' p A' → A.name = A'.name ∧ AlikeAll A.resources A'.resources
  | p, _, .mk (n := n) hn hk hx hres, ha, hnb, A', h' => by
    cases h' with
    | @mk _ n' x' rs' hn' hk' hx' hres' =>
      obtain ⟨m', e1, e2⟩ := ha p n ⟨0, .refl _⟩ hn (by rw [hk]; rfl) hnb
      rw [hn'] at e1; cases e1
      unfold meaning at e2
      rw [hk, hk'] at e2
      simp only [Option.some.injEq, Meaning.archive.injEq] at e2
      obtain ⟨e3, e4, _⟩ := e2
      have hc := compile_compiled hs.compiled
      have hc' := compile_compiled hs'.compiled
      refine ⟨by simp [mkArchive, e3], ?_⟩
      simp only [mkArchive]
      rw [e3]
      refine .cons .rawData (resources_alike hs hs' hres ?_ ?_ hres' ?_)
      · intro r hr
        obtain ⟨hr1, hr2⟩ := List.mem_filter.mp hr
        refine ⟨hc.child hn hr1, ha.mono ⟨1, .step (.refl _) ?_⟩⟩
        unfold depChildren
        rw [hn]
        exact List.mem_append_left _ (List.mem_map.mpr ⟨r, List.mem_filter.mpr ⟨hr1, by show (!r.kind.isReference) = true; rw [isResource_of_layout hr2]; rfl⟩, rfl⟩)
      · intro r hr
        exact hc'.child hn' (List.mem_filter.mp hr).1
      · have key : ∀ l : List Tree, (l.filter fun r => (resourceLayout r).isSome).map (fun r => (r.name, resourceLayout r)) =
            (l.filterMap resourceLayout).map fun x => (x.name, some x) := by
          intro l
          induction l with
          | nil => rfl
          | cons a l ih =>
            cases hf : resourceLayout a with
            | none => rw [List.filterMap_cons_none hf, List.filter_cons_of_neg (by simp [hf]), ih]
            | some x =>
              have : x.name = a.name := by
                unfold resourceLayout at hf
                split at hf <;> cases hf; rfl
              rw [List.filterMap_cons_some hf, List.filter_cons_of_pos (by simp [hf]), List.map_cons, List.map_cons, ih, hf, this]
        rw [key, key, e4]
end

end

end Gen
