import Verif.Lemmas.GenMerge

/-! # C47: merging namespaces keeps every definition -/

namespace Props
open Gen Spec

/-! ## Auxiliary facts -/

theorem created_definitionNodes {b : PBlock} {ds : List Tree} (h : Created (blockDefs b) ds) : ds = definitionNodes b := by
  unfold definitionNodes
  change ds = (blockDefs b).filterMap Except.toOption
  generalize blockDefs b = cs at h
  induction h with
  | nil => rfl
  | cons hc _ ih => subst hc; simp [Except.toOption, ih]

theorem created_valid {b : PBlock} {ds : List Tree} (h : Created (blockDefs b) ds) : Valid b := by
  have key : ∀ c ∈ blockDefs b, ∃ t, c = .ok t := by
    generalize blockDefs b = cs at h
    induction h with
    | nil => simp
    | cons hc _ ih => simp only [List.forall_mem_cons]; exact ⟨⟨_, hc⟩, ih⟩
  refine ⟨?_, ?_, ?_, ?_⟩ <;> intro x hx <;> apply key <;> simp only [blockDefs, List.mem_append, List.mem_map]
  · exact .inl (.inl (.inl ⟨x, hx, rfl⟩))
  · exact .inl (.inl (.inr ⟨x, hx, rfl⟩))
  · exact .inl (.inr ⟨x, hx, rfl⟩)
  · exact .inr ⟨x, hx, rfl⟩

theorem valid_created {b : PBlock} (h : Valid b) : Created (blockDefs b) (definitionNodes b) := by
  have key : ∀ c ∈ blockDefs b, ∃ t, c = .ok t := by
    intro c hc
    simp only [blockDefs, List.mem_append, List.mem_map] at hc
    rcases hc with ((⟨x, hx, rfl⟩ | ⟨x, hx, rfl⟩) | ⟨x, hx, rfl⟩) | ⟨x, hx, rfl⟩
    · exact h.1 x hx
    · exact h.2.1 x hx
    · exact h.2.2.1 x hx
    · exact h.2.2.2 x hx
  unfold definitionNodes
  change Created (blockDefs b) ((blockDefs b).filterMap Except.toOption)
  generalize blockDefs b = cs at key
  induction cs with
  | nil => exact .nil
  | cons c cs ih =>
    simp only [List.forall_mem_cons] at key
    obtain ⟨⟨t, rfl⟩, h2⟩ := key
    exact .cons rfl (ih h2)

theorem splitDot_inj {a b : Text} (h : splitDot a = splitDot b) : a = b := by
  cases hs : splitDot a with
  | nil => exact absurd hs (splitDot_ne_nil a)
  | cons w ws => rw [← splitDot_join a w ws hs, ← splitDot_join b w ws (h ▸ hs)]

/-- What is known about the tree after some blocks were merged. -/
structure Merged (root : Tree) (done : List PBlock) : Prop where
  good : Good root
  name : root.name = []
  kind : root.kind = .root
  there : ∀ b ∈ done, ∃ n, root.descend (splitDot b.name) = some n ∧ n.kind = .namespace
  defs : ∀ p n, root.descend p = some n → n.kind = .namespace →
    definitionsIn n.children = (done.filter fun b => splitDot b.name = p).flatMap definitionNodes
  from_block : ∀ p n, root.descend p = some n → n.kind = .namespace → ∃ b ∈ done, p <+: splitDot b.name

theorem merged_nil : Merged Tree.root [] where
  good := good_root
  name := rfl
  kind := rfl
  there := by simp
  defs := by
    intro p n hp hn
    cases p with
    | nil => simp only [Tree.descend, Option.some.injEq] at hp; subst hp; cases hn
    | cons k ks => simp [Tree.descend, Tree.child, Tree.root, Tree.children] at hp
  from_block := by
    intro p n hp hn
    cases p with
    | nil => simp only [Tree.descend, Option.some.injEq] at hp; subst hp; cases hn
    | cons k ks => simp [Tree.descend, Tree.child, Tree.root, Tree.children] at hp

theorem merged_step {root root' : Tree} {done : List PBlock} {b : PBlock} {r : List Text × Tree} (hm : Merged root done)
    (hb : createBlock b = .ok r) (h : root.ensureNamespace (fun n => n.insertAll r.2.children) r.1 = .ok root') :
    Merged root' (done ++ [b]) := by
  obtain ⟨hk, _, hc, hg, hns⟩ := createBlock_ok hb
  have hdn := created_definitionNodes hc
  have hf : Appends (fun n => n.insertAll r.2.children) r.2.children := fun n n' h => insertAll_ok h
  obtain ⟨e1, e2, _, e4, e5, e6⟩ := ensure_spec hf hns r.1 root root'
    (fun p n hp => (good_descend hm.good hp).nodup) h
  refine ⟨ensure_good (fun n n' hn h => insertAll_good hn hg.children h) _ _ _ hm.good h, e1.trans hm.name,
    e2.trans hm.kind, ?_, ?_, ?_⟩
  · intro b' hb'
    rcases List.mem_append.mp hb' with hb' | hb'
    · obtain ⟨n, h1, h2⟩ := hm.there b' hb'
      obtain ⟨n', h3, h4⟩ := e6 _ n h1
      exact ⟨n', h3, h4.trans h2⟩
    · simp only [List.mem_singleton] at hb'
      subst hb'
      rw [← hk]; exact e4
  · intro p n hp hn
    obtain ⟨a1, a2, _⟩ := e5 p n hp hn
    rw [a1, List.filter_append, List.flatMap_append]
    congr 1
    · unfold defsAt
      cases hd : root.descend p with
      | some n0 => exact hm.defs p n0 hd (a2 n0 hd)
      | none =>
        have : done.filter (fun b => splitDot b.name = p) = [] := by
          rw [List.filter_eq_nil_iff]
          intro b' hb' he
          simp only [decide_eq_true_eq] at he
          obtain ⟨n0, h1, _⟩ := hm.there b' hb'
          rw [he, hd] at h1; cases h1
        rw [this]; rfl
    · rw [hk]
      by_cases hp' : p = splitDot b.name
      · simp [hp', ← hdn]
      · have : ¬ splitDot b.name = p := fun h => hp' h.symm
        simp [hp', this]
  · intro p n hp hn
    obtain ⟨_, a2, a3⟩ := e5 p n hp hn
    cases hd : root.descend p with
    | some n0 =>
      obtain ⟨b', hb', h1⟩ := hm.from_block p n0 hd (a2 n0 hd)
      exact ⟨b', by simp [hb'], h1⟩
    | none => exact ⟨b, by simp, hk ▸ a3 hd⟩

theorem merged_all {rs : List (List Text × Tree)} {bs : List PBlock} {root root' : Tree} {done : List PBlock}
    (hm : Merged root done) (hb : List.Forall₂ (fun b r => createBlock b = .ok r) bs rs)
    (h : mergeRoots root rs = .ok root') : Merged root' (done ++ bs) := by
  induction hb generalizing root done with
  | nil => simp only [mergeRoots, pure, Except.pure, Except.ok.injEq] at h; subst h; simpa using hm
  | cons h1 _ ih =>
    simp only [mergeRoots] at h
    obtain ⟨root1, h2, h⟩ := bind_ok h
    have := ih (merged_step hm h1 h2) h
    simpa using this

theorem mapM_forall₂ {α β : Type} {f : α → M β} {l : List α} {r : List β} (h : l.mapM f = .ok r) :
    List.Forall₂ (fun a b => f a = .ok b) l r := by
  induction l generalizing r with
  | nil => simp only [List.mapM_nil, pure, Except.pure, Except.ok.injEq] at h; subst h; exact .nil
  | cons a l ih =>
    rw [List.mapM_cons] at h
    obtain ⟨d, hd, h⟩ := bind_ok h
    obtain ⟨ds1, h1, h⟩ := bind_ok h
    cases h
    exact .cons hd (ih h1)

theorem built_merged {blocks : List PBlock} {root : Tree} (h : buildNodeTree blocks = .ok root) :
    Merged root blocks ∧ ∀ b ∈ blocks, Valid b := by
  obtain ⟨rs, hrs, h'⟩ := bind_ok h
  have hf := mapM_forall₂ hrs
  refine ⟨by simpa using merged_all merged_nil hf h', ?_⟩
  intro b hb
  clear h h' hrs
  induction hf with
  | nil => simp at hb
  | cons h1 _ ih =>
    rcases List.mem_cons.mp hb with rfl | hb
    · exact created_valid (createBlock_ok h1).2.2.1
    · exact ih hb

theorem filter_block_name (blocks : List PBlock) (name : Text) :
    (blocks.filter fun b => splitDot b.name = splitDot name) = blocks.filter fun b => b.name = name := by
  apply List.filter_congr
  intro b _
  by_cases h : b.name = name
  · simp [h]
  · have : ¬ splitDot b.name = splitDot name := fun h' => h (splitDot_inj h')
    simp [h, this]

theorem find_root {root : Tree} (hn : root.name = []) (name : Text) (n : Tree) :
    root.find ('.' :: name) = .ok n ↔ root.descend (splitDot name) = some n := by
  have hs : splitDot ('.' :: name) = [] :: splitDot name := by simp [splitDot]
  rw [find_eq hs]; simp [hn]

/-! ## The property -/

/-- If the blocks of a schema file can be merged then the namespace of every block exists, and the definitions in it are
the definitions of all blocks of that name, in the order of the blocks and within a block group by group. -/
theorem C47_definitions_kept {blocks : List PBlock} {root : Tree} (h : buildNodeTree blocks = .ok root) (b : PBlock)
    (hb : b ∈ blocks) :
    ∃ n, root.find ('.' :: b.name) = .ok n ∧ n.kind = .namespace ∧ definitionsIn n.children = contributions blocks b.name := by
  obtain ⟨hm, _⟩ := built_merged h
  obtain ⟨n, h1, h2⟩ := hm.there b hb
  refine ⟨n, (find_root hm.name _ _).mpr h1, h2, ?_⟩
  rw [hm.defs _ n h1 h2, filter_block_name]; rfl

/-- No definition is lost: every constant, structure, enumeration and archive of a block has its node among the
contributions. -/
theorem C47_nothing_lost {blocks : List PBlock} {root : Tree} (h : buildNodeTree blocks = .ok root) (b : PBlock)
    (hb : b ∈ blocks) :
    (∀ c ∈ b.constants, ∃ t ∈ contributions blocks b.name, createConstant c = .ok t) ∧
    (∀ s ∈ b.structures, ∃ t ∈ contributions blocks b.name, createStruct s = .ok t) ∧
    (∀ e ∈ b.enumerations, ∃ t ∈ contributions blocks b.name, createEnum e = .ok t) ∧
    (∀ a ∈ b.archives, ∃ t ∈ contributions blocks b.name, createArchive a = .ok t) := by
  obtain ⟨_, hv⟩ := built_merged h
  obtain ⟨v1, v2, v3, v4⟩ := hv b hb
  have key : ∀ c t, c = .ok t → c ∈ blockDefs b → t ∈ contributions blocks b.name := by
    intro c t hc hm
    unfold contributions
    rw [List.mem_flatMap]
    refine ⟨b, by simp [hb], ?_⟩
    unfold definitionNodes
    rw [List.mem_filterMap]
    exact ⟨c, hm, by rw [hc]; rfl⟩
  refine ⟨?_, ?_, ?_, ?_⟩
  · intro x hx; obtain ⟨t, ht⟩ := v1 x hx
    exact ⟨t, key _ t ht (by simp only [blockDefs, List.mem_append, List.mem_map]; exact .inl (.inl (.inl ⟨x, hx, rfl⟩))), ht⟩
  · intro x hx; obtain ⟨t, ht⟩ := v2 x hx
    exact ⟨t, key _ t ht (by simp only [blockDefs, List.mem_append, List.mem_map]; exact .inl (.inl (.inr ⟨x, hx, rfl⟩))), ht⟩
  · intro x hx; obtain ⟨t, ht⟩ := v3 x hx
    exact ⟨t, key _ t ht (by simp only [blockDefs, List.mem_append, List.mem_map]; exact .inl (.inr ⟨x, hx, rfl⟩)), ht⟩
  · intro x hx; obtain ⟨t, ht⟩ := v4 x hx
    exact ⟨t, key _ t ht (by simp only [blockDefs, List.mem_append, List.mem_map]; exact .inr ⟨x, hx, rfl⟩), ht⟩

/-- Nothing is added: a namespace anywhere in the tree lies on the path of a block, and contains exactly the
contributions of the blocks of its path. -/
theorem C47_nothing_added {blocks : List PBlock} {root : Tree} (h : buildNodeTree blocks = .ok root) (name : Text)
    (n : Tree) (hn : root.find ('.' :: name) = .ok n) (hk : n.kind = .namespace) :
    (∃ b ∈ blocks, splitDot name <+: splitDot b.name) ∧ definitionsIn n.children = contributions blocks name := by
  obtain ⟨hm, _⟩ := built_merged h
  rw [find_root hm.name] at hn
  exact ⟨hm.from_block _ n hn hk, by rw [hm.defs _ n hn hk, filter_block_name]; rfl⟩

theorem definitionsIn_names (cs : List Tree) : List.Sublist ((definitionsIn cs).map Tree.name) (cs.map Tree.name) := by
  induction cs with
  | nil => simp [definitionsIn]
  | cons c cs ih =>
    simp only [definitionsIn]
    split
    · exact ih.cons _
    · have : (definitionOf c).name = c.name := by cases c; rfl
      simp only [List.map_cons, this]
      exact ih.cons_cons _

/-- Two definitions of the same name in the same namespace are rejected. -/
theorem C47_duplicates_rejected (blocks : List PBlock) (name : Text)
    (hdup : ¬ ((contributions blocks name).map Tree.name).Nodup) : ∃ e, buildNodeTree blocks = .error e := by
  cases h : buildNodeTree blocks with
  | error e => exact ⟨e, rfl⟩
  | ok root =>
    exfalso
    obtain ⟨hm, _⟩ := built_merged h
    by_cases hex : ∃ b ∈ blocks, b.name = name
    · obtain ⟨b, hb, rfl⟩ := hex
      obtain ⟨n, h1, h2, h3⟩ := C47_definitions_kept h b hb
      rw [find_root hm.name] at h1
      rw [← h3] at hdup
      exact hdup ((good_descend hm.good h1).nodup.sublist (definitionsIn_names _))
    · apply hdup
      have : blocks.filter (fun b => b.name = name) = [] := by
        rw [List.filter_eq_nil_iff]; intro b hb he; exact hex ⟨b, hb, by simpa using he⟩
      simp [contributions, this]

/-! ## Acceptance -/

/-- What is known about all nodes of the tree after some blocks were merged. -/
def Sources (root : Tree) (done : List PBlock) : Prop :=
  ∀ q n, root.descend q = some n → q = [] ∨ (n.kind = .namespace ∧ ∃ b ∈ done, q <+: splitDot b.name) ∨
    ∃ b ∈ done, ∃ d ∈ definitionNodes b, splitDot b.name ++ [d.name] <+: q

theorem sources_nil : Sources Tree.root [] := by
  intro q n hq
  cases q with
  | nil => exact .inl rfl
  | cons k ks => simp [Tree.descend, Tree.child, Tree.root, Tree.children] at hq

theorem prefix_singleton {α : Type} {a b : List α} {x : α} (h : a <+: b ++ [x]) : a <+: b ∨ a = b ++ [x] := by
  rcases List.prefix_concat_iff.mp h with h | h
  · exact .inr h
  · exact .inl h

/-- A schema file is accepted if every definition can be created, namespaces have proper names, no two definitions of a
namespace have the same name, and no namespace has the path of a definition. -/
theorem C47_accepted (blocks : List PBlock) (hv : ∀ b ∈ blocks, Valid b) (hn : ∀ b ∈ blocks, [] ∉ splitDot b.name)
    (hd : ∀ b ∈ blocks, ((contributions blocks b.name).map Tree.name).Nodup)
    (hp : ∀ b ∈ blocks, ∀ b' ∈ blocks, ∀ d ∈ definitionNodes b, ¬ splitDot b.name ++ [d.name] <+: splitDot b'.name) :
    ∃ root, buildNodeTree blocks = .ok root := by
  -- every block can be created
  have hcreate : ∀ b ∈ blocks, ∃ r, createBlock b = .ok r := by
    intro b hb
    have hnd : ((definitionNodes b).map Tree.name).Nodup := by
      refine (hd b hb).sublist (List.Sublist.map _ ?_)
      unfold contributions
      obtain ⟨x, y, hxy⟩ := List.append_of_mem (show b ∈ blocks.filter (fun b' => b'.name = b.name) by simp [hb])
      rw [hxy, List.flatMap_append, List.flatMap_cons]
      exact (List.sublist_append_left _ _).trans (List.sublist_append_right _ _)
    unfold createBlock
    have hks : ∀ k ∈ splitDot b.name, '.' ∉ k ∧ k ≠ [] :=
      fun k hk => ⟨splitDot_parts _ k hk, fun h => hn b hb (h ▸ hk)⟩
    dsimp only
    rw [mapM_create_ns_ok hks]
    have hne : (splitDot b.name).map (fun k => Tree.mk k .namespace []) ≠ [] := by
      simp [splitDot_ne_nil]
    simp only [bind, Except.bind]
    rw [List.getLast?_eq_some_getLast hne]
    obtain ⟨t', ht'⟩ := insertEach_succ (valid_created (hv b hb))
      (t := ((splitDot b.name).map (fun k => Tree.mk k .namespace [])).getLast hne) (by
        have hl := List.getLast_mem hne
        obtain ⟨k, _, hk⟩ := List.mem_map.mp hl
        rw [← hk]; simpa [Tree.children] using hnd)
    simp only [ht']
    exact ⟨_, rfl⟩
  have hrs : ∃ rs, blocks.mapM createBlock = .ok rs := mapM_succ hcreate
  obtain ⟨rs, hrs⟩ := hrs
  have hf := mapM_forall₂ hrs
  -- and merged
  have key : ∀ (bs : List PBlock) (rs : List (List Text × Tree)), List.Forall₂ (fun b r => createBlock b = .ok r) bs rs →
      ∀ (done : List PBlock) (root : Tree), done ++ bs = blocks → Merged root done → Sources root done →
      ∃ root', mergeRoots root rs = .ok root' := by
    intro bs rs hf
    induction hf with
    | nil => intro done root _ _ _; exact ⟨root, rfl⟩
    | @cons b r bs rs h1 _ ih =>
      intro done root hsplit hm hs
      have hb : b ∈ blocks := by rw [← hsplit]; simp
      have hdone : ∀ x ∈ done, x ∈ blocks := fun x hx => by rw [← hsplit]; simp [hx]
      obtain ⟨hk, hkn, hc, hg, hns⟩ := createBlock_ok h1
      have hdn := created_definitionNodes hc
      have hsucc : ∃ root', root.ensureNamespace (fun n => n.insertAll r.2.children) r.1 = .ok root' := by
        apply ensure_succ (fun n n' h => insertAll_ok h) hkn
        · intro n hn
          rw [hk] at hn
          rcases hs _ n hn with h | ⟨h, _⟩ | ⟨b0, hb0, d0, hd0, hpre⟩
          · exact absurd h (splitDot_ne_nil _)
          · refine ⟨h, insertAll_succ ?_⟩
            have hnd := (good_descend hm.good hn).nodup
            refine List.nodup_append.mpr ⟨hnd, hg.nodup, ?_⟩
            intro x hx y hy hxy
            subst hxy
            obtain ⟨c, hcm, rfl⟩ := List.mem_map.mp hx
            obtain ⟨d, hdm, hdname⟩ := List.mem_map.mp hy
            rw [hdn] at hdm
            have hcd : root.descend (splitDot b.name ++ [c.name]) = some c := by
              rw [descend_append, hn]
              simp only [Option.bind_some, Tree.descend, child_of_mem hnd hcm]
            rcases hs _ c hcd with h' | ⟨_, b1, hb1, hpre⟩ | ⟨b1, hb1, d1, hd1, hpre⟩
            · simp at h'
            · exact hp b hb b1 (hdone b1 hb1) d hdm (hdname ▸ hpre)
            · rcases prefix_singleton hpre with hpre | heq
              · exact hp b1 (hdone b1 hb1) b hb d1 hd1 hpre
              · obtain ⟨e1, e2⟩ := List.append_inj' heq rfl
                simp only [List.cons.injEq, and_true] at e2
                have hname : b1.name = b.name := splitDot_inj e1
                have hnd2 := hd b hb
                have hsplit2 : contributions blocks b.name =
                    contributions done b.name ++ (definitionNodes b ++ contributions bs b.name) := by
                  rw [← hsplit]; simp [contributions, List.filter_append]
                rw [hsplit2, List.map_append, List.map_append] at hnd2
                have := (List.nodup_append.mp hnd2).2.2 d1.name
                  (List.mem_map_of_mem (by
                    unfold contributions; rw [List.mem_flatMap]; exact ⟨b1, by simp [hb1, hname], hd1⟩))
                  d.name (List.mem_append_left _ (List.mem_map_of_mem hdm))
                exact this (e2.trans hdname.symm)
          · exact absurd hpre (hp b0 (hdone b0 hb0) b hb d0 hd0)
        · intro k
          exact insertAll_succ (by simpa [Tree.children] using hg.nodup)
      obtain ⟨root1, h2⟩ := hsucc
      have hf' : Appends (fun n => n.insertAll r.2.children) r.2.children := fun n n' h => insertAll_ok h
      have hs' : Sources root1 (done ++ [b]) := by
        intro q n hq
        rcases ensure_nodes hf' _ root root1 h2 q n hq with ⟨n0, hn0, hk0⟩ | ⟨hpre, hk0⟩ | ⟨d, hdm, hpre⟩
        · rcases hs q n0 hn0 with h | ⟨h, b0, hb0, hpre⟩ | ⟨b0, hb0, d0, hd0, hpre⟩
          · exact .inl h
          · exact .inr (.inl ⟨hk0.trans h, b0, by simp [hb0], hpre⟩)
          · exact .inr (.inr ⟨b0, by simp [hb0], d0, hd0, hpre⟩)
        · exact .inr (.inl ⟨hk0, b, by simp, hk ▸ hpre⟩)
        · exact .inr (.inr ⟨b, by simp, d, hdn ▸ hdm, hk ▸ hpre⟩)
      obtain ⟨root', h3⟩ := ih (done ++ [b]) root1 (by simpa using hsplit) (merged_step hm h1 h2) hs'
      refine ⟨root', ?_⟩
      obtain ⟨ks, tgt⟩ := r
      simp only [mergeRoots, bind, Except.bind] at h2 h3 ⊢
      rw [h2]; exact h3
  obtain ⟨root, hr⟩ := key blocks rs hf [] Tree.root rfl merged_nil sources_nil
  exact ⟨root, by simp only [buildNodeTree, bind, Except.bind, hrs]; exact hr⟩

/-- Three blocks, two of them for the namespace `n`, one nested. -/
def sampleBlocks : List PBlock :=
  [{ name := "n".toList, constants := [⟨"C".toList, .u8, 200⟩], enumerations := [], archives := []
     structures := [⟨"S".toList, [⟨"a".toList, [], "u8".toList, some 3⟩]⟩] },
   { name := "n.m".toList, constants := [⟨"C".toList, .i8, -1⟩], enumerations := [], archives := [], structures := [] },
   { name := "n".toList, constants := [], enumerations := []
     structures := [⟨"T".toList, [⟨"b".toList, [], "u16".toList, none⟩]⟩]
     archives := [⟨"A".toList, [], [⟨"r".toList, [.optional], .vector "S".toList⟩]⟩] }]

/-- The blocks are accepted and merged. -/
example : ∃ root, buildNodeTree sampleBlocks = .ok root ∧
    (contributions sampleBlocks "n".toList).map Tree.name = ["C".toList, "S".toList, "T".toList, "A".toList] :=
  ⟨_, by rfl, by decide +kernel⟩

/-- The hypothesis of `C47_duplicates_rejected` is met by a structure defined twice. -/
example : ¬ ((contributions (sampleBlocks ++ sampleBlocks) "n".toList).map Tree.name).Nodup := by decide +kernel

end Props
