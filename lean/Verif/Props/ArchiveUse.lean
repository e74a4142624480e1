import Verif.Props.Archive

/-!
# C25–C27: using an open archive
-/

namespace Props
open Py Model Spec

/-! ## C25 -/

/-- A history of attribute accesses. Each access sees the storage in some state. -/
def accessAll : ArchiveObj → List (StorageKind × Node × String) → List (M Loaded) × ArchiveObj
  | o, [] => ([], o)
  | o, (k, node, name) :: rest =>
    let (r, o') := o.getAttr k node name
    let (rs, o'') := accessAll o' rest
    (r :: rs, o'')

theorem dictSet_fresh {α} (d : List (String × α)) (k : String) (v : α) (h : d.lookup k = none) :
    dictSet d k v = d ++ [(k, v)] := by
  induction d with
  | nil => rfl
  | cons p d ih =>
    obtain ⟨k', v'⟩ := p
    rw [List.lookup_cons] at h
    by_cases hk : k = k'
    · subst hk; simp at h
    · have hb : (k == k') = false := by simp [hk]
      rw [hb] at h
      simp only [dictSet, if_neg (fun e : k' = k => hk e.symm), ih h, List.cons_append]

theorem initLoop_eq {k : StorageKind} {node : Node} {resources : List (String × Sig)}
    (hnd : (resources.map (·.1)).Nodup) (l : List (String × Sig)) (loaded : List (String × Loaded))
    (hsub : ∀ p ∈ l, p ∈ resources) (hl : (l.map (·.1)).Nodup) (hfresh : ∀ p ∈ l, loaded.lookup p.1 = none) :
    initLoop k node (l.map (·.1)) { resources := resources, loaded := loaded } =
      (loadAll (l.map fun p => (p.1, openResource k node p.1 p.2))).map
        (fun r => { resources := resources, loaded := loaded ++ r }) := by
  induction l generalizing loaded with
  | nil => simp [initLoop, loadAll, pure, Except.pure, Except.map]
  | cons p l ih =>
    obtain ⟨n, sig⟩ := p
    have h1 := lookup_of_mem hnd (hsub (n, sig) (by simp))
    have h2 := hfresh (n, sig) (by simp)
    simp only [List.map_cons, List.nodup_cons] at hl
    simp only [List.map_cons, initLoop, ArchiveObj.getAttr, h1, h2]
    cases ho : openResource k node n sig with
    | error e => simp only [loadAll, bind, Except.bind, Except.map]; rfl
    | ok x =>
      show initLoop k node (l.map (·.1)) { resources := resources, loaded := dictSet loaded n x } = _
      rw [dictSet_fresh _ _ _ h2, ih _ (fun q hq => hsub q (by simp [hq])) hl.2]
      · simp only [loadAll, bind, Except.bind]
        cases loadAll (l.map fun p => (p.1, openResource k node p.1 p.2)) with
        | error e => simp [Except.map]
        | ok r => simp [Except.map, pure, Except.pure]
      · intro q hq
        have hne : q.1 ≠ n := by rintro rfl; exact hl.1 (List.mem_map.mpr ⟨q, hq, rfl⟩)
        have hb : (q.1 == n) = false := by simp [hne]
        rw [List.lookup_append, hfresh q (by simp [hq])]
        simp [List.lookup_cons, hb]

/-- The constructor, as the loop of attribute accesses it is in the code, loads what `openArchive` gives. -/
theorem create_eq {A : ArchiveType} (hnd : (A.resources.map (·.1)).Nodup) (k : StorageKind) (node : Node) :
    ArchiveObj.create A k node =
      (openArchive A k node).map (fun l => { resources := A.resources, loaded := l }) := by
  unfold ArchiveObj.create openArchive
  have hp := sort_perm A.resources
  rw [initLoop_eq hnd _ _ (fun p h => hp.subset h) ((hp.map _).nodup_iff.mpr hnd) (by simp),
    openResources_eq, sort_map (fun p => openResource k node p.1 p.2)]
  simp

/-- **C25.** After opening, every access to a resource attribute returns the value loaded at opening time, in
any history of accesses, whatever happened to the storage; other names raise `AttributeError`. Accesses
never change the archive object. -/
theorem C25_attributes_stable (A : ArchiveType) (hnd : (A.resources.map (·.1)).Nodup) (k : StorageKind)
    (node : Node) (o : ArchiveObj) (h : ArchiveObj.create A k node = .ok o) :
    ∃ value : String → Loaded,
      (∀ p ∈ A.resources, openResource k node p.1 p.2 = .ok (value p.1)) ∧
      ∀ accesses : List (StorageKind × Node × String),
        accessAll o accesses = (accesses.map fun a =>
          if a.2.2 ∈ A.resources.map (·.1) then .ok (value a.2.2) else .error (.attributeError a.2.2), o) := by
  rw [create_eq hnd] at h
  cases hl : openArchive A k node with
  | error e => rw [hl] at h; simp [Except.map] at h
  | ok l =>
    rw [hl] at h
    simp only [Except.map, Except.ok.injEq] at h
    subst h
    have hv : ∀ p ∈ A.resources, ∃ x, openResource k node p.1 p.2 = .ok x ∧ l.lookup p.1 = some x :=
      fun p hp => loadAll_sorted_lookup hl hnd hp
    refine ⟨fun n => (l.lookup n).getD .absent, ?_, ?_⟩
    · intro p hp
      obtain ⟨x, h1, h2⟩ := hv p hp
      rw [h1]; simp [h2]
    · intro accesses
      induction accesses with
      | nil => rfl
      | cons a rest ih =>
        obtain ⟨k', node', name⟩ := a
        have hget : ({ resources := A.resources, loaded := l } : ArchiveObj).getAttr k' node' name =
            (if name ∈ A.resources.map (·.1) then .ok ((l.lookup name).getD .absent)
              else .error (.attributeError name), { resources := A.resources, loaded := l }) := by
          unfold ArchiveObj.getAttr
          cases hlk : A.resources.lookup name with
          | none =>
            have : name ∉ A.resources.map (·.1) := by
              intro hm
              obtain ⟨p, hp, rfl⟩ := List.mem_map.mp hm
              rw [lookup_of_mem hnd (v := p.2) hp] at hlk; simp at hlk
            rw [if_neg this]
          | some sig =>
            have hm : (name, sig) ∈ A.resources := mem_of_lookup hlk
            obtain ⟨x, -, h2⟩ := hv _ hm
            simp only [h2, Option.getD_some]
            rw [if_pos (List.mem_map.mpr ⟨_, hm, rfl⟩)]
        simp only [accessAll, hget, ih, List.map_cons]

/-! ## C26 -/

theorem count_lt_one {n s : Nat} (hs : 0 < s) : n / s = 0 ↔ n < s := by
  rw [Nat.div_eq_zero_iff]; omega

theorem hasFile_unique {k : StorageKind} {node : Node} {name : String} {b c : Bytes} (hb : HasFile k node name b)
    (hc : HasFile k node name c) : b = c := by
  have := hb.1; rw [hc.1] at this; simpa using this.symm

theorem openContainer_absent_iff {k : StorageKind} {node : Node} {name : String} {sig : Sig} (hl : Leaf sig)
    {x : Loaded} (h : openContainer k node name sig = .ok x) :
    x = .absent ↔ match sig with
      | .instance .. => False
      | .vector t _ _ => ClaimsFewer k node name t.sizeInBytes
      | .multivector it _ _ _ => ClaimsFewer k node (name ++ "_index") (2 * it.sizeInBytes)
      | .rawData _ _ => ClaimsFewer k node name 1
      | .sub .. => True := by
  cases sig with
  | «instance» t sch o =>
    simp only [openContainer] at h
    rw [bind_ok_iff] at h; obtain ⟨f, h1, h⟩ := h
    rw [bind_ok_iff] at h; obtain ⟨b, h2, h⟩ := h
    rw [bind_ok_iff] at h; obtain ⟨v, h3, h⟩ := h
    obtain ⟨n, h4, rfl⟩ := ifTruthy_ok_iff.mp h
    simp [pure, Except.pure, Instance.len] at h4
    subst h4; simp
  | vector t sch o =>
    simp only [openContainer] at h
    rw [bind_ok_iff] at h; obtain ⟨f, h1, h⟩ := h
    rw [bind_ok_iff] at h; obtain ⟨b, h2, h⟩ := h
    rw [bind_ok_iff] at h; obtain ⟨v, h3, h⟩ := h
    obtain ⟨n, h4, rfl⟩ := ifTruthy_ok_iff.mp h
    obtain ⟨g1, g2, g3, rfl⟩ := vector_open_iff.mp h3
    obtain ⟨-, rfl⟩ := pyLen_ok_iff.mp h4
    have hb := buffer_iff.mp (bind_ok_iff.mpr ⟨f, h1, h2⟩)
    simp only
    constructor
    · intro hx
      refine ⟨b, hb, (count_lt_one g2).mp ?_⟩
      by_contra hc; rw [if_neg hc] at hx; simp at hx
    · rintro ⟨c, hc, hlt⟩
      rw [hasFile_unique hb hc, if_pos ((count_lt_one g2).mpr hlt)]
  | multivector it ts sch o =>
    simp only [openContainer] at h
    rw [bind_ok_iff] at h; obtain ⟨f, h1, h⟩ := h
    rw [bind_ok_iff] at h; obtain ⟨d, hd, h⟩ := h
    rw [bind_ok_iff] at h; obtain ⟨b, h2, h⟩ := h
    rw [bind_ok_iff] at h; obtain ⟨v, h3, h⟩ := h
    obtain ⟨n, h4, rfl⟩ := ifTruthy_ok_iff.mp h
    obtain ⟨g1, g2, g3, rfl⟩ := vector_open_iff.mp h3
    unfold multivectorLen at h4
    obtain ⟨m, h5, h6⟩ := bind_ok_iff.mp h4
    obtain ⟨-, rfl⟩ := pyLen_ok_iff.mp h5
    obtain ⟨-, rfl⟩ := pyLen_ok_iff.mp h6
    have hb := buffer_iff.mp (bind_ok_iff.mpr ⟨f, h1, h2⟩)
    have hiff : unsignedAt b 0 64 / it.sizeInBytes - 1 = 0 ↔ unsignedAt b 0 64 < 2 * it.sizeInBytes := by
      rw [← Nat.div_lt_iff_lt_mul g2]; omega
    simp only
    constructor
    · intro hx
      refine ⟨b, hb, hiff.mp ?_⟩
      by_contra hc; rw [if_neg hc] at hx; simp at hx
    · rintro ⟨c, hc, hlt⟩
      rw [← hasFile_unique hb hc] at hlt
      rw [if_pos (hiff.mpr hlt)]
  | rawData sch o =>
    simp only [openContainer] at h
    rw [bind_ok_iff] at h; obtain ⟨f, h1, h⟩ := h
    rw [bind_ok_iff] at h; obtain ⟨b, h2, h⟩ := h
    rw [bind_ok_iff] at h; obtain ⟨v, h3, h⟩ := h
    obtain ⟨n, h4, rfl⟩ := ifTruthy_ok_iff.mp h
    obtain ⟨g1, rfl⟩ := raw_open_iff.mp h3
    rw [raw_len_eq g1] at h4
    obtain ⟨-, rfl⟩ := pyLen_ok_iff.mp h4
    have hb := buffer_iff.mp (bind_ok_iff.mpr ⟨f, h1, h2⟩)
    simp only
    constructor
    · intro hx
      refine ⟨b, hb, ?_⟩
      by_contra hc; rw [if_neg (by omega)] at hx; simp at hx
    · rintro ⟨c, hc, hlt⟩
      rw [← hasFile_unique hb hc] at hlt
      rw [if_pos (by omega)]
  | sub => exact absurd hl (by simp [Leaf])

theorem schemaAbsent_not_matches {k : StorageKind} {node : Node} {name schema : String}
    (h : SchemaAbsent k node name) (h' : SchemaMatches node name schema) : False := by
  have hne := encodeUtf8_ne_nil h'.1
  rcases h with h | ⟨-, h⟩
  · rw [h'.2] at h; simp at h
  · rw [h'.2] at h; simp at h; exact hne h

theorem openResource_absent_iff {k : StorageKind} {node : Node} {name : String} {sig : Sig} {x : Loaded}
    (h : openResource k node name sig = .ok x) :
    x = .absent ↔ ReadsAsNone k node name sig := by
  by_cases hl : Leaf sig
  · rw [openResource_leaf hl, bind_ok_iff] at h
    obtain ⟨b, h1, h2⟩ := h
    cases b with
    | true =>
      have hm := checkSchema_true_iff.mp h1
      have hno : ¬ SchemaAbsent k node name := fun h => schemaAbsent_not_matches h hm
      rw [openContainer_absent_iff hl (by simpa using h2)]
      cases sig <;> simp [ReadsAsNone, hno] <;> exact absurd hl (by simp [Leaf])
    | false =>
      obtain ⟨ho, hsa⟩ := checkSchema_false_iff.mp h1
      simp [pure, Except.pure] at h2
      subst h2
      cases sig <;> simp [ReadsAsNone, hsa, Sig.isOptional] at ho ⊢ <;> first | exact ho | exact .inl ho | exact absurd hl (by simp [Leaf])
  · cases sig with
    | sub n asch rs sch o =>
      simp only [openResource] at h
      rw [bind_ok_iff] at h
      obtain ⟨f, h1, h2⟩ := h
      simp only [ReadsAsNone]
      rcases fetch_ok_iff.mp h1 with ⟨h, rfl, rfl⟩ | ⟨b, h, rfl⟩ | ⟨e, h, rfl⟩
      · simp [pure, Except.pure] at h2; subst h2; simp [h]
      · simp [throw, throwThe, MonadExceptOf.throw] at h2
      · change (loadAll _ >>= _) = _ at h2
        obtain ⟨l, -, h3⟩ := bind_ok_iff.mp h2
        obtain ⟨m, hm, rfl⟩ := ifTruthy_ok_iff.mp h3
        simp [pure, Except.pure] at hm
        subst hm
        by_cases hr : rs = [] <;> simp [h, hr]
    | _ => exact absurd trivial hl

/-- **C26.** In an open archive, a resource attribute is `None` exactly in the cases listed by `ReadsAsNone`: it
is absent, or it is there but holds no element. Every other resource is a container of the declared kind
over the bytes of its file. -/
theorem C26_none_iff (A : ArchiveType) (hnd : (A.resources.map (·.1)).Nodup) (k : StorageKind) (node : Node)
    (l : List (String × Loaded)) (h : openArchive A k node = .ok l) (name : String) (sig : Sig)
    (hm : (name, sig) ∈ A.resources) : l.lookup name = some .absent ↔ ReadsAsNone k node name sig := by
  obtain ⟨x, hx, hl⟩ := loadAll_sorted_lookup h hnd hm
  rw [hl, ← openResource_absent_iff hx]; simp

/-- The kind of container a signature declares, over the bytes stored for it. -/
def ContainerFor (k : StorageKind) (node : Node) (name : String) : Sig → Loaded → Prop
  | .instance t _ _, x => ∃ b, HasFile k node name b ∧ x = .instance ⟨b, t⟩
  | .vector t _ _, x => ∃ b, HasFile k node name b ∧ x = .vector ⟨b, t, unsignedAt b 0 64 / t.sizeInBytes⟩
  | .multivector it ts _ _, x => ∃ b d, HasFile k node (name ++ "_index") b ∧
      ((∃ m, HasFile k node name m ∧ d = .bytes m) ∨ (node.entry name = none ∧ d = .none) ∨
        ∃ e, node.entry name = some (.dir e) ∧ d = .storage (.dir e)) ∧
      x = .multivector ⟨b, it, unsignedAt b 0 64 / it.sizeInBytes⟩ d ts
  | .rawData _ _, x => ∃ b, HasFile k node name b ∧ x = .rawData ⟨b⟩
  | .sub n _ rs _ _, x => ∃ e l, node.entry name = some (.dir e) ∧
      loadAll (sortByName (openResources k (.dir e) rs)) = .ok l ∧ x = .archive n l

theorem openContainer_value {k : StorageKind} {node : Node} {name : String} {sig : Sig} (hl : Leaf sig)
    {x : Loaded} (h : openContainer k node name sig = .ok x) (hx : x ≠ .absent) : ContainerFor k node name sig x := by
  cases sig with
  | «instance» t sch o =>
    simp only [openContainer] at h
    rw [bind_ok_iff] at h; obtain ⟨f, h1, h⟩ := h
    rw [bind_ok_iff] at h; obtain ⟨b, h2, h⟩ := h
    rw [bind_ok_iff] at h; obtain ⟨v, h3, h⟩ := h
    obtain ⟨n, h4, rfl⟩ := ifTruthy_ok_iff.mp h
    obtain ⟨-, rfl⟩ := instance_open_iff.mp h3
    refine ⟨b, buffer_iff.mp (bind_ok_iff.mpr ⟨f, h1, h2⟩), ?_⟩
    split at hx <;> simp_all
  | vector t sch o =>
    simp only [openContainer] at h
    rw [bind_ok_iff] at h; obtain ⟨f, h1, h⟩ := h
    rw [bind_ok_iff] at h; obtain ⟨b, h2, h⟩ := h
    rw [bind_ok_iff] at h; obtain ⟨v, h3, h⟩ := h
    obtain ⟨n, h4, rfl⟩ := ifTruthy_ok_iff.mp h
    obtain ⟨g1, g2, g3, rfl⟩ := vector_open_iff.mp h3
    refine ⟨b, buffer_iff.mp (bind_ok_iff.mpr ⟨f, h1, h2⟩), ?_⟩
    split at hx
    · exact absurd rfl hx
    · rename_i hn; rw [if_neg hn]
  | multivector it ts sch o =>
    simp only [openContainer] at h
    rw [bind_ok_iff] at h; obtain ⟨f, h1, h⟩ := h
    rw [bind_ok_iff] at h; obtain ⟨d, hd, h⟩ := h
    rw [bind_ok_iff] at h; obtain ⟨b, h2, h⟩ := h
    rw [bind_ok_iff] at h; obtain ⟨v, h3, h⟩ := h
    obtain ⟨n, h4, rfl⟩ := ifTruthy_ok_iff.mp h
    obtain ⟨g1, g2, g3, rfl⟩ := vector_open_iff.mp h3
    refine ⟨b, d, buffer_iff.mp (bind_ok_iff.mpr ⟨f, h1, h2⟩), ?_, ?_⟩
    · rcases fetch_ok_iff.mp hd with ⟨hf, -, rfl⟩ | ⟨m, hf, rfl⟩ | ⟨e, hf, rfl⟩
      · exact .inr (.inl ⟨hf, rfl⟩)
      · exact .inl ⟨m, hf, rfl⟩
      · exact .inr (.inr ⟨e, hf, rfl⟩)
    · split at hx
      · exact absurd rfl hx
      · rename_i hn; rw [if_neg hn]
  | rawData sch o =>
    simp only [openContainer] at h
    rw [bind_ok_iff] at h; obtain ⟨f, h1, h⟩ := h
    rw [bind_ok_iff] at h; obtain ⟨b, h2, h⟩ := h
    rw [bind_ok_iff] at h; obtain ⟨v, h3, h⟩ := h
    obtain ⟨n, h4, rfl⟩ := ifTruthy_ok_iff.mp h
    obtain ⟨-, rfl⟩ := raw_open_iff.mp h3
    refine ⟨b, buffer_iff.mp (bind_ok_iff.mpr ⟨f, h1, h2⟩), ?_⟩
    split at hx
    · exact absurd rfl hx
    · rename_i hn; rw [if_neg hn]
  | sub => exact absurd hl (by simp [Leaf])

theorem openResource_value {k : StorageKind} {node : Node} {name : String} {sig : Sig}
    {x : Loaded} (h : openResource k node name sig = .ok x) (hx : x ≠ .absent) : ContainerFor k node name sig x := by
  by_cases hl : Leaf sig
  · rw [openResource_leaf hl, bind_ok_iff] at h
    obtain ⟨b, h1, h2⟩ := h
    cases b with
    | true => exact openContainer_value hl (by simpa using h2) hx
    | false => simp [pure, Except.pure] at h2; exact absurd h2.symm hx
  · cases sig with
    | sub n asch rs sch o =>
      simp only [openResource] at h
      rw [bind_ok_iff] at h
      obtain ⟨f, h1, h2⟩ := h
      rcases fetch_ok_iff.mp h1 with ⟨h, rfl, rfl⟩ | ⟨b, h, rfl⟩ | ⟨e, h, rfl⟩
      · simp [pure, Except.pure] at h2; exact absurd h2.symm hx
      · simp [throw, throwThe, MonadExceptOf.throw] at h2
      · change (loadAll _ >>= _) = _ at h2
        obtain ⟨l, hl, h3⟩ := bind_ok_iff.mp h2
        obtain ⟨m, hm, rfl⟩ := ifTruthy_ok_iff.mp h3
        refine ⟨e, l, h, hl, ?_⟩
        split at hx
        · exact absurd rfl hx
        · rename_i hn; rw [if_neg hn]
    | _ => exact absurd trivial hl

/-- **C26.** What is not `None` is the declared container over exactly the stored bytes. -/
theorem C26_container (A : ArchiveType) (hnd : (A.resources.map (·.1)).Nodup) (k : StorageKind) (node : Node)
    (l : List (String × Loaded)) (h : openArchive A k node = .ok l) (name : String) (sig : Sig)
    (hm : (name, sig) ∈ A.resources) (hn : ¬ ReadsAsNone k node name sig) :
    ∃ x, l.lookup name = some x ∧ ContainerFor k node name sig x := by
  obtain ⟨x, hx, hl⟩ := loadAll_sorted_lookup h hnd hm
  exact ⟨x, hl, openResource_value hx fun e => hn ((openResource_absent_iff hx).mp e)⟩

/-- **C26**, where the naive claim fails: an archive signature (16 zero bytes, as every builder writes it) is
present, required, and reads as `None`. -/
theorem C26_counterexample_signature (name schema : String) (rs : List (String × Sig))
    (hnd : ((mkArchive name schema rs).resources.map (·.1)).Nodup) (k : StorageKind) (node : Node)
    (l : List (String × Loaded)) (h : openArchive (mkArchive name schema rs) k node = .ok l)
    (hsig : node.entry (name ++ ".archive") = some (.file (List.replicate 16 0))) :
    l.lookup (name ++ ".archive") = some .absent := by
  refine (C26_none_iff _ hnd k node l h _ (.rawData schema false) (.head _)).mpr (.inr ⟨_, ⟨hsig, by simp⟩, ?_⟩)
  decide +kernel

/-! ## C27 -/

theorem sizeSum_ok {l : List (String × Loaded)} {g : String × Loaded → Nat} (h : ∀ p ∈ l, p.2.size = .ok (g p)) :
    sizeSum l = .ok ((l.map g).sum) := by
  induction l with
  | nil => rfl
  | cons p l ih =>
    obtain ⟨n, x⟩ := p
    have h1 := h (n, x) (by simp)
    simp only at h1
    simp only [sizeSum, h1, ih fun q hq => h q (by simp [hq]), bind, Except.bind, List.map_cons, List.sum_cons]
    rfl

theorem dataSizes_eq (k : StorageKind) (node : Node) (rs : List (String × Sig)) :
    dataSizes k node rs = (rs.map fun p => dataSize k node p.1 p.2).sum := by
  induction rs with
  | nil => simp [dataSizes]
  | cons p rs ih => obtain ⟨n, s⟩ := p; simp [dataSizes, ih]

theorem dataSize_leaf {k : StorageKind} {node : Node} {name : String} {sig : Sig} (hl : Leaf sig) :
    (ReadsAsNone k node name sig → dataSize k node name sig = 0) ∧
    (¬ ReadsAsNone k node name sig → dataSize k node name sig = fileLength node name) := by
  cases sig with
  | sub => exact absurd hl (by simp [Leaf])
  | _ => simp only [dataSize]; exact ⟨fun h => if_pos h, fun h => if_neg h⟩

theorem fileLength_eq {k : StorageKind} {node : Node} {name : String} {b : Bytes} (h : HasFile k node name b) :
    fileLength node name = b.length := by unfold fileLength; rw [h.1]

theorem size_load {k : StorageKind} {node : Node} {rs : List (String × Sig)} {l : List (String × Loaded)}
    (h : loadAll (sortByName (openResources k node rs)) = .ok l)
    (hs : ∀ p ∈ rs, ∀ x, openResource k node p.1 p.2 = .ok x → x.size = .ok (dataSize k node p.1 p.2)) :
    sizeSum l = .ok (dataSizes k node rs) := by
  have h1 := loadAll_ok.mp h
  rw [openResources_eq, sort_map (fun p => openResource k node p.1 p.2)] at h1
  have hp := sort_perm rs
  rw [dataSizes_eq, ← List.Perm.sum_nat (hp.map fun p => dataSize k node p.1 p.2)]
  have hs' : ∀ p ∈ sortByName rs, ∀ x, openResource k node p.1 p.2 = .ok x → x.size = .ok (dataSize k node p.1 p.2) :=
    fun p hq => hs p (hp.subset hq)
  generalize sortByName rs = srt at h1 hs'
  clear h hs hp
  induction srt generalizing l with
  | nil => cases l with
    | nil => rfl
    | cons => simp at h1
  | cons q srt ih =>
    cases l with
    | nil => simp at h1
    | cons p l =>
      obtain ⟨n, x⟩ := p
      simp only [List.map_cons, List.cons.injEq, Prod.mk.injEq] at h1
      obtain ⟨⟨-, h2⟩, h3⟩ := h1
      simp only [sizeSum, hs' q (by simp) x h2, ih h3 fun p hp => hs' p (by simp [hp]), bind, Except.bind, List.map_cons,
        List.sum_cons]
      rfl

theorem size_openResource {k : StorageKind} (sig : Sig) : ∀ {node : Node} {name : String} {x : Loaded},
    (∀ node' name' it ts sch o, Inside node [(name, sig)] node' name' (.multivector it ts sch o) →
      ReadsAsNone k node' name' (.multivector it ts sch o) ∨ ∃ b, HasFile k node' name' b) →
    openResource k node name sig = .ok x → x.size = .ok (dataSize k node name sig) := by
  refine sig_induction (P := fun sig => ∀ {node : Node} {name : String} {x : Loaded},
    (∀ node' name' it ts sch o, Inside node [(name, sig)] node' name' (.multivector it ts sch o) →
      ReadsAsNone k node' name' (.multivector it ts sch o) ∨ ∃ b, HasFile k node' name' b) →
    openResource k node name sig = .ok x → x.size = .ok (dataSize k node name sig)) ?_ ?_ sig
  · intro sig hl node name x hd h
    by_cases hx : x = .absent
    · rw [(dataSize_leaf hl).1 ((openResource_absent_iff h).mp hx), hx]; rfl
    · have hn : ¬ ReadsAsNone k node name sig := fun e => hx ((openResource_absent_iff h).mpr e)
      rw [(dataSize_leaf hl).2 hn]
      have hc := openResource_value h hx
      cases sig with
      | «instance» => obtain ⟨b, hb, rfl⟩ := hc; rw [fileLength_eq hb]; rfl
      | vector => obtain ⟨b, hb, rfl⟩ := hc; rw [fileLength_eq hb]; rfl
      | rawData => obtain ⟨b, hb, rfl⟩ := hc; rw [fileLength_eq hb]; rfl
      | multivector it ts sch o =>
        obtain ⟨b, d, -, hdat, rfl⟩ := hc
        rcases hd node name it ts sch o (.here (by simp)) with h | ⟨m, hm⟩
        · exact absurd h hn
        · rcases hdat with ⟨m', hm', rfl⟩ | ⟨h, -⟩ | ⟨e, h, -⟩
          · rw [fileLength_eq hm']; rfl
          · rw [hm.1] at h; simp at h
          · rw [hm.1] at h; simp at h
      | sub => exact absurd hl (by simp [Leaf])
  · intro n asch rs sch o ih node name x hd h
    by_cases hx : x = .absent
    · have := (openResource_absent_iff h).mp hx
      subst hx
      simp only [ReadsAsNone] at this
      rcases this with h | rfl
      · simp only [dataSize, h]; rfl
      · simp only [dataSize]
        split
        · simp only [dataSizes]; rfl
        · rfl
    · obtain ⟨e, l, he, hl, rfl⟩ := openResource_value h hx
      simp only [dataSize, he, Loaded.size]
      refine size_load hl fun p hp y hy => ih p hp ?_ hy
      intro node' name' it ts sch' o' hin
      refine hd node' name' it ts sch' o' (.there (List.mem_singleton.mpr rfl) he ?_)
      generalize hrs : [(p.1, p.2)] = rs1 at hin
      cases hin with
      | here hm => subst hrs; simp only [List.mem_singleton] at hm; exact .here (by rw [hm]; exact hp)
      | there hm hent hin => subst hrs; simp only [List.mem_singleton] at hm; exact .there (by rw [hm]; exact hp) hent hin

theorem inside_mono {node node' : Node} {rs rs' : List (String × Sig)} {name : String} {sig : Sig}
    (h : Inside node rs node' name sig) (hs : ∀ p ∈ rs, p ∈ rs') : Inside node rs' node' name sig := by
  cases h with
  | here hm => exact .here (hs _ hm)
  | there hm he hin => exact .there (hs _ hm) he hin

/-- **C27.** `size_in_bytes` of an open archive is the sum of the lengths of the data files of all resources
that are not `None`, recursively. Indices and schemas are not counted. The hypothesis excludes archives in
which an optional multivector has an index but no data file: there `size_in_bytes` raises. -/
theorem C27_size (A : ArchiveType) (k : StorageKind) (node : Node) (l : List (String × Loaded))
    (h : openArchive A k node = .ok l)
    (hdata : ∀ node' name it ts sch o, Inside node A.resources node' name (.multivector it ts sch o) →
      ReadsAsNone k node' name (.multivector it ts sch o) ∨ ∃ b, HasFile k node' name b) :
    sizeSum l = .ok (dataSizes k node A.resources) := by
  refine size_load h fun p hp x hx => size_openResource p.2 ?_ hx
  intro node' name it ts sch o hin
  exact hdata node' name it ts sch o (inside_mono hin (by simp; exact hp))

/-! ## A concrete archive -/

/-- A vector, an optional raw data resource (absent), and a sub-archive with one instance. -/
def demoArchive : ArchiveType :=
  mkArchive "A" "schema A"
    [("v", .vector (mkStruct "S" [⟨"x", 8, false⟩]) "schema v" false), ("r", .rawData "schema r" true),
     ("sub", .sub "B" "schema B" (mkArchive "B" "schema B"
        [("i", .instance (mkStruct "S" [⟨"x", 8, false⟩]) "schema i" false)]).resources "schema B" false)]

/-- A directory given by a list of entries. -/
def dirOf (l : List (String × Node)) : Node := .dir fun n => l.lookup n

/-- A directory for `demoArchive`. -/
def demoDir (vSchema : String) : Node :=
  dirOf [("A.archive", .file (frame [])), ("A.archive.schema", .file (encodeUtf8 "schema A")),
    ("v", .file (frame [1, 2, 3])), ("v.schema", .file (encodeUtf8 vSchema)),
    ("sub", dirOf [("B.archive", .file (frame [])), ("B.archive.schema", .file (encodeUtf8 "schema B")),
      ("i", .file (frame [7])), ("i.schema", .file (encodeUtf8 "schema i"))])]

/-- Summary of an opened archive for display. -/
def summary (r : M (List (String × Loaded))) : M (List (String × Bool) × Nat) := do
  let l ← r
  pure (l.map fun p => (p.1, match p.2 with | .absent => false | _ => true), ← sizeSum l)

example : summary (openArchive demoArchive .files (demoDir "schema v")) =
    .ok ([("A.archive", false), ("r", false), ("sub", true), ("v", true)], 19 + 17) := by decide +kernel
example : summary (openArchive demoArchive .tar (demoDir "schema v")) =
    .ok ([("A.archive", false), ("r", false), ("sub", true), ("v", true)], 19 + 17) := by decide +kernel
example : summary (openArchive demoArchive .files (demoDir "schema w")) = .error (.schemaMismatch "v") := by
  decide +kernel
/-- All resources of the concrete archive are acceptable. -/
example : ∀ p ∈ demoArchive.resources, ResOk .files (demoDir "schema v") p.1 p.2 := by
  rw [← C22_opens_iff]
  cases h : openArchive demoArchive .files (demoDir "schema v") with
  | ok l => exact ⟨l, rfl⟩
  | error e =>
    have : summary (openArchive demoArchive .files (demoDir "schema v")) = .error e := by rw [h]; rfl
    rw [show summary (openArchive demoArchive .files (demoDir "schema v")) =
      .ok ([("A.archive", false), ("r", false), ("sub", true), ("v", true)], 19 + 17) by decide +kernel] at this
    simp at this
/-- A resource inside the sub-archive, with its schema. -/
example : ∃ node' sig, Inside (demoDir "schema v") demoArchive.resources node' "i" sig ∧
    node'.entry "i.schema" = some (.file (encodeUtf8 "schema i")) :=
  ⟨_, _, .there (n := "sub") (.tail _ (.tail _ (.tail _ (.head _)))) rfl (.here (.tail _ (.head _))), rfl⟩

/-- Evaluation as a way to show that a concrete resource is acceptable. -/
theorem resOk_of_eval {k : StorageKind} {node : Node} {name : String} {sig : Sig}
    (h : (match openResource k node name sig with | .ok _ => true | .error _ => false) = true) :
    ResOk k node name sig := by
  cases ho : openResource k node name sig with
  | ok x => exact resOk_of_openResource _ ho
  | error e => rw [ho] at h; simp at h

/-- The wrong schema of `v` is the only problem of this directory: the hypotheses of `C23_error_kind`. -/
example : openArchive demoArchive .files (demoDir "schema w") = .error (.schemaMismatch "v") := by
  refine (C23_error_kind demoArchive .files (demoDir "schema w") (demoDir "schema w") "v"
    (.vector (mkStruct "S" [⟨"x", 8, false⟩]) "schema v" false) (.here (.tail _ (.head _)) ?_) trivial
    (encodeUtf8 "schema w") (by decide +kernel) rfl (by decide +kernel)).1 ⟨_, rfl⟩
  intro p hp
  simp only [demoArchive, mkArchive, List.mem_cons, List.not_mem_nil, or_false] at hp
  rcases hp with rfl | rfl | rfl | rfl
  · exact .inr (resOk_of_eval (by decide +kernel))
  · exact .inl rfl
  · exact .inr (resOk_of_eval (by decide +kernel))
  · exact .inr (resOk_of_eval (by decide +kernel))

/-- The optional resource `r` of the concrete archive: the hypotheses of `C24_optional_absent`. -/
example : ∃ l, openArchive demoArchive .files (demoDir "schema v") = .ok l ∧ l.lookup "r" = some .absent := by
  refine C24_optional_absent demoArchive .files (demoDir "schema v") "r" (.rawData "schema r" true)
    (by decide +kernel) (.tail _ (.tail _ (.head _))) rfl rfl rfl ?_
  intro p hp _
  simp only [demoArchive, mkArchive, List.mem_cons, List.not_mem_nil, or_false] at hp
  rcases hp with rfl | rfl | rfl | rfl <;> exact resOk_of_eval (by decide +kernel)

/-- Removing the sub-archive: the hypotheses of `C24_error_kind`. -/
example : openArchive demoArchive .files (dirOf
      [("A.archive", .file (frame [])), ("A.archive.schema", .file (encodeUtf8 "schema A")),
       ("v", .file (frame [1, 2, 3])), ("v.schema", .file (encodeUtf8 "schema v"))]) =
    .error (.missingResource "sub") := by
  refine (C24_error_kind demoArchive .files _ _ "sub" (.sub "B" "schema B" (mkArchive "B" "schema B"
        [("i", .instance (mkStruct "S" [⟨"x", 8, false⟩]) "schema i" false)]).resources "schema B" false)
    (.here (.tail _ (.tail _ (.tail _ (.head _)))) ?_) rfl).2.2.2.2 (by simp [Leaf]) rfl
  intro p hp
  simp only [demoArchive, mkArchive, List.mem_cons, List.not_mem_nil, or_false] at hp
  rcases hp with rfl | rfl | rfl | rfl
  · exact .inr (resOk_of_eval (by decide +kernel))
  · exact .inr (resOk_of_eval (by decide +kernel))
  · exact .inr (resOk_of_eval (by decide +kernel))
  · exact .inl rfl

end Props
