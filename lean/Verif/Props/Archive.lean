import Verif.Spec.Archive
import Verif.Lemmas.Archive
import Verif.Props.Frame

/-!
# C22–C27: opening archives
-/

namespace Props
open Py Model Spec

/-! ## Outcomes of the building blocks -/

theorem fetch_ok_iff {k : StorageKind} {node : Node} {key : String} {o : Bool} {x : Fetched} :
    fetch k node key o = .ok x ↔
      (node.entry key = none ∧ o = true ∧ x = .none) ∨ (∃ b, HasFile k node key b ∧ x = .bytes b) ∨
      (∃ e, node.entry key = some (.dir e) ∧ x = .storage (.dir e)) := by
  unfold fetch HasFile
  cases h : node.entry key with
  | none => cases o <;> simp [throw, throwThe, MonadExceptOf.throw, pure, Except.pure, eq_comm]
  | some n =>
    cases n with
    | dir e => simp [pure, Except.pure, eq_comm]
    | file b =>
      by_cases hb : k = .files ∧ b = []
      · simp only [if_pos hb]
        obtain ⟨rfl, rfl⟩ := hb
        simp [throw, throwThe, MonadExceptOf.throw]
      · simp only [if_neg hb, pure, Except.pure, Except.ok.injEq]
        constructor
        · rintro rfl
          exact .inr (.inl ⟨b, ⟨rfl, fun hk hb' => hb ⟨hk, hb'⟩⟩, rfl⟩)
        · rintro (⟨h, -⟩ | ⟨b', ⟨h, -⟩, rfl⟩ | ⟨e, h, -⟩)
          · simp at h
          · simp at h; rw [h]
          · simp at h

theorem asBuffer_ok_iff {x : Fetched} {b : Bytes} : asBuffer x = .ok b ↔ x = .bytes b := by
  cases x <;> simp [asBuffer, throw, throwThe, MonadExceptOf.throw, pure, Except.pure]

theorem bind_ok_iff {α β} {x : M α} {f : α → M β} {y : β} : (x >>= f) = .ok y ↔ ∃ a, x = .ok a ∧ f a = .ok y := by
  cases x <;> simp [bind, Except.bind]

theorem isOk_bind {α β} {x : M α} {f : α → M β} : (∃ y, (x >>= f) = .ok y) ↔ ∃ a, x = .ok a ∧ ∃ y, f a = .ok y := by
  cases x <;> simp [bind, Except.bind]

theorem buffer_iff {k : StorageKind} {node : Node} {key : String} {o : Bool} {b : Bytes} :
    (fetch k node key o >>= asBuffer) = .ok b ↔ HasFile k node key b := by
  rw [bind_ok_iff]
  constructor
  · rintro ⟨x, h1, h2⟩
    rw [asBuffer_ok_iff] at h2; subst h2
    rcases fetch_ok_iff.mp h1 with ⟨-, -, h⟩ | ⟨b', h, e⟩ | ⟨e, -, h⟩
    · simp at h
    · simp at e; rw [e]; exact h
    · simp at h
  · intro h
    exact ⟨.bytes b, fetch_ok_iff.mpr (.inr (.inl ⟨b, h, rfl⟩)), rfl⟩

theorem ifTruthy_ok_iff {len : M Nat} {x y : Loaded} :
    ifTruthy len x = .ok y ↔ ∃ n, len = .ok n ∧ y = if n = 0 then .absent else x := by
  unfold ifTruthy
  rw [bind_ok_iff]
  constructor
  · rintro ⟨n, h, e⟩; refine ⟨n, h, ?_⟩; split at e <;> simp_all [pure, Except.pure]
  · rintro ⟨n, h, e⟩; refine ⟨n, h, ?_⟩; split <;> simp_all [pure, Except.pure]

theorem pyLen_ok_iff {n m : Nat} : pyLen n = .ok m ↔ n < 2 ^ 63 ∧ m = n := by
  by_cases h : n < 2 ^ 63
  · rw [pyLen_ok h]; exact ⟨fun e => ⟨h, (Except.ok.inj e).symm⟩, fun e => by rw [e.2]⟩
  · rw [pyLen_err h]; exact ⟨fun e => by simp at e, fun e => absurd e.1 h⟩

theorem vector_open_iff {b : Bytes} {t : StructType} {v : FdVector} :
    FdVector.create b t = .ok v ↔ 16 ≤ b.length ∧ 0 < t.sizeInBytes ∧ unsignedAt b 0 64 % t.sizeInBytes = 0 ∧
      v = ⟨b, t, unsignedAt b 0 64 / t.sizeInBytes⟩ := by
  by_cases ht : t.sizeInBytes = 0
  · rw [C08_vector_open_empty_type _ _ ht]; split <;> simp [ht]
  · rw [C08_vector_open _ _ (by omega)]
    split
    · rename_i h; exact ⟨fun e => by simp at e, fun e => absurd e.1 (by omega)⟩
    · rename_i h
      split
      · rename_i h'; exact ⟨fun e => by simp at e, fun e => absurd e.2.2.1 h'⟩
      · rename_i h'
        rw [not_not] at h'
        exact ⟨fun e => ⟨by omega, by omega, h', (Except.ok.inj e).symm⟩, fun e => by rw [e.2.2.2]⟩

theorem instance_open_iff {b : Bytes} {t : StructType} {x : Instance} :
    Instance.create b t = .ok x ↔ 16 ≤ b.length ∧ x = ⟨b, t⟩ := by
  by_cases h : 16 ≤ b.length
  · simp only [Instance.create, checkResource_ok h, bind, Except.bind, pure, Except.pure, Except.ok.injEq, h,
      true_and, eq_comm]
  · simp only [Instance.create, checkResource_err (by omega : b.length < 16), bind, Except.bind]
    simp [h]

theorem raw_open_iff {b : Bytes} {r : RawData} : RawData.create b = .ok r ↔ 16 ≤ b.length ∧ r = ⟨b⟩ := by
  by_cases h : 16 ≤ b.length
  · simp only [RawData.create, checkResource_ok h, bind, Except.bind, pure, Except.pure, Except.ok.injEq, h,
      true_and, eq_comm]
  · simp only [RawData.create, checkResource_err (by omega : b.length < 16), bind, Except.bind]
    simp [h]

theorem raw_len_eq {b : Bytes} (h : 16 ≤ b.length) : RawData.len ⟨b⟩ = pyLen (unsignedAt b 0 64) := by
  simp only [RawData.len, read_header (show 8 ≤ b.length by omega), bind, Except.bind, Int.toNat_natCast]

theorem checkSchema_true_iff {k : StorageKind} {node : Node} {name schema : String} {o : Bool} :
    checkSchema k node name schema o = .ok true ↔ SchemaMatches node name schema := by
  unfold checkSchema SchemaMatches
  rw [bind_ok_iff]
  constructor
  · rintro ⟨x, h1, h2⟩
    rcases fetch_ok_iff.mp h1 with ⟨-, rfl, rfl⟩ | ⟨b, h, rfl⟩ | ⟨e, -, rfl⟩
    · simp [pure, Except.pure] at h2
    · by_cases hb : b = []
      · cases o <;> simp [hb, pure, Except.pure, throw, throwThe, MonadExceptOf.throw] at h2
      · simp only [hb, if_false] at h2
        obtain ⟨s, hs, h3⟩ := bind_ok_iff.mp h2
        rw [decodeUtf8_iff] at hs
        by_cases he : s ≠ schema
        · simp [he, throw, throwThe, MonadExceptOf.throw] at h3
        · rw [not_not] at he; subst he
          refine ⟨?_, by rw [h.1, hs]⟩
          rintro rfl; exact hb (by rw [hs]; rfl)
    · simp [throw, throwThe, MonadExceptOf.throw] at h2
  · rintro ⟨hs, h⟩
    have hne := encodeUtf8_ne_nil hs
    refine ⟨.bytes (encodeUtf8 schema), fetch_ok_iff.mpr (.inr (.inl ⟨_, ⟨h, fun _ => hne⟩, rfl⟩)), ?_⟩
    simp only [hne, if_false]
    rw [bind_ok_iff]
    exact ⟨schema, (decodeUtf8_iff _ _).mpr rfl, by simp [pure, Except.pure]⟩

theorem checkSchema_false_iff {k : StorageKind} {node : Node} {name schema : String} {o : Bool} :
    checkSchema k node name schema o = .ok false ↔ o = true ∧ SchemaAbsent k node name := by
  unfold checkSchema SchemaAbsent
  rw [bind_ok_iff]
  constructor
  · rintro ⟨x, h1, h2⟩
    rcases fetch_ok_iff.mp h1 with ⟨h, rfl, rfl⟩ | ⟨b, h, rfl⟩ | ⟨e, -, rfl⟩
    · exact ⟨rfl, .inl h⟩
    · by_cases hb : b = []
      · subst hb
        cases o
        · simp [throw, throwThe, MonadExceptOf.throw] at h2
        · refine ⟨rfl, .inr ⟨?_, h.1⟩⟩
          cases k
          · exact absurd rfl (h.2 rfl)
          · rfl
      · simp only [hb, if_false] at h2
        obtain ⟨s, hs, h3⟩ := bind_ok_iff.mp h2
        split at h3 <;> simp [throw, throwThe, MonadExceptOf.throw, pure, Except.pure] at h3
    · simp [throw, throwThe, MonadExceptOf.throw] at h2
  · rintro ⟨rfl, h | ⟨rfl, h⟩⟩
    · exact ⟨.none, fetch_ok_iff.mpr (.inl ⟨h, rfl, rfl⟩), rfl⟩
    · exact ⟨.bytes [], fetch_ok_iff.mpr (.inr (.inl ⟨[], ⟨h, by simp⟩, rfl⟩)), rfl⟩

theorem openResource_leaf {k : StorageKind} {node : Node} {name : String} {sig : Sig} (h : Leaf sig) :
    openResource k node name sig = (checkSchema k node name sig.schema sig.isOptional >>= fun b =>
      if b then openContainer k node name sig else pure .absent) := by
  cases sig <;> first | rfl | exact absurd h (by simp [Leaf])

theorem openContainer_isOk {k : StorageKind} {node : Node} {name : String} {sig : Sig} (hl : Leaf sig) :
    (∃ x, openContainer k node name sig = .ok x) ↔ DataOk k node name sig := by
  cases sig with
  | «instance» t sch o =>
    simp only [openContainer, DataOk]
    constructor
    · rintro ⟨x, h⟩
      rw [bind_ok_iff] at h; obtain ⟨f, h1, h⟩ := h
      rw [bind_ok_iff] at h; obtain ⟨b, h2, h⟩ := h
      rw [bind_ok_iff] at h; obtain ⟨v, h3, h⟩ := h
      exact ⟨b, buffer_iff.mp (bind_ok_iff.mpr ⟨f, h1, h2⟩), (instance_open_iff.mp h3).1⟩
    · rintro ⟨b, h1, h2⟩
      obtain ⟨f, hf, hb⟩ := bind_ok_iff.mp (buffer_iff (o := o).mpr h1)
      rw [isOk_bind]; refine ⟨f, hf, ?_⟩
      rw [isOk_bind]; refine ⟨b, hb, ?_⟩
      rw [isOk_bind]; refine ⟨⟨b, t⟩, instance_open_iff.mpr ⟨h2, rfl⟩, ?_⟩
      exact ⟨_, rfl⟩
  | vector t sch o =>
    simp only [openContainer, DataOk]
    constructor
    · rintro ⟨x, h⟩
      rw [bind_ok_iff] at h; obtain ⟨f, h1, h⟩ := h
      rw [bind_ok_iff] at h; obtain ⟨b, h2, h⟩ := h
      rw [bind_ok_iff] at h; obtain ⟨v, h3, h⟩ := h
      obtain ⟨n, h4, -⟩ := ifTruthy_ok_iff.mp h
      obtain ⟨g1, g2, g3, rfl⟩ := vector_open_iff.mp h3
      exact ⟨b, buffer_iff.mp (bind_ok_iff.mpr ⟨f, h1, h2⟩), g1, g2, g3, (pyLen_ok_iff.mp h4).1⟩
    · rintro ⟨b, h1, h2, h3, h4, h5⟩
      obtain ⟨f, hf, hb⟩ := bind_ok_iff.mp (buffer_iff (o := o).mpr h1)
      rw [isOk_bind]; refine ⟨f, hf, ?_⟩
      rw [isOk_bind]; refine ⟨b, hb, ?_⟩
      rw [isOk_bind]; refine ⟨_, vector_open_iff.mpr ⟨h2, h3, h4, rfl⟩, ?_⟩
      exact ⟨_, ifTruthy_ok_iff.mpr ⟨_, pyLen_ok_iff.mpr ⟨h5, rfl⟩, rfl⟩⟩
  | multivector it ts sch o =>
    simp only [openContainer, DataOk]
    constructor
    · rintro ⟨x, h⟩
      rw [bind_ok_iff] at h; obtain ⟨f, h1, h⟩ := h
      rw [bind_ok_iff] at h; obtain ⟨d, hd, h⟩ := h
      rw [bind_ok_iff] at h; obtain ⟨b, h2, h⟩ := h
      rw [bind_ok_iff] at h; obtain ⟨v, h3, h⟩ := h
      obtain ⟨n, h4, -⟩ := ifTruthy_ok_iff.mp h
      obtain ⟨g1, g2, g3, rfl⟩ := vector_open_iff.mp h3
      unfold multivectorLen at h4
      obtain ⟨m, h5, -⟩ := bind_ok_iff.mp h4
      refine ⟨⟨b, buffer_iff.mp (bind_ok_iff.mpr ⟨f, h1, h2⟩), g1, g2, g3, (pyLen_ok_iff.mp h5).1⟩, ?_⟩
      rcases fetch_ok_iff.mp hd with ⟨h, ho, -⟩ | ⟨b, h, -⟩ | ⟨e, h, -⟩
      · exact .inr (.inr ⟨ho, h⟩)
      · exact .inl ⟨b, h⟩
      · exact .inr (.inl ⟨e, h⟩)
    · rintro ⟨⟨b, h1, h2, h3, h4, h5⟩, h6⟩
      obtain ⟨f, hf, hb⟩ := bind_ok_iff.mp (buffer_iff (o := o).mpr h1)
      have : ∃ d, fetch k node name o = .ok d := by
        rcases h6 with ⟨b, h⟩ | ⟨e, h⟩ | ⟨ho, h⟩
        · exact ⟨_, fetch_ok_iff.mpr (.inr (.inl ⟨b, h, rfl⟩))⟩
        · exact ⟨_, fetch_ok_iff.mpr (.inr (.inr ⟨e, h, rfl⟩))⟩
        · exact ⟨_, fetch_ok_iff.mpr (.inl ⟨h, ho, rfl⟩)⟩
      obtain ⟨d, hd⟩ := this
      rw [isOk_bind]; refine ⟨f, hf, ?_⟩
      rw [isOk_bind]; refine ⟨d, hd, ?_⟩
      rw [isOk_bind]; refine ⟨b, hb, ?_⟩
      rw [isOk_bind]; refine ⟨_, vector_open_iff.mpr ⟨h2, h3, h4, rfl⟩, ?_⟩
      refine ⟨_, ifTruthy_ok_iff.mpr ⟨unsignedAt b 0 64 / it.sizeInBytes - 1, ?_, rfl⟩⟩
      unfold multivectorLen
      exact bind_ok_iff.mpr ⟨_, pyLen_ok_iff.mpr ⟨h5, rfl⟩, pyLen_ok_iff.mpr ⟨by show unsignedAt b 0 64 / it.sizeInBytes - 1 < _; omega, rfl⟩⟩
  | rawData sch o =>
    simp only [openContainer, DataOk]
    constructor
    · rintro ⟨x, h⟩
      rw [bind_ok_iff] at h; obtain ⟨f, h1, h⟩ := h
      rw [bind_ok_iff] at h; obtain ⟨b, h2, h⟩ := h
      rw [bind_ok_iff] at h; obtain ⟨v, h3, h⟩ := h
      obtain ⟨n, h4, -⟩ := ifTruthy_ok_iff.mp h
      obtain ⟨g1, rfl⟩ := raw_open_iff.mp h3
      rw [raw_len_eq g1] at h4
      exact ⟨b, buffer_iff.mp (bind_ok_iff.mpr ⟨f, h1, h2⟩), g1, (pyLen_ok_iff.mp h4).1⟩
    · rintro ⟨b, h1, h2, h3⟩
      obtain ⟨f, hf, hb⟩ := bind_ok_iff.mp (buffer_iff (o := o).mpr h1)
      rw [isOk_bind]; refine ⟨f, hf, ?_⟩
      rw [isOk_bind]; refine ⟨b, hb, ?_⟩
      rw [isOk_bind]; refine ⟨_, raw_open_iff.mpr ⟨h2, rfl⟩, ?_⟩
      exact ⟨_, ifTruthy_ok_iff.mpr ⟨_, by rw [raw_len_eq h2]; exact pyLen_ok_iff.mpr ⟨h3, rfl⟩, rfl⟩⟩
  | sub => exact absurd hl (by simp [Leaf])

/-! ## C22 -/

theorem openResource_ok_of_resOk {k : StorageKind} {node : Node} {name : String} {sig : Sig}
    (h : ResOk k node name sig) : ∃ x, openResource k node name sig = .ok x := by
  induction h with
  | absent hl ho hs =>
    exact ⟨.absent, by
      rw [openResource_leaf hl, bind_ok_iff]
      exact ⟨false, checkSchema_false_iff.mpr ⟨ho, hs⟩, rfl⟩⟩
  | present hl hs hd =>
    obtain ⟨x, hx⟩ := (openContainer_isOk hl).mpr hd
    refine ⟨x, ?_⟩
    rw [openResource_leaf hl, bind_ok_iff]
    exact ⟨true, checkSchema_true_iff.mpr hs, by simpa using hx⟩
  | subAbsent h =>
    refine ⟨.absent, ?_⟩
    simp only [openResource]
    rw [bind_ok_iff]
    exact ⟨.none, fetch_ok_iff.mpr (.inl ⟨h, rfl, rfl⟩), rfl⟩
  | @sub node name n asch rs sch o e h _ ih =>
    obtain ⟨l, hl⟩ := (load_isOk (rs := rs) (k := k) (node := .dir e)).mpr ih
    refine ⟨if rs.length = 0 then .absent else .archive n l, ?_⟩
    simp only [openResource]
    rw [bind_ok_iff]
    refine ⟨.storage (.dir e), fetch_ok_iff.mpr (.inr (.inr ⟨e, h, rfl⟩)), ?_⟩
    show (loadAll _ >>= _) = _
    rw [bind_ok_iff]
    exact ⟨l, hl, ifTruthy_ok_iff.mpr ⟨_, rfl, rfl⟩⟩

/-- Induction over signatures. -/
theorem sig_induction {P : Sig → Prop} (leaf : ∀ sig, Leaf sig → P sig)
    (sub : ∀ n asch rs sch o, (∀ p ∈ rs, P p.2) → P (.sub n asch rs sch o)) (sig : Sig) : P sig :=
  match sig with
  | .instance .. | .vector .. | .multivector .. | .rawData .. => leaf _ trivial
  | .sub n asch rs sch o => sub n asch rs sch o fun p hp =>
    have : sizeOf p.2 < 1 + sizeOf n + sizeOf asch + sizeOf rs + sizeOf sch + sizeOf o := by
      have := List.sizeOf_lt_of_mem hp
      obtain ⟨p1, p2⟩ := p
      simp only [Prod.mk.sizeOf_spec] at *
      omega
    sig_induction leaf sub p.2
termination_by sizeOf sig
decreasing_by simp only [Sig.sub.sizeOf_spec]; assumption

theorem resOk_of_openResource {k : StorageKind} (sig : Sig) : ∀ {node : Node} {name : String} {x : Loaded},
    openResource k node name sig = .ok x → ResOk k node name sig := by
  refine sig_induction (P := fun sig => ∀ {node : Node} {name : String} {x : Loaded},
    openResource k node name sig = .ok x → ResOk k node name sig) ?_ ?_ sig
  · intro sig hl node name x h
    rw [openResource_leaf hl, bind_ok_iff] at h
    obtain ⟨b, h1, h2⟩ := h
    cases b with
    | true => exact .present hl (checkSchema_true_iff.mp h1) ((openContainer_isOk hl).mp ⟨x, by simpa using h2⟩)
    | false =>
      obtain ⟨ho, hs⟩ := checkSchema_false_iff.mp h1
      exact .absent hl ho hs
  · intro n asch rs sch o ih node name x h
    simp only [openResource] at h
    rw [bind_ok_iff] at h
    obtain ⟨f, h1, h2⟩ := h
    rcases fetch_ok_iff.mp h1 with ⟨h, rfl, rfl⟩ | ⟨b, h, rfl⟩ | ⟨e, h, rfl⟩
    · exact .subAbsent h
    · simp [throw, throwThe, MonadExceptOf.throw] at h2
    · refine .sub h fun p hp => ?_
      change (loadAll _ >>= _) = _ at h2
      obtain ⟨l, hl, -⟩ := bind_ok_iff.mp h2
      obtain ⟨y, hy⟩ := load_isOk.mp ⟨l, hl⟩ p hp
      exact ih p hp hy

/-- **C22.** An archive opens exactly when every resource is acceptable: schema and data present and
well-formed, the schema equal to the expected text, recursively in sub-archives; optional resources may be
absent. -/
theorem C22_opens_iff (A : ArchiveType) (k : StorageKind) (node : Node) :
    (∃ l, openArchive A k node = .ok l) ↔ ∀ p ∈ A.resources, ResOk k node p.1 p.2 := by
  unfold openArchive
  rw [load_isOk]
  exact ⟨fun h p hp => let ⟨_, hx⟩ := h p hp; resOk_of_openResource _ hx,
    fun h p hp => openResource_ok_of_resOk (h p hp)⟩

/-- **C22**, spelled out for generated archives: the signature file and its schema are required too. -/
theorem C22_generated (name schema : String) (rs : List (String × Sig)) (k : StorageKind) (node : Node) :
    (∃ l, openArchive (mkArchive name schema rs) k node = .ok l) ↔
      (schema ≠ "" ∧ node.entry (name ++ ".archive" ++ ".schema") = some (.file (encodeUtf8 schema)) ∧
        ∃ b, node.entry (name ++ ".archive") = some (.file b) ∧ 16 ≤ b.length ∧ unsignedAt b 0 64 < 2 ^ 63) ∧
      ∀ p ∈ rs, ResOk k node p.1 p.2 := by
  rw [C22_opens_iff]
  simp only [mkArchive, List.mem_cons, forall_eq_or_imp]
  refine and_congr_left fun _ => ?_
  constructor
  · rintro (⟨_, h, _⟩ | ⟨-, h1, b, h2, h3, h4⟩)
    · exact absurd h (by simp [Sig.isOptional])
    · exact ⟨h1.1, h1.2, b, h2.1, h3, h4⟩
  · rintro ⟨h1, h2, b, h3, h4, h5⟩
    exact .present trivial ⟨h1, h2⟩ ⟨b, ⟨h3, fun _ h => by simp [h] at h4⟩, h4, h5⟩

theorem inside_resOk {k : StorageKind} {node node' : Node} {rs : List (String × Sig)} {name : String} {sig : Sig}
    (h : Inside node rs node' name sig) (hok : ∀ p ∈ rs, ResOk k node p.1 p.2) : ResOk k node' name sig := by
  induction h with
  | here hm => exact hok _ hm
  | there hm he _ ih =>
    apply ih
    cases hok _ hm with
    | absent hl => exact absurd hl (by simp [Leaf])
    | present hl => exact absurd hl (by simp [Leaf])
    | subAbsent h => rw [he] at h; simp at h
    | sub h hs => rw [he] at h; cases h; exact hs

/-! ## C23 -/

theorem raises_of_not_resOk {A : ArchiveType} {k : StorageKind} {node node' : Node} {name : String} {sig : Sig}
    (hin : Inside node A.resources node' name sig) (hbad : ¬ ResOk k node' name sig) :
    ∃ e, openArchive A k node = .error e := by
  cases h : openArchive A k node with
  | error e => exact ⟨e, rfl⟩
  | ok l => exact absurd (inside_resOk hin ((C22_opens_iff A k node).mp ⟨l, h⟩)) hbad

/-- The error of the only unacceptable resource is the error of opening the archive. -/
theorem error_propagates {k : StorageKind} {node node' : Node} {rs : List (String × Sig)} {name : String} {sig : Sig}
    (h : OnlyBad k node rs node' name sig) {e : Err} (he : openResource k node' name sig = .error e) :
    loadAll (sortByName (openResources k node rs)) = .error e := by
  induction h with
  | here hm hok =>
    refine load_error ⟨_, hm, he⟩ fun p hp => ?_
    rcases hok p hp with rfl | h
    · exact .inl he
    · exact .inr (openResource_ok_of_resOk h)
  | @there node rs n m asch rs' sch o node' name sig e' hm hok hd _ ih =>
    have hsub : openResource k node n (.sub m asch rs' sch o) = .error e := by
      have hf : fetch k node n o = .ok (.storage (.dir e')) := fetch_ok_iff.mpr (.inr (.inr ⟨e', hd, rfl⟩))
      simp only [openResource, hf, bind, Except.bind, ih he]
    refine load_error ⟨_, hm, hsub⟩ fun p hp => ?_
    rcases hok p hp with rfl | h
    · exact .inl hsub
    · exact .inr (openResource_ok_of_resOk h)

/-- **C23.** If the stored schema of a resource differs from the expected one, anywhere in the archive or its
sub-archives, opening raises. (Only an empty tar member as the schema of an optional resource is taken for
an absent one.) -/
theorem C23_mismatch_raises (A : ArchiveType) (k : StorageKind) (node node' : Node) (name : String) (sig : Sig)
    (hin : Inside node A.resources node' name sig) (hleaf : Leaf sig) (stored : Bytes)
    (hst : node'.entry (name ++ ".schema") = some (.file stored)) (hne : stored ≠ encodeUtf8 sig.schema)
    (hx : ¬ (k = .tar ∧ stored = [] ∧ sig.isOptional = true)) :
    ∃ e, openArchive A k node = .error e := by
  refine raises_of_not_resOk hin fun h => ?_
  cases h with
  | absent _ ho hs =>
    rcases hs with h | ⟨hk, h⟩
    · rw [hst] at h; simp at h
    · rw [hst] at h; simp at h; exact hx ⟨hk, h, ho⟩
  | present _ hs _ => have := hs.2; rw [hst] at this; simp at this; exact hne this
  | subAbsent => exact hleaf
  | sub => exact hleaf

/-- **C23.** With everything else intact, the error is `SchemaMismatchError` for that resource, or a decoding
error if the stored bytes are not UTF-8. -/
theorem C23_error_kind (A : ArchiveType) (k : StorageKind) (node node' : Node) (name : String) (sig : Sig)
    (hin : OnlyBad k node A.resources node' name sig) (hleaf : Leaf sig) (stored : Bytes) (hnil : stored ≠ [])
    (hst : node'.entry (name ++ ".schema") = some (.file stored)) (hne : stored ≠ encodeUtf8 sig.schema) :
    ((∃ text, stored = encodeUtf8 text) → openArchive A k node = .error (.schemaMismatch name)) ∧
    ((¬ ∃ text, stored = encodeUtf8 text) → openArchive A k node = .error .unicodeDecodeError) := by
  have hf : fetch k node' (name ++ ".schema") sig.isOptional = .ok (.bytes stored) :=
    fetch_ok_iff.mpr (.inr (.inl ⟨stored, ⟨hst, fun _ => hnil⟩, rfl⟩))
  constructor
  · rintro ⟨t, rfl⟩
    refine error_propagates hin ?_
    rw [openResource_leaf hleaf]
    have : t ≠ sig.schema := by rintro rfl; exact hne rfl
    simp only [checkSchema, hf, bind, Except.bind, hnil, if_false, (decodeUtf8_iff _ t).mpr rfl]
    simp [this, throw, throwThe, MonadExceptOf.throw]
  · intro hno
    refine error_propagates hin ?_
    rw [openResource_leaf hleaf]
    have : decodeUtf8 stored = .error .unicodeDecodeError := by
      cases hd : decodeUtf8 stored with
      | ok t => exact absurd ⟨t, (decodeUtf8_iff _ _).mp hd⟩ hno
      | error e =>
        unfold decodeUtf8 at hd; split at hd
        · simp [pure, Except.pure] at hd
        · cases hd; rfl
    simp only [checkSchema, hf, bind, Except.bind, hnil, if_false, this]

/-! ## C24 -/

/-- The files whose absence makes a required resource count as missing. -/
def requiredFiles (name : String) : Sig → List String
  | .multivector .. => [name ++ ".schema", name, name ++ "_index"]
  | .sub .. => [name]
  | _ => [name ++ ".schema", name]

/-- **C24.** If the schema, the data or (for a multivector) the index of a required resource is absent,
opening raises, at any depth. -/
theorem C24_missing_raises (A : ArchiveType) (k : StorageKind) (node node' : Node) (name : String) (sig : Sig)
    (hin : Inside node A.resources node' name sig) (hreq : sig.isOptional = false) (file : String)
    (hfile : file ∈ requiredFiles name sig) (habs : node'.entry file = none) :
    ∃ e, openArchive A k node = .error e := by
  refine raises_of_not_resOk hin fun h => ?_
  cases h with
  | absent _ ho _ => rw [hreq] at ho; simp at ho
  | present hl hs hd =>
    cases sig with
    | «instance» =>
      simp only [requiredFiles, List.mem_cons, List.not_mem_nil, or_false] at hfile
      obtain ⟨b, hb, _⟩ := hd
      rcases hfile with rfl | rfl
      · have := hs.2; rw [habs] at this; simp at this
      · have := hb.1; rw [habs] at this; simp at this
    | vector =>
      simp only [requiredFiles, List.mem_cons, List.not_mem_nil, or_false] at hfile
      obtain ⟨b, hb, _⟩ := hd
      rcases hfile with rfl | rfl
      · have := hs.2; rw [habs] at this; simp at this
      · have := hb.1; rw [habs] at this; simp at this
    | rawData =>
      simp only [requiredFiles, List.mem_cons, List.not_mem_nil, or_false] at hfile
      obtain ⟨b, hb, _⟩ := hd
      rcases hfile with rfl | rfl
      · have := hs.2; rw [habs] at this; simp at this
      · have := hb.1; rw [habs] at this; simp at this
    | multivector it ts sch o =>
      simp only [requiredFiles, List.mem_cons, List.not_mem_nil, or_false] at hfile
      obtain ⟨⟨b, hb, _⟩, hdata⟩ := hd
      simp only [Sig.isOptional] at hreq
      rcases hfile with rfl | rfl | rfl
      · have := hs.2; rw [habs] at this; simp at this
      · rcases hdata with ⟨b, h⟩ | ⟨e, h⟩ | ⟨h, -⟩
        · have := h.1; rw [habs] at this; simp at this
        · rw [habs] at h; simp at h
        · rw [hreq] at h; simp at h
      · have := hb.1; rw [habs] at this; simp at this
    | sub => exact absurd hl (by simp [Leaf])
  | subAbsent h => simp [Sig.isOptional] at hreq
  | sub h _ =>
    simp only [requiredFiles, List.mem_cons, List.not_mem_nil, or_false] at hfile
    subst hfile; rw [habs] at h; simp at h

/-- **C24.** With everything else intact, the error is `MissingResourceError`: for the schema file if that is
absent; for the data (the index is looked at first) if the schema is there. -/
theorem C24_error_kind (A : ArchiveType) (k : StorageKind) (node node' : Node) (name : String) (sig : Sig)
    (hin : OnlyBad k node A.resources node' name sig) (hreq : sig.isOptional = false) :
    (Leaf sig → node'.entry (name ++ ".schema") = none →
      openArchive A k node = .error (.missingResource (name ++ ".schema"))) ∧
    (Leaf sig → SchemaMatches node' name sig.schema → (∀ it ts sch o, sig ≠ .multivector it ts sch o) →
      node'.entry name = none → openArchive A k node = .error (.missingResource name)) ∧
    (∀ it ts sch o, sig = .multivector it ts sch o → SchemaMatches node' name sig.schema →
      node'.entry (name ++ "_index") = none →
      openArchive A k node = .error (.missingResource (name ++ "_index"))) ∧
    (∀ it ts sch o, sig = .multivector it ts sch o → SchemaMatches node' name sig.schema →
      (∃ b, HasFile k node' (name ++ "_index") b) → node'.entry name = none →
      openArchive A k node = .error (.missingResource name)) ∧
    (¬ Leaf sig → node'.entry name = none → openArchive A k node = .error (.missingResource name)) := by
  have hmiss : ∀ key, node'.entry key = none → fetch k node' key false = .error (.missingResource key) := by
    intro key h; simp only [fetch, h]; rfl
  refine ⟨fun hl h => ?_, fun hl hs hm h => ?_, ?_, ?_, fun hl h => ?_⟩
  · refine error_propagates hin ?_
    rw [openResource_leaf hl]
    simp only [checkSchema, hreq, hmiss _ h, bind, Except.bind]
  · refine error_propagates hin ?_
    rw [openResource_leaf hl, checkSchema_true_iff.mpr hs]
    cases sig with
    | «instance» | vector | rawData =>
      simp only [Sig.isOptional] at hreq
      subst hreq
      simp only [bind, Except.bind, if_true, openContainer, hmiss _ h]
    | multivector it ts sch o => exact absurd rfl (hm it ts sch o)
    | sub => exact absurd hl (by simp [Leaf])
  · rintro it ts sch o rfl hs h
    refine error_propagates hin ?_
    rw [openResource_leaf (by trivial), checkSchema_true_iff.mpr hs]
    simp only [Sig.isOptional] at hreq
    subst hreq
    simp only [bind, Except.bind, if_true, openContainer, hmiss _ h]
  · rintro it ts sch o rfl hs ⟨b, hb⟩ h
    refine error_propagates hin ?_
    rw [openResource_leaf (by trivial), checkSchema_true_iff.mpr hs]
    simp only [Sig.isOptional] at hreq
    subst hreq
    have hf : fetch k node' (name ++ "_index") false = .ok (.bytes b) := fetch_ok_iff.mpr (.inr (.inl ⟨b, hb, rfl⟩))
    simp only [bind, Except.bind, if_true, openContainer, hf, hmiss _ h]
  · refine error_propagates hin ?_
    cases sig with
    | sub n asch rs sch o =>
      simp only [Sig.isOptional] at hreq
      subst hreq
      simp only [openResource, hmiss _ h, bind, Except.bind]
    | _ => exact absurd trivial hl

/-- **C24.** If an optional resource has neither schema nor data (a sub-archive: no directory) and all other
resources are acceptable, the archive opens and the attribute is `None`. -/
theorem C24_optional_absent (A : ArchiveType) (k : StorageKind) (node : Node) (name : String) (sig : Sig)
    (hnd : (A.resources.map (·.1)).Nodup) (hm : (name, sig) ∈ A.resources) (hopt : sig.isOptional = true)
    (hs : node.entry (name ++ ".schema") = none) (hd : node.entry name = none)
    (hok : ∀ p ∈ A.resources, p.1 ≠ name → ResOk k node p.1 p.2) :
    ∃ l, openArchive A k node = .ok l ∧ l.lookup name = some .absent := by
  have habs : openResource k node name sig = .ok .absent := by
    by_cases hl : Leaf sig
    · rw [openResource_leaf hl, checkSchema_false_iff.mpr ⟨hopt, .inl hs⟩]; rfl
    · cases sig with
      | sub n asch rs sch o =>
        simp only [Sig.isOptional] at hopt
        subst hopt
        have hf : fetch k node name true = .ok .none := fetch_ok_iff.mpr (.inl ⟨hd, rfl, rfl⟩)
        simp only [openResource, hf, bind, Except.bind]; rfl
      | _ => exact absurd trivial hl
  have hall : ∀ p ∈ A.resources, ResOk k node p.1 p.2 := by
    intro p hp
    by_cases hn : p.1 = name
    · obtain ⟨n, s⟩ := p
      simp only at hn; subst hn
      have h1 := lookup_of_mem hnd hm
      rw [lookup_of_mem hnd hp] at h1
      cases h1
      exact resOk_of_openResource _ habs
    · exact hok p hp hn
  obtain ⟨l, hl⟩ := (C22_opens_iff A k node).mpr hall
  refine ⟨l, hl, ?_⟩
  obtain ⟨x, hx, hlook⟩ := loadAll_sorted_lookup hl hnd hm
  rw [habs] at hx
  cases hx
  exact hlook

end Props
