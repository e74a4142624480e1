import Verif.Model.Archive
import Verif.Lemmas.Payload
import Verif.Lemmas.Multi

namespace Model
open Py Spec

theorem decodeUtf8_iff (b : Bytes) (s : String) : decodeUtf8 b = .ok s ↔ b = encodeUtf8 s := by
  unfold decodeUtf8 encodeUtf8 String.fromUTF8?
  constructor
  · intro h
    split at h
    · rename_i s' hs'
      split at hs'
      · cases h
        simp only [Option.some.injEq] at hs'
        subst hs'
        simp [String.fromUTF8]
      · simp at hs'
    · exact absurd h (by simp [throw, throwThe, MonadExceptOf.throw])
  · rintro rfl
    have hv : ByteArray.IsValidUTF8 ⟨(s.toUTF8.data.toList).toArray⟩ := by
      have : (⟨(s.toUTF8.data.toList).toArray⟩ : ByteArray) = s.toByteArray := by simp
      rw [this]; exact s.isValidUTF8
    rw [dif_pos hv]
    simp [String.fromUTF8]
    rfl

theorem encodeUtf8_inj {s t : String} (h : encodeUtf8 s = encodeUtf8 t) : s = t := by
  have h1 := (decodeUtf8_iff (encodeUtf8 s) s).mpr rfl
  have h2 := (decodeUtf8_iff (encodeUtf8 s) t).mpr h
  rw [h1] at h2; exact Except.ok.inj h2

theorem encodeUtf8_ne_nil {s : String} (h : s ≠ "") : encodeUtf8 s ≠ [] := by
  intro e
  apply h
  apply encodeUtf8_inj
  rw [e]; rfl

/-! ## Sorting -/

theorem ins_perm {α} (p : String × α) (l : List (String × α)) : (sortByName.ins p l).Perm (p :: l) := by
  induction l with
  | nil => exact .refl _
  | cons q l ih =>
    simp only [sortByName.ins]
    split
    · exact .refl _
    · exact (List.Perm.cons q ih).trans (.swap p q l)

theorem sort_perm {α} (l : List (String × α)) : (sortByName l).Perm l := by
  induction l with
  | nil => exact .refl _
  | cons p l ih => exact (ins_perm p _).trans (.cons p ih)

theorem ins_sorted {α} (p : String × α) (l : List (String × α)) (h : l.Pairwise (fun a b => ¬ b.1 < a.1)) :
    (sortByName.ins p l).Pairwise (fun a b => ¬ b.1 < a.1) := by
  induction l with
  | nil => simp [sortByName.ins]
  | cons q l ih =>
    simp only [sortByName.ins]
    rw [List.pairwise_cons] at h
    split
    · rename_i hlt
      rw [List.pairwise_cons]
      refine ⟨?_, List.pairwise_cons.mpr h⟩
      intro b hb
      rcases List.mem_cons.mp hb with rfl | hb
      · exact fun h' => String.lt_asymm hlt h'
      · intro h'
        exact h.1 b hb (String.lt_trans h' hlt)
    · rename_i hlt
      rw [List.pairwise_cons]
      refine ⟨?_, ih h.2⟩
      intro b hb
      rcases List.mem_cons.mp ((ins_perm p l).subset hb) with rfl | hb
      · exact hlt
      · exact h.1 b hb

theorem sort_sorted {α} (l : List (String × α)) : (sortByName l).Pairwise (fun a b => ¬ b.1 < a.1) := by
  induction l with
  | nil => simp [sortByName]
  | cons p l ih => exact ins_sorted p _ ih

theorem ins_map {α β} (g : String × α → β) (p : String × α) (l : List (String × α)) :
    sortByName.ins (p.1, g p) (l.map fun q => (q.1, g q)) = (sortByName.ins p l).map fun q => (q.1, g q) := by
  induction l with
  | nil => rfl
  | cons q l ih =>
    simp only [sortByName.ins, List.map_cons]
    split
    · rfl
    · simp [ih]

theorem sort_map {α β} (g : String × α → β) (l : List (String × α)) :
    sortByName (l.map fun q => (q.1, g q)) = (sortByName l).map fun q => (q.1, g q) := by
  induction l with
  | nil => rfl
  | cons p l ih =>
    show sortByName.ins (p.1, g p) (sortByName (l.map _)) = (sortByName.ins p (sortByName l)).map _
    rw [ih, ins_map]

/-! ## Loading -/

theorem openResources_eq (k : StorageKind) (node : Node) (rs : List (String × Sig)) :
    openResources k node rs = rs.map fun p => (p.1, openResource k node p.1 p.2) := by
  induction rs with
  | nil => rfl
  | cons p rs ih => obtain ⟨n, s⟩ := p; simp only [openResources, ih, List.map_cons]

theorem loadAll_ok {l : List (String × M Loaded)} {r : List (String × Loaded)} :
    loadAll l = .ok r ↔ l = r.map fun p => (p.1, .ok p.2) := by
  induction l generalizing r with
  | nil => 
    simp only [loadAll, pure, Except.pure, Except.ok.injEq]
    constructor
    · rintro rfl; rfl
    · intro h; cases r with
      | nil => rfl
      | cons _ _ => simp at h
  | cons p l ih =>
    obtain ⟨n, x⟩ := p
    cases x with
    | error e =>
      simp only [loadAll, bind, Except.bind]
      constructor
      · intro h; simp at h
      · intro h; cases r <;> simp at h
    | ok v =>
      cases hl : loadAll l with
      | error e =>
        simp only [loadAll, bind, Except.bind, hl]
        constructor
        · intro h; simp at h
        · intro h
          cases r with
          | nil => simp at h
          | cons q r =>
            simp only [List.map_cons, List.cons.injEq] at h
            rw [ih.mpr h.2] at hl; simp at hl
      | ok r' =>
        simp only [loadAll, bind, Except.bind, hl, pure, Except.pure, Except.ok.injEq]
        have h' := ih.mp hl
        constructor
        · rintro rfl; simp [← h']
        · intro h
          cases r with
          | nil => simp at h
          | cons q r =>
            simp only [List.map_cons, List.cons.injEq, Prod.mk.injEq, Except.ok.injEq] at h
            have := ih.mpr h.2
            rw [hl] at this
            rw [Except.ok.inj this]
            obtain ⟨⟨h1, h2⟩, -⟩ := h
            rw [h1, h2]

theorem loadAll_isOk {l : List (String × M Loaded)} :
    (∃ r, loadAll l = .ok r) ↔ ∀ p ∈ l, ∃ x, p.2 = .ok x := by
  constructor
  · rintro ⟨r, h⟩ p hp
    rw [loadAll_ok.mp h] at hp
    obtain ⟨q, -, rfl⟩ := List.mem_map.mp hp
    exact ⟨_, rfl⟩
  · intro h
    induction l with
    | nil => exact ⟨[], rfl⟩
    | cons p l ih =>
      obtain ⟨x, hx⟩ := h p (by simp)
      obtain ⟨r, hr⟩ := ih fun q hq => h q (by simp [hq])
      obtain ⟨n, y⟩ := p
      simp only at hx; subst hx
      exact ⟨(n, x) :: r, by simp only [loadAll, bind, Except.bind, hr]; rfl⟩

/-- If every failure is `e`, so is the failure of loading. -/
theorem loadAll_error {l : List (String × M Loaded)} {e : Err} (h1 : ∃ p ∈ l, p.2 = .error e)
    (h2 : ∀ p ∈ l, p.2 = .error e ∨ ∃ x, p.2 = .ok x) : loadAll l = .error e := by
  induction l with
  | nil => simp at h1
  | cons p l ih =>
    obtain ⟨n, y⟩ := p
    rcases h2 (n, y) (by simp) with h | ⟨x, h⟩
    · simp only at h; subst h; rfl
    · simp only at h; subst h
      have : ∃ p ∈ l, p.2 = .error e := by
        obtain ⟨q, hq, he⟩ := h1
        rcases List.mem_cons.mp hq with rfl | hq
        · simp at he
        · exact ⟨q, hq, he⟩
      simp only [loadAll, bind, Except.bind, ih this fun q hq => h2 q (by simp [hq])]

theorem loadAll_lookup {l : List (String × M Loaded)} {r : List (String × Loaded)} (h : loadAll l = .ok r)
    (hnd : (l.map (·.1)).Nodup) {n : String} {y : M Loaded} (hm : (n, y) ∈ l) :
    ∃ x, y = .ok x ∧ r.lookup n = some x := by
  have := loadAll_ok.mp h
  subst this
  obtain ⟨q, hq, he⟩ := List.mem_map.mp hm
  simp only [Prod.mk.injEq] at he
  obtain ⟨rfl, rfl⟩ := he
  refine ⟨q.2, rfl, ?_⟩
  apply lookup_of_mem
  · rw [List.map_map] at hnd; exact hnd
  · exact hq

/-- The loaded resources of an archive, by name. -/
theorem loadAll_sorted_lookup {k : StorageKind} {node : Node} {rs : List (String × Sig)}
    {r : List (String × Loaded)} (h : loadAll (sortByName (openResources k node rs)) = .ok r)
    (hnd : (rs.map (·.1)).Nodup) {n : String} {sig : Sig} (hm : (n, sig) ∈ rs) :
    ∃ x, openResource k node n sig = .ok x ∧ r.lookup n = some x := by
  refine loadAll_lookup h ?_ ((sort_perm _).symm.subset ?_)
  · rw [((sort_perm _).map _).nodup_iff, openResources_eq, List.map_map]
    exact hnd
  · rw [openResources_eq]; exact List.mem_map.mpr ⟨_, hm, rfl⟩

theorem load_isOk {k : StorageKind} {node : Node} {rs : List (String × Sig)} :
    (∃ r, loadAll (sortByName (openResources k node rs)) = .ok r) ↔
      ∀ p ∈ rs, ∃ x, openResource k node p.1 p.2 = .ok x := by
  rw [loadAll_isOk]
  constructor
  · intro h p hp
    exact h (p.1, openResource k node p.1 p.2) ((sort_perm _).symm.subset (by
      rw [openResources_eq]; exact List.mem_map.mpr ⟨p, hp, rfl⟩))
  · intro h q hq
    have := (sort_perm _).subset hq
    rw [openResources_eq] at this
    obtain ⟨p, hp, rfl⟩ := List.mem_map.mp this
    exact h p hp

theorem load_error {k : StorageKind} {node : Node} {rs : List (String × Sig)} {e : Err}
    (h1 : ∃ p ∈ rs, openResource k node p.1 p.2 = .error e)
    (h2 : ∀ p ∈ rs, openResource k node p.1 p.2 = .error e ∨ ∃ x, openResource k node p.1 p.2 = .ok x) :
    loadAll (sortByName (openResources k node rs)) = .error e := by
  apply loadAll_error
  · obtain ⟨p, hp, he⟩ := h1
    exact ⟨_, (sort_perm _).symm.subset (by
      rw [openResources_eq]; exact List.mem_map.mpr ⟨p, hp, rfl⟩), he⟩
  · intro q hq
    have := (sort_perm _).subset hq
    rw [openResources_eq] at this
    obtain ⟨p, hp, rfl⟩ := List.mem_map.mp this
    exact h2 p hp

end Model
