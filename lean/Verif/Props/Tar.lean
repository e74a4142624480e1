import Verif.Spec.Tar
import Verif.Props.Archive
import Mathlib.Data.List.Induction
import Mathlib.Data.List.Nodup

/-!
# C36, C37: a tar storage behaves like the directory it was made from
-/

namespace Props
open Py Spec Model

/-! ## Path texts -/

theorem pathText_nil : pathText [] = [] := rfl
theorem pathText_one (n : String) : pathText [n] = n.toList := by simp [pathText, List.intercalate]
theorem pathText_cons (n m : String) (p : List String) :
    pathText (n :: m :: p) = n.toList ++ '/' :: pathText (m :: p) := by
  simp [pathText, List.intercalate]

theorem slash_split {a b x y : List Char} (ha : '/' ∉ a) (hb : '/' ∉ b) (h : a ++ '/' :: x = b ++ '/' :: y) :
    a = b ∧ x = y := by
  induction a generalizing b with
  | nil =>
    cases b with
    | nil => simpa using h
    | cons c b => simp at h; exact absurd h.1 (by rintro rfl; simp at hb)
  | cons c a ih =>
    cases b with
    | nil => simp at h; exact absurd h.1.symm (by rintro rfl; simp at ha)
    | cons d b =>
      simp only [List.cons_append, List.cons.injEq] at h
      obtain ⟨e1, e2⟩ := ih (by simp at ha; tauto) (by simp at hb; tauto) h.2
      exact ⟨by rw [h.1, e1], e2⟩

theorem no_slash_ne {a b x : List Char} (ha : '/' ∉ a) : a ≠ b ++ '/' :: x := by
  rintro rfl; simp at ha

theorem pathText_ne_nil {p : List String} (hp : p ≠ []) (h : ∀ n ∈ p, PlainName n) : pathText p ≠ [] := by
  match p, hp with
  | [n], _ =>
    rw [pathText_one]
    intro e
    exact (h n (by simp)).1 (String.toList_eq_nil_iff.mp e)
  | n :: m :: p, _ => rw [pathText_cons]; simp

theorem pathText_inj {p q : List String} (hp : ∀ n ∈ p, PlainName n) (hq : ∀ n ∈ q, PlainName n)
    (h : pathText p = pathText q) : p = q := by
  induction p generalizing q with
  | nil =>
    by_contra hne
    exact pathText_ne_nil (fun e => hne e.symm) hq h.symm
  | cons n p ih =>
    have hn := (hp n (by simp)).2.2
    cases q with
    | nil => exact absurd h (pathText_ne_nil (by simp) hp)
    | cons m q =>
      have hm := (hq m (by simp)).2.2
      match p, q with
      | [], [] =>
        rw [pathText_one, pathText_one, String.toList_inj] at h
        rw [h]
      | [], m' :: q => rw [pathText_one, pathText_cons] at h; exact absurd h (no_slash_ne hn)
      | n' :: p, [] => rw [pathText_one, pathText_cons] at h; exact absurd h.symm (no_slash_ne hm)
      | n' :: p, m' :: q =>
        rw [pathText_cons, pathText_cons] at h
        obtain ⟨h1, h2⟩ := slash_split hn hm h
        rw [String.toList_inj] at h1
        rw [h1, ih (fun k hk => hp k (by simp [hk])) (fun k hk => hq k (by simp [hk])) h2]

theorem pathText_snoc (p : List String) (n : String) (hp : p ≠ []) :
    pathText (p ++ [n]) = pathText p ++ '/' :: n.toList := by
  match p, hp with
  | [m], _ => simp [pathText_one, pathText_cons]
  | m :: m' :: p, _ =>
    have := pathText_snoc (m' :: p) n (by simp)
    rw [List.cons_append, List.cons_append, pathText_cons, ← List.cons_append, this, pathText_cons]
    simp

theorem stripDot_plain {p : List String} (h : ∀ n ∈ p, PlainName n) : stripDot (pathText p) = pathText p := by
  unfold stripDot
  split
  · rename_i rest e
    exfalso
    match p with
    | [] => simp [pathText_nil] at e
    | [n] =>
      rw [pathText_one] at e
      exact (h n (by simp)).2.2 (by rw [e]; simp)
    | n :: m :: p =>
      rw [pathText_cons] at e
      have e' : n.toList ++ '/' :: pathText (m :: p) = ['.'] ++ '/' :: rest := e
      obtain ⟨h1, -⟩ := slash_split (h n (by simp)).2.2 (by decide) e'
      refine (h n (by simp)).2.1 ?_
      rw [← String.toList_inj, h1]; rfl
  · rfl

theorem pathText_ne_dot {p : List String} (h : ∀ n ∈ p, PlainName n) : pathText p ≠ ['.'] := by
  intro e
  match p with
  | [] => simp [pathText_nil] at e
  | [n] =>
    rw [pathText_one] at e
    refine (h n (by simp)).2.1 ?_
    rw [← String.toList_inj, e]; rfl
  | n :: m :: p =>
    rw [pathText_cons] at e
    exact absurd e.symm (no_slash_ne (by decide))

/-! ## The loop over the members -/

theorem entrySet_lookup {α} (d : List (List Char × α)) (k m : List Char) (v : α) :
    (entrySet d k v).lookup m = if m = k then some v else d.lookup m := by
  induction d with
  | nil =>
    simp only [entrySet, List.lookup_cons, List.lookup_nil]
    by_cases h : m = k
    · simp [h]
    · have hb : (m == k) = false := by simp only [beq_eq_false_iff_ne]; exact h
      simp [h, hb]
  | cons q d ih =>
    obtain ⟨a, b⟩ := q
    simp only [entrySet]
    by_cases h : a = k
    · subst h
      simp only [if_true, List.lookup_cons]
      by_cases hm : m = a
      · simp [hm]
      · have hb : (m == a) = false := by simp only [beq_eq_false_iff_ne]; exact hm
        simp [hm, hb]
    · simp only [h, if_false, List.lookup_cons, ih]
      by_cases hm : m = a
      · subst hm; simp [h]
      · have hb : (m == a) = false := by simp only [beq_eq_false_iff_ne]; exact hm
        simp [hb]

theorem entrySet_keys {α} (d : List (List Char × α)) (k : List Char) (v : α) (h : (d.map (·.1)).Nodup) :
    ((entrySet d k v).map (·.1)).Nodup ∧ ∀ m, m ∈ (entrySet d k v).map (·.1) ↔ m = k ∨ m ∈ d.map (·.1) := by
  induction d with
  | nil => simp [entrySet]
  | cons q d ih =>
    obtain ⟨a, b⟩ := q
    simp only [List.map_cons, List.nodup_cons] at h
    obtain ⟨h1, h2⟩ := ih h.2
    simp only [entrySet]
    by_cases hk : a = k
    · subst hk
      simp only [if_true, List.map_cons, List.nodup_cons, List.mem_cons]
      exact ⟨h, fun m => by tauto⟩
    · rw [if_neg hk]
      simp only [List.map_cons, List.nodup_cons, List.mem_cons, h2]
      refine ⟨⟨?_, h1⟩, fun m => by tauto⟩
      rintro (e | e)
      · exact hk e
      · exact h.1 e

theorem setAdd_props (s : List (List Char)) (k : List Char) (h : s.Nodup) :
    (setAdd s k).Nodup ∧ ∀ m, m ∈ setAdd s k ↔ m = k ∨ m ∈ s := by
  unfold setAdd
  split
  · rename_i hk; exact ⟨h, fun m => ⟨.inr, fun e => by rcases e with rfl | e <;> assumption⟩⟩
  · rename_i hk
    refine ⟨List.nodup_append.mpr ⟨h, by simp, fun a ha b hb => ?_⟩, fun m => by simp [or_comm]⟩
    simp at hb; subst hb; rintro rfl; exact hk ha

theorem scan_spec (ms : List Member) (files : List (List Char × (Nat × Nat))) (dirs : List (List Char))
    (hs : ∀ m ∈ ms, m.kind ≠ .sparse) (hf : (files.map (·.1)).Nodup) (hd : dirs.Nodup) :
    ∃ files' dirs', scanMembers ms files dirs = .ok (files', dirs') ∧ (files'.map (·.1)).Nodup ∧ dirs'.Nodup ∧
      (∀ k v, files'.lookup k = some v → files.lookup k = some v ∨
        ∃ m ∈ ms, m.kind = .reg ∧ stripDot m.name = k ∧ v = (m.offset, m.size)) ∧
      (∀ k, k ∈ files'.map (·.1) ↔ k ∈ files.map (·.1) ∨ ∃ m ∈ ms, m.kind = .reg ∧ stripDot m.name = k) ∧
      (∀ k, k ∈ dirs' ↔ k ∈ dirs ∨ ∃ m ∈ ms, m.kind = .dir ∧ stripDot m.name = k ∧ k ≠ ['.']) := by
  induction ms generalizing files dirs with
  | nil => exact ⟨files, dirs, rfl, hf, hd, by simp, by simp, by simp⟩
  | cons m ms ih =>
    have hsp := hs m (by simp)
    have hs' : ∀ m ∈ ms, m.kind ≠ .sparse := fun m h => hs m (by simp [h])
    simp only [scanMembers, hsp, if_false]
    by_cases hr : m.kind = .reg
    · obtain ⟨h1, h2⟩ := entrySet_keys files (stripDot m.name) (m.offset, m.size) hf
      obtain ⟨f', d', e, g1, g2, g3, g4, g5⟩ := ih (entrySet files (stripDot m.name) (m.offset, m.size)) dirs hs' h1 hd
      have hnd : ¬ m.kind = .dir := by simp [hr]
      simp only [hr, if_true, reduceCtorEq, false_and, if_false]
      refine ⟨f', d', e, g1, g2, fun k v hv => ?_, fun k => ?_, fun k => ?_⟩
      · rcases g3 k v hv with h | ⟨x, hx, h⟩
        · rw [entrySet_lookup] at h
          split at h
          · rename_i hk
            simp at h
            exact .inr ⟨m, by simp, hr, hk.symm, h.symm⟩
          · exact .inl h
        · exact .inr ⟨x, by simp [hx], h⟩
      · rw [g4, h2]
        constructor
        · rintro ((rfl | h) | ⟨x, hx, h⟩)
          · exact .inr ⟨m, by simp, hr, rfl⟩
          · exact .inl h
          · exact .inr ⟨x, by simp [hx], h⟩
        · rintro (h | ⟨x, hx, h⟩)
          · exact .inl (.inr h)
          · rcases List.mem_cons.mp hx with rfl | hx
            · exact .inl (.inl h.2.symm)
            · exact .inr ⟨x, hx, h⟩
      · rw [g5]
        constructor
        · rintro (h | ⟨x, hx, h⟩)
          · exact .inl h
          · exact .inr ⟨x, by simp [hx], h⟩
        · rintro (h | ⟨x, hx, h⟩)
          · exact .inl h
          · rcases List.mem_cons.mp hx with rfl | hx
            · exact absurd h.1 hnd
            · exact .inr ⟨x, hx, h⟩
    · simp only [hr, if_false]
      have hfiles : ∀ f' : List (List Char × (Nat × Nat)), (∀ k, k ∈ f'.map (·.1) ↔ k ∈ files.map (·.1) ∨
          ∃ m ∈ ms, m.kind = .reg ∧ stripDot m.name = k) → ∀ k, k ∈ f'.map (·.1) ↔ k ∈ files.map (·.1) ∨
          ∃ x ∈ m :: ms, x.kind = .reg ∧ stripDot x.name = k := by
        intro f' g k
        rw [g]
        constructor
        · rintro (h | ⟨x, hx, h⟩)
          · exact .inl h
          · exact .inr ⟨x, by simp [hx], h⟩
        · rintro (h | ⟨x, hx, h⟩)
          · exact .inl h
          · rcases List.mem_cons.mp hx with rfl | hx
            · exact absurd h.1 hr
            · exact .inr ⟨x, hx, h⟩
      by_cases hd' : m.kind = .dir ∧ stripDot m.name ≠ ['.']
      · obtain ⟨h1, h2⟩ := setAdd_props dirs (stripDot m.name) hd
        obtain ⟨f', d', e, g1, g2, g3, g4, g5⟩ := ih files (setAdd dirs (stripDot m.name)) hs' hf h1
        rw [if_pos hd']
        refine ⟨f', d', e, g1, g2, fun k v hv => ?_, hfiles f' g4, fun k => ?_⟩
        · rcases g3 k v hv with h | ⟨x, hx, h⟩
          · exact .inl h
          · exact .inr ⟨x, by simp [hx], h⟩
        · rw [g5, h2]
          constructor
          · rintro ((rfl | h) | ⟨x, hx, h⟩)
            · exact .inr ⟨m, by simp, hd'.1, rfl, hd'.2⟩
            · exact .inl h
            · exact .inr ⟨x, by simp [hx], h⟩
          · rintro (h | ⟨x, hx, h⟩)
            · exact .inl (.inr h)
            · rcases List.mem_cons.mp hx with rfl | hx
              · exact .inl (.inl h.2.1.symm)
              · exact .inr ⟨x, hx, h⟩
      · obtain ⟨f', d', e, g1, g2, g3, g4, g5⟩ := ih files dirs hs' hf hd
        rw [if_neg hd']
        refine ⟨f', d', e, g1, g2, fun k v hv => ?_, hfiles f' g4, fun k => ?_⟩
        · rcases g3 k v hv with h | ⟨x, hx, h⟩
          · exact .inl h
          · exact .inr ⟨x, by simp [hx], h⟩
        · rw [g5]
          constructor
          · rintro (h | ⟨x, hx, h⟩)
            · exact .inl h
            · exact .inr ⟨x, by simp [hx], h⟩
          · rintro (h | ⟨x, hx, h⟩)
            · exact .inl h
            · rcases List.mem_cons.mp hx with rfl | hx
              · exact absurd ⟨h.1, by rw [h.2.1]; exact h.2.2⟩ hd'
              · exact .inr ⟨x, hx, h⟩

/-! ## C36 -/

theorem nodeAt_append (root : Node) (p q : List String) :
    nodeAt root (p ++ q) = (nodeAt root p).bind fun x => nodeAt x q := by
  induction p generalizing root with
  | nil => rfl
  | cons n p ih =>
    simp only [List.cons_append, nodeAt]
    cases root.entry n with
    | none => rfl
    | some c => exact ih c

theorem nodeAt_snoc (root : Node) (p : List String) (n : String) :
    nodeAt root (p ++ [n]) = (nodeAt root p).bind fun x => x.entry n := by
  rw [nodeAt_append]
  congr 1
  funext x
  simp only [nodeAt]
  cases x.entry n <;> rfl

theorem plain_path {root : Node} (h : PlainTree root) (p : List String) {x : Node} (hx : nodeAt root p = some x) :
    ∀ n ∈ p, PlainName n := by
  induction p using List.reverseRecOn generalizing x with
  | nil => simp
  | append_singleton p n ih =>
    rw [nodeAt_snoc] at hx
    cases hp : nodeAt root p with
    | none => rw [hp] at hx; simp at hx
    | some y =>
      rw [hp] at hx
      simp only [Option.bind_some] at hx
      intro m hm
      rcases List.mem_append.mp hm with hm | hm
      · exact ih hp m hm
      · simp at hm; subst hm
        cases y with
        | file b => simp [Node.entry] at hx
        | dir e => exact h p e _ x hp hx

/-- What a listing tells about the storage created from it. -/
structure Indexed (tarMap : Bytes) (root : Node) (s : TarStorage) : Prop where
  map : s.tarMap = tarMap
  keys : (s.fileEntries.map (·.1)).Nodup
  dirsNodup : s.dirEntries.Nodup
  files : ∀ k v, s.fileEntries.lookup k = some v → ∃ p, p ≠ [] ∧ k = pathText p ∧
    nodeAt root p = some (.file ((tarMap.drop v.1).take v.2))
  dirs : ∀ k, k ∈ s.dirEntries ↔ ∃ p e, p ≠ [] ∧ k = pathText p ∧ nodeAt root p = some (.dir e)
  fileKeys : ∀ k, k ∈ s.fileEntries.map (·.1) ↔ ∃ p b, p ≠ [] ∧ k = pathText p ∧ nodeAt root p = some (.file b)

theorem tar_lookup_isSome_iff {α} (l : List (List Char × α)) (k : List Char) : l.lookup k = none ↔ k ∉ l.map (·.1) := by
  induction l with
  | nil => simp
  | cons q l ih =>
    obtain ⟨a, b⟩ := q
    rw [List.lookup_cons]
    by_cases h : k = a
    · subst h; simp
    · have hb : (k == a) = false := by simp only [beq_eq_false_iff_ne]; exact h
      simp [hb, ih, h]

theorem create_indexed {tarMap : Bytes} {members : List Member} {root : Node} (h : TarOf tarMap members root) :
    ∃ s, TarStorage.create tarMap members = .ok s ∧ s.subPath = [] ∧ Indexed tarMap root s := by
  have hs : ∀ m ∈ members, m.kind ≠ .sparse := by
    intro m hm e
    rcases h.sound m hm with ⟨h1, -⟩ | ⟨p, -, -, ⟨h1, -⟩ | ⟨h1, -⟩⟩ <;> rw [h1] at e <;> simp at e
  obtain ⟨f, d, e, g1, g2, g3, g4, g5⟩ := scan_spec members [] [] hs (by simp) (by simp)
  -- the member under its path
  have hname : ∀ (m : Member) (p : List String) (x : Node), nodeAt root p = some x →
      (m.name = pathText p ∨ m.name = '.' :: '/' :: pathText p) → stripDot m.name = pathText p := by
    intro m p x hx hn
    have hpl := plain_path h.plain p hx
    rcases hn with hn | hn
    · rw [hn, stripDot_plain hpl]
    · rw [hn]; rfl
  have hreg : ∀ m ∈ members, m.kind = .reg → ∃ p, p ≠ [] ∧ stripDot m.name = pathText p ∧
      nodeAt root p = some (.file ((tarMap.drop m.offset).take m.size)) := by
    intro m hm hk
    rcases h.sound m hm with ⟨h1, -⟩ | ⟨p, hp, hn, ⟨-, h2⟩ | ⟨h1, -⟩⟩
    · rw [hk] at h1; simp at h1
    · exact ⟨p, hp, hname m p _ h2 hn, h2⟩
    · rw [hk] at h1; simp at h1
  have hdir : ∀ m ∈ members, m.kind = .dir → stripDot m.name ≠ ['.'] → ∃ p e, p ≠ [] ∧ stripDot m.name = pathText p ∧
      nodeAt root p = some (.dir e) := by
    intro m hm hk hne
    rcases h.sound m hm with ⟨-, h1⟩ | ⟨p, hp, hn, ⟨h1, -⟩ | ⟨-, e, h2⟩⟩
    · rw [h1] at hne; exact absurd rfl hne
    · rw [hk] at h1; simp at h1
    · exact ⟨p, e, hp, hname m p _ h2 hn, h2⟩
  -- every path has a member of the right kind
  have hmem : ∀ p x, p ≠ [] → nodeAt root p = some x → ∃ m ∈ members, stripDot m.name = pathText p ∧
      ((m.kind = .reg ∧ ∃ b, x = .file b) ∨ (m.kind = .dir ∧ ∃ e, x = .dir e)) := by
    intro p x hp hx
    obtain ⟨m, hm, hn⟩ := h.complete p x hp hx
    have hst := hname m p x hx hn
    refine ⟨m, hm, hst, ?_⟩
    have hpl := plain_path h.plain p hx
    rcases h.sound m hm with ⟨-, h1⟩ | ⟨q, hq, hn', h2⟩
    · exfalso
      rw [h1] at hst
      exact pathText_ne_dot hpl hst.symm
    · have hq' : ∃ y, nodeAt root q = some y := by
        rcases h2 with ⟨-, h2⟩ | ⟨-, e, h2⟩ <;> exact ⟨_, h2⟩
      obtain ⟨y, hy⟩ := hq'
      have hpq : p = q := by
        refine pathText_inj hpl (plain_path h.plain q hy) ?_
        rw [← hst, hname m q y hy hn']
      subst hpq
      rcases h2 with ⟨hk, h2⟩ | ⟨hk, e, h2⟩
      · rw [hx] at h2; simp at h2; exact .inl ⟨hk, _, h2⟩
      · rw [hx] at h2; simp at h2; exact .inr ⟨hk, _, h2⟩
  refine ⟨⟨tarMap, f, d, []⟩, by simp only [TarStorage.create, e, bind, Except.bind]; rfl, rfl, rfl, g1, g2, ?_, ?_, ?_⟩
  · intro k v hv
    rcases g3 k v hv with h | ⟨m, hm, hk, hn, rfl⟩
    · simp at h
    · obtain ⟨p, hp, h1, h2⟩ := hreg m hm hk
      exact ⟨p, hp, by rw [← hn, h1], h2⟩
  · intro k
    rw [g5]
    constructor
    · rintro (h | ⟨m, hm, hk, hn, hne⟩)
      · simp at h
      · obtain ⟨p, e, hp, h1, h2⟩ := hdir m hm hk (by rw [hn]; exact hne)
        exact ⟨p, e, hp, by rw [← hn, h1], h2⟩
    · rintro ⟨p, e, hp, rfl, hx⟩
      obtain ⟨m, hm, hn, ⟨-, b, hb⟩ | ⟨hk, -⟩⟩ := hmem p _ hp hx
      · simp at hb
      · exact .inr ⟨m, hm, hk, hn, pathText_ne_dot (plain_path h.plain p hx)⟩
  · intro k
    rw [g4]
    constructor
    · rintro (h | ⟨m, hm, hk, hn⟩)
      · simp at h
      · obtain ⟨p, hp, h1, h2⟩ := hreg m hm hk
        exact ⟨p, _, hp, by rw [← hn, h1], h2⟩
    · rintro ⟨p, b, hp, rfl, hx⟩
      obtain ⟨m, hm, hn, ⟨hk, -⟩ | ⟨-, e, he⟩⟩ := hmem p _ hp hx
      · exact .inr ⟨m, hm, hk, hn⟩
      · simp at he

/-- `s` is the tar storage, and `node` the directory, reached from `S` and `root` by the same sequence of `get`s. -/
inductive Reached (S : TarStorage) (root : Node) : TarStorage → Node → Prop
  | start : Reached S root S root
  | enter {s s' : TarStorage} {node node' : Node} {key : String} {o o' : Bool} : Reached S root s node → PlainName key →
      s.get key o = .ok (.storage s') → fetch .files node key o' = .ok (.storage node') → Reached S root s' node'

/-- The tar storage returns the same as the file storage; an empty file gives an empty buffer instead of mmap's
`ValueError`. -/
def SameResult : M TarFetched → M Fetched → Prop
  | .ok .none, .ok .none => True
  | .ok (.bytes b), .ok (.bytes c) => b = c
  | .ok (.bytes b), .error .valueError => b = []
  | .ok (.storage _), .ok (.storage _) => True
  | .error e, .error e' => e = e'
  | _, _ => False

/-- The storage for the directory at `p`. -/
structure At (tarMap : Bytes) (root : Node) (p : List String) (s : TarStorage) (node : Node) : Prop where
  indexed : Indexed tarMap root s
  sub : s.subPath = pathText p
  here : nodeAt root p = some node
  dir : ∃ e, node = .dir e

theorem at_path {tarMap : Bytes} {root : Node} {p : List String} {s : TarStorage} {node : Node} (hpl : PlainTree root)
    (h : At tarMap root p s node) (key : String) : s.path key.toList = pathText (p ++ [key]) := by
  unfold TarStorage.path
  rw [h.sub]
  by_cases hp : p = []
  · subst hp; simp [pathText_nil, pathText_one]
  · rw [if_neg (pathText_ne_nil hp (plain_path hpl p h.here)), pathText_snoc _ _ hp]

theorem at_get {tarMap : Bytes} {root : Node} {p : List String} {s : TarStorage} {node : Node} (hpl : PlainTree root)
    (h : At tarMap root p s node) {key : String} (hk : PlainName key) (o : Bool) :
    match node.entry key with
    | some (.file b) => s.get key o = .ok (.bytes b)
    | some (.dir e) => s.get key o = .ok (.storage { s with subPath := pathText (p ++ [key]) }) ∧
        At tarMap root (p ++ [key]) { s with subPath := pathText (p ++ [key]) } (.dir e)
    | none => s.get key o = if o then .ok .none else .error (.missingResource key) := by
  have hpath := at_path hpl h key
  have hat : nodeAt root (p ++ [key]) = node.entry key := by rw [nodeAt_snoc, h.here]; rfl
  have hplp : ∀ n ∈ p ++ [key], PlainName n := by
    intro n hn
    rcases List.mem_append.mp hn with hn | hn
    · exact plain_path hpl p h.here n hn
    · simp at hn; subst hn; exact hk
  have uniq : ∀ q x, nodeAt root q = some x → pathText (p ++ [key]) = pathText q → node.entry key = some x := by
    intro q x hx he
    rw [← hat, pathText_inj hplp (plain_path hpl q hx) he]; exact hx
  cases hl : s.fileEntries.lookup (pathText (p ++ [key])) with
  | some v =>
    obtain ⟨q, -, hq, hx⟩ := h.indexed.files _ v hl
    have he := uniq q _ hx hq
    rw [he]
    simp only [TarStorage.get, hpath, hl, h.indexed.map]; rfl
  | none =>
    have hnf : ∀ b, node.entry key ≠ some (.file b) := by
      intro b hb
      rw [tar_lookup_isSome_iff] at hl
      exact hl ((h.indexed.fileKeys _).mpr ⟨p ++ [key], b, by simp, rfl, by rw [hat, hb]⟩)
    by_cases hd : pathText (p ++ [key]) ∈ s.dirEntries
    · obtain ⟨q, e, -, hq, hx⟩ := (h.indexed.dirs _).mp hd
      have he := uniq q _ hx hq
      rw [he]
      refine ⟨by simp only [TarStorage.get, hpath, hl, hd, if_true]; rfl, ?_⟩
      exact ⟨⟨h.indexed.map, h.indexed.keys, h.indexed.dirsNodup, h.indexed.files, h.indexed.dirs, h.indexed.fileKeys⟩, rfl,
        by rw [hat, he], e, rfl⟩
    · have hn : node.entry key = none := by
        cases he : node.entry key with
        | none => rfl
        | some x =>
          cases x with
          | file b => exact absurd he (hnf b)
          | dir e => exact absurd ((h.indexed.dirs _).mpr ⟨p ++ [key], e, by simp, rfl, by rw [hat, he]⟩) hd
      rw [hn]
      simp only [TarStorage.get, hpath, hl, hd, if_false]
      cases o <;> rfl

theorem reached_at {tarMap : Bytes} {root : Node} (hpl : PlainTree root) {S s : TarStorage} {node : Node}
    (hS : At tarMap root [] S root) (h : Reached S root s node) : ∃ p, At tarMap root p s node := by
  induction h with
  | start => exact ⟨[], hS⟩
  | @enter s s' node node' key o o' hr hk hg hf ih =>
    obtain ⟨p, hp⟩ := ih
    have hget := at_get hpl hp hk o
    rcases fetch_ok_iff.mp hf with ⟨-, -, e⟩ | ⟨b, -, e⟩ | ⟨e, he, e'⟩
    · simp at e
    · simp at e
    · simp at e'; subst e'
      rw [he] at hget
      rw [hget.1] at hg
      simp at hg; subst hg
      exact ⟨_, hget.2⟩

/-- **C36.** A tar storage made from any tar listing of a directory tree (any order of members, with or without `./`,
with repetitions) behaves like the file storage of that directory: the storage can be created, and after following the
same keys in both, at any depth, `get` of any key with or without `is_optional` has the same result. -/
theorem C36_tar_like_directory (tarMap : Bytes) (members : List Member) (root : Node) (h : TarOf tarMap members root) :
    ∃ S, TarStorage.create tarMap members = .ok S ∧
      ∀ s node, Reached S root s node → ∀ key, PlainName key → ∀ o,
        SameResult (s.get key o) (fetch .files node key o) := by
  obtain ⟨S, e, hsub, hi⟩ := create_indexed h
  refine ⟨S, e, fun s node hr key hk o => ?_⟩
  obtain ⟨p, hp⟩ := reached_at h.plain ⟨hi, hsub, rfl, h.isDir⟩ hr
  have hget := at_get h.plain hp hk o
  unfold fetch
  cases he : node.entry key with
  | none =>
    rw [he] at hget
    simp only at hget ⊢
    rw [hget]
    cases o
    · exact rfl
    · exact trivial
  | some x =>
    cases x with
    | file b =>
      rw [he] at hget
      simp only at hget ⊢
      rw [hget]
      by_cases hb : b = []
      · simp [hb, SameResult, throw, throwThe, MonadExceptOf.throw]
      · simp [hb, SameResult, pure, Except.pure]
    | dir e =>
      rw [he] at hget
      simp only at hget ⊢
      rw [hget.1]
      exact trivial

/-- **C36.** The archive reader's model of a tar storage (`fetch .tar`, used by C22 to C27 and C32) is this storage. -/
theorem C36_refines_fetch (tarMap : Bytes) (members : List Member) (root : Node) (h : TarOf tarMap members root) :
    ∃ S, TarStorage.create tarMap members = .ok S ∧
      ∀ s node, Reached S root s node → ∀ key, PlainName key → ∀ o,
        match s.get key o, fetch .tar node key o with
        | .ok .none, .ok .none => True
        | .ok (.bytes b), .ok (.bytes c) => b = c
        | .ok (.storage s'), .ok (.storage node') => Reached S root s' node'
        | .error e, .error e' => e = e'
        | _, _ => False := by
  obtain ⟨S, e, hsub, hi⟩ := create_indexed h
  refine ⟨S, e, fun s node hr key hk o => ?_⟩
  obtain ⟨p, hp⟩ := reached_at h.plain ⟨hi, hsub, rfl, h.isDir⟩ hr
  have hget := at_get h.plain hp hk o
  cases he : node.entry key with
  | none =>
    rw [he] at hget
    simp only [fetch, he] at hget ⊢
    rw [hget]
    cases o
    · exact rfl
    · exact trivial
  | some x =>
    cases x with
    | file b =>
      rw [he] at hget
      simp only [fetch, he] at hget ⊢
      rw [hget]
      simp [pure, Except.pure]
    | dir e =>
      rw [he] at hget
      simp only [fetch, he] at hget ⊢
      rw [hget.1]
      exact .enter hr hk hget.1 (by unfold fetch; rw [he]; rfl : fetch .files node key o = .ok (.storage (.dir e)))

/-! ## C37 -/

theorem childName_eq {pre d n : List Char} : childName pre d = some n ↔ d = pre ++ n ∧ '/' ∉ n := by
  unfold childName
  constructor
  · intro h
    split at h
    · rename_i hc
      obtain ⟨⟨t, rfl⟩, h2⟩ := hc
      simp at h h2; subst h; exact ⟨rfl, h2⟩
    · simp at h
  · rintro ⟨rfl, h⟩
    simp [h]

theorem at_prefix {tarMap : Bytes} {root : Node} {p : List String} {s : TarStorage} {node : Node} (hpl : PlainTree root)
    (h : At tarMap root p s node) {q : List String} (hq : ∀ n ∈ q, PlainName n) (hqn : q ≠ []) {n : List Char} :
    pathText q = s.path [] ++ n ∧ '/' ∉ n ↔ ∃ k, q = p ++ [k] ∧ n = k.toList := by
  have hpp := plain_path hpl p h.here
  have hsub := h.sub
  constructor
  · rintro ⟨h1, h2⟩
    by_cases hp : p = []
    · subst hp
      rw [pathText_nil] at hsub
      unfold TarStorage.path at h1
      rw [if_pos hsub] at h1
      simp only [List.nil_append] at h1
      match q, hqn with
      | [k], _ => exact ⟨k, rfl, by rw [← h1, pathText_one]⟩
      | a :: b :: q, _ => rw [pathText_cons] at h1; exact absurd h1.symm (no_slash_ne h2)
    · unfold TarStorage.path at h1
      rw [if_neg (by rw [hsub]; exact pathText_ne_nil hp hpp), hsub] at h1
      have h3 : pathText q = pathText p ++ '/' :: n := by rw [h1]; simp
      clear hsub h h1
      have h1 := h3
      clear h3
      induction p generalizing q with
      | nil => exact absurd rfl hp
      | cons a p ih =>
        match q, hqn with
        | [k], _ =>
          rw [pathText_one] at h1
          exact absurd h1 (no_slash_ne (hq k (by simp)).2.2)
        | b :: c :: q, _ =>
          rw [pathText_cons] at h1
          match p with
          | [] =>
            rw [pathText_one] at h1
            obtain ⟨e1, e2⟩ := slash_split (hq b (by simp)).2.2 (hpp a (by simp)).2.2 h1
            rw [String.toList_inj] at e1
            subst e1
            match q with
            | [] => exact ⟨c, rfl, by rw [← e2, pathText_one]⟩
            | d :: q => rw [pathText_cons] at e2; exact absurd e2.symm (no_slash_ne h2)
          | a' :: p =>
            rw [pathText_cons, List.append_assoc, List.cons_append] at h1
            obtain ⟨e1, e2⟩ := slash_split (hq b (by simp)).2.2 (hpp a (by simp)).2.2 h1
            rw [String.toList_inj] at e1
            subst e1
            obtain ⟨k, hk, hn⟩ := ih (q := c :: q) (fun n hn => hq n (List.mem_cons_of_mem _ hn)) (by simp)
              (fun n hn => hpp n (List.mem_cons_of_mem _ hn)) (by simp) e2
            exact ⟨k, by rw [hk]; rfl, hn⟩
  · rintro ⟨k, rfl, rfl⟩
    refine ⟨?_, (hq k (by simp)).2.2⟩
    rw [← at_path hpl h k]
    unfold TarStorage.path
    split <;> simp

/-- **C37.** `ls` of the tar storage, and of every storage reached from it, lists exactly the entries of the
corresponding directory, each once. -/
theorem C37_ls_lists_directory (tarMap : Bytes) (members : List Member) (root : Node) (h : TarOf tarMap members root) :
    ∃ S, TarStorage.create tarMap members = .ok S ∧
      ∀ s node, Reached S root s node →
        s.ls.Nodup ∧ (∀ n : String, n.toList ∈ s.ls ↔ ∃ x, node.entry n = some x) := by
  obtain ⟨S, e, hsub, hi⟩ := create_indexed h
  refine ⟨S, e, fun s node hr => ?_⟩
  obtain ⟨p, hp⟩ := reached_at h.plain ⟨hi, hsub, rfl, h.isDir⟩ hr
  have hpl := h.plain
  have hdirs : ∀ n : List Char, n ∈ s.dirEntries.filterMap (childName (s.path [])) ↔
      ∃ k e, n = String.toList k ∧ node.entry k = some (.dir e) := by
    intro n
    rw [List.mem_filterMap]
    constructor
    · rintro ⟨d, hd, hc⟩
      obtain ⟨q, e, hq, rfl, hx⟩ := (hp.indexed.dirs d).mp hd
      obtain ⟨k, rfl, rfl⟩ := (at_prefix hpl hp (plain_path hpl q hx) hq).mp (childName_eq.mp hc)
      refine ⟨k, e, rfl, ?_⟩
      rw [nodeAt_snoc, hp.here] at hx; exact hx
    · rintro ⟨k, e, rfl, he⟩
      have hx : nodeAt root (p ++ [k]) = some (.dir e) := by rw [nodeAt_snoc, hp.here]; exact he
      exact ⟨_, (hp.indexed.dirs _).mpr ⟨p ++ [k], e, by simp, rfl, hx⟩,
        childName_eq.mpr ((at_prefix hpl hp (plain_path hpl _ hx) (by simp)).mpr ⟨k, rfl, rfl⟩)⟩
  have hfiles : ∀ n : List Char, n ∈ (s.fileEntries.map (·.1)).filterMap (childName (s.path [])) ↔
      ∃ k b, n = String.toList k ∧ node.entry k = some (.file b) := by
    intro n
    rw [List.mem_filterMap]
    constructor
    · rintro ⟨d, hd, hc⟩
      obtain ⟨q, b, hq, rfl, hx⟩ := (hp.indexed.fileKeys d).mp hd
      obtain ⟨k, rfl, rfl⟩ := (at_prefix hpl hp (plain_path hpl q hx) hq).mp (childName_eq.mp hc)
      refine ⟨k, b, rfl, ?_⟩
      rw [nodeAt_snoc, hp.here] at hx; exact hx
    · rintro ⟨k, b, rfl, he⟩
      have hx : nodeAt root (p ++ [k]) = some (.file b) := by rw [nodeAt_snoc, hp.here]; exact he
      exact ⟨_, (hp.indexed.fileKeys _).mpr ⟨p ++ [k], b, by simp, rfl, hx⟩,
        childName_eq.mpr ((at_prefix hpl hp (plain_path hpl _ hx) (by simp)).mpr ⟨k, rfl, rfl⟩)⟩
  have hinj : ∀ a a' b, b ∈ childName (s.path []) a → b ∈ childName (s.path []) a' → a = a' := by
    intro a a' b h1 h2
    rw [Option.mem_def, childName_eq] at h1 h2
    rw [h1.1, h2.1]
  refine ⟨?_, fun n => ?_⟩
  · refine List.nodup_append.mpr ⟨hp.indexed.dirsNodup.filterMap hinj, hp.indexed.keys.filterMap hinj, ?_⟩
    intro a ha b hb hab
    subst hab
    obtain ⟨k, e, rfl, he⟩ := (hdirs a).mp ha
    obtain ⟨k', b, hkk, he'⟩ := (hfiles _).mp hb
    rw [String.toList_inj] at hkk
    subst hkk
    rw [he] at he'; simp at he'
  · unfold TarStorage.ls
    rw [List.mem_append, hdirs, hfiles]
    constructor
    · rintro (⟨k, e, hk, he⟩ | ⟨k, b, hk, he⟩)
      · rw [String.toList_inj] at hk; subst hk; exact ⟨_, he⟩
      · rw [String.toList_inj] at hk; subst hk; exact ⟨_, he⟩
    · rintro ⟨x, hx⟩
      cases x with
      | file b => exact .inr ⟨n, b, rfl, hx⟩
      | dir e => exact .inl ⟨n, e, rfl, hx⟩

/-! ## Non-vacuity -/

/-- A directory with a file `x` and a directory `sub` with a file `y`. -/
def smallTree : Node :=
  .dir fun n => if n = "x" then some (.file [1, 2]) else if n = "sub" then
    some (.dir fun n => if n = "y" then some (.file [3]) else none) else none

/-- A listing of it: the root itself, children before parents, with and without `./`, and `x` twice. -/
def smallMembers : List Member :=
  [⟨['.'], .dir, 0, 0⟩, ⟨"sub/y".toList, .reg, 4, 1⟩, ⟨"./x".toList, .reg, 1, 2⟩, ⟨"./sub".toList, .dir, 0, 0⟩,
   ⟨"x".toList, .reg, 1, 2⟩]

theorem smallTree_paths {p : List String} {x : Node} (h : nodeAt smallTree p = some x) :
    p = [] ∨ p = ["x"] ∨ p = ["sub"] ∨ p = ["sub", "y"] := by
  match p with
  | [] => exact .inl rfl
  | n :: p =>
    simp only [nodeAt, smallTree, Node.entry] at h
    by_cases h1 : n = "x"
    · subst h1
      match p with
      | [] => exact .inr (.inl rfl)
      | m :: p => simp [nodeAt, Node.entry] at h
    · by_cases h2 : n = "sub"
      · subst h2
        match p with
        | [] => exact .inr (.inr (.inl rfl))
        | m :: p =>
          simp [nodeAt, Node.entry] at h
          by_cases h3 : m = "y"
          · subst h3
            match p with
            | [] => exact .inr (.inr (.inr rfl))
            | k :: p => simp [nodeAt, Node.entry] at h
          · simp [h3] at h
      · simp [h1, h2] at h

theorem smallTar : TarOf [9, 1, 2, 9, 3] smallMembers smallTree := by
  refine ⟨⟨_, rfl⟩, ?_, ?_, ?_⟩
  · intro p e n x hp he
    have hx : nodeAt smallTree (p ++ [n]) = some x := by rw [nodeAt_snoc, hp]; exact he
    rcases smallTree_paths hx with h | h | h | h
    · simp at h
    · have : n = "x" := by simpa using congrArg List.getLast? h
      subst this; exact ⟨by decide, by decide, by decide⟩
    · have : n = "sub" := by simpa using congrArg List.getLast? h
      subst this; exact ⟨by decide, by decide, by decide⟩
    · have : n = "y" := by simpa using congrArg List.getLast? h
      subst this; exact ⟨by decide, by decide, by decide⟩
  · intro m hm
    simp only [smallMembers, List.mem_cons, List.not_mem_nil, or_false] at hm
    rcases hm with rfl | rfl | rfl | rfl | rfl
    · exact .inl ⟨rfl, rfl⟩
    · exact .inr ⟨["sub", "y"], by simp, .inl (by decide), .inl ⟨rfl, rfl⟩⟩
    · exact .inr ⟨["x"], by simp, .inr (by decide), .inl ⟨rfl, rfl⟩⟩
    · exact .inr ⟨["sub"], by simp, .inr (by decide), .inr ⟨rfl, _, rfl⟩⟩
    · exact .inr ⟨["x"], by simp, .inl (by decide), .inl ⟨rfl, rfl⟩⟩
  · intro p x hp hx
    rcases smallTree_paths hx with rfl | rfl | rfl | rfl
    · exact absurd rfl hp
    · exact ⟨_, by simp [smallMembers]; exact .inr (.inr (.inl rfl)), .inr (by decide)⟩
    · exact ⟨_, by simp [smallMembers]; exact .inr (.inr (.inr (.inl rfl))), .inr (by decide)⟩
    · exact ⟨_, by simp [smallMembers]; exact .inr (.inl rfl), .inl (by decide)⟩

example : ∃ S, TarStorage.create [9, 1, 2, 9, 3] smallMembers = .ok S ∧ S.get "x" false = .ok (.bytes [1, 2]) ∧
    S.ls = ["sub".toList, "x".toList] ∧ S.get "y" false = .error (.missingResource "y") :=
  ⟨⟨[9, 1, 2, 9, 3], [("sub/y".toList, (4, 1)), ("x".toList, (1, 2))], ["sub".toList], []⟩, by decide +kernel⟩

end Props
