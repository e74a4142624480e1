import Verif.Spec.NativeClasses
import Verif.Lemmas.GenUsage
import Verif.Props.Gen.Python
import Verif.Props.Gen.DeclaredOnly
import Verif.Props.Native.GoReader
import Verif.Props.Native.RustReader

/-! # Generated classes of the compiled languages -/

namespace Gen
open Spec Props Model

/-! ## Fields -/

theorem fields_declared {cs : List Tree} (ht : ∀ c ∈ cs, ∀ r w, c.kind ≠ .field .none r w) :
    (cs.filter fun c => c.kind.isField).map declaredField = (cs.filterMap declaredField).map some := by
  induction cs with
  | nil => rfl
  | cons c cs ih =>
    have ih := ih fun c hc => ht c (by simp [hc])
    cases hk : c.kind with
    | field ty rg w =>
      have hfl : (fun c : Tree => c.kind.isField) c = true := by simp [hk, Kind.isField]
      rw [List.filter_cons_of_pos (p := fun c : Tree => c.kind.isField) hfl, List.map_cons, ih]
      cases ty with
      | basic b =>
        have : declaredField c = some ⟨String.ofList c.name, b.width, b.name.isSigned⟩ := by unfold declaredField; rw [hk]
        rw [List.filterMap_cons_some this, this]; rfl
      | enum e b =>
        have : declaredField c = some ⟨String.ofList c.name, b.width, b.name.isSigned⟩ := by unfold declaredField; rw [hk]
        rw [List.filterMap_cons_some this, this]; rfl
      | none => exact absurd hk (ht c (by simp) rg w)
    | _ =>
      have e1 : declaredField c = none := by unfold declaredField; rw [hk]
      have hfl : ¬ (fun c : Tree => c.kind.isField) c = true := by simp [hk, Kind.isField]
      rw [List.filterMap_cons_none e1, List.filter_cons_of_neg (p := fun c : Tree => c.kind.isField) hfl, ih]

/-- What is known of field number `i` of a compiled structure. -/
structure FieldFacts (t : Tree) (p : Path) (fs : List FieldDecl) (i : Nat) (fd : FieldDecl) (f : Tree) : Prop where
  node : t.descend (p ++ [f.name]) = some f
  name : fd.name.toList = f.name
  typed : ∃ b rg, b.width ≤ b.name.width ∧ fd.width = b.width ∧ fd.isSigned = b.name.isSigned ∧
    (f.kind = .field (.basic b) rg (some (bitOffset fs i)) ∨
     ∃ ref m, f.kind = .field (.enum ref.name b) rg (some (bitOffset fs i)) ∧ ref ∈ f.children ∧ (∃ w, ref.kind = .ref (.enumeration w)) ∧
       f.childrenLike Kind.isEnumerationReference = [ref] ∧ t.find ref.target = .ok m ∧
       t.descend ref.targetPath = some m ∧ m.kind = .enumeration b)

theorem struct_facts {s : Text} {t : Tree} (h : Compile s (.ok t)) {p : Path} {n : Tree} {sz : Option Nat} (hn : t.descend p = some n)
    (hk : n.kind = .structure sz) : n.kind.sizeInBytes = .ok (byteSize (n.children.filterMap declaredField)) ∧
      n.fields.length = (n.children.filterMap declaredField).length ∧
      ∀ (i : Nat) fd, (n.children.filterMap declaredField)[i]? = some fd → ∃ f, n.fields[i]? = some f ∧ FieldFacts t p (n.children.filterMap declaredField) i fd f := by
  have hc := compile_compiled h
  obtain ⟨blocks, _, hl, hba⟩ := compile_blocks h
  have hplain : ∀ b ∈ blocks, PlainNames b := fun b hb => lexical_plain (hl b hb)
  obtain ⟨st, _⟩ := buildAst_stages hba
  obtain ⟨hl1, hl2⟩ := hc.laidOut p n sz hn hk
  have hno : ∀ c ∈ n.children, ∀ r w, c.kind ≠ .field .none r w := by
    intro c hcm r w hck
    rcases hc.typed _ c _ _ _ (hc.child hn hcm) hck with ⟨b, hb⟩ | ⟨ref, _, w, m, b, _, _, _, hb⟩ <;> cases hb
  obtain ⟨e1, e2, e3, e4⟩ := entries_layout (cs := n.children) (o := 0) (by
      intro i c ty r w hci hck
      rw [Nat.zero_add]
      exact hl2 i c ty r w hci hck) hno
  have hd := fields_declared hno
  refine ⟨?_, ?_, ?_⟩
  · rw [hl1]
    have : byteSize (n.children.filterMap declaredField) = (totalBits n.children + 7) / 8 := by
      rw [sizeInBitsFrom_eq] at e3
      unfold byteSize
      congr 2; omega
    rw [this]; rfl
  · have := congrArg List.length hd
    simpa [Tree.fields, Tree.childrenLike] using this
  · intro i fd hi
    have hdi := congrArg (fun l : List (Option FieldDecl) => l[i]?) hd
    simp only [List.getElem?_map, hi, Option.map_some] at hdi
    cases hf : (n.children.filter fun c => c.kind.isField)[i]? with
    | none => rw [hf] at hdi; cases hdi
    | some f =>
      rw [hf] at hdi
      simp only [Option.map_some, Option.some.injEq] at hdi
      have hfm := List.mem_of_getElem? hf
      obtain ⟨hfm, hff⟩ := List.mem_filter.mp hfm
      have hfd := hc.child hn hfm
      have hoff := congrArg (fun l : List (String × FieldSig) => l[i]?) e1
      simp only [List.getElem?_map, hf, Option.map_some] at hoff
      rw [layoutFrom_getElem?, hi] at hoff
      simp only [Option.map_some, Option.some.injEq, Prod.mk.injEq, FieldSig.mk.injEq, Nat.zero_add] at hoff
      obtain ⟨_, hoff, _, _⟩ := hoff
      obtain ⟨hname, _⟩ := declaredField_field hdi
      refine ⟨f, hf, hfd, by rw [hname]; simp, ?_⟩
      cases hfk : f.kind with
      | field ty rg o =>
        obtain ⟨j, hj⟩ := List.getElem?_of_mem hfm
        have ho := hl2 j f ty rg o hj hfk
        obtain ⟨b', hb', hwb⟩ := (C62_layout hplain hba hfd).2 _ _ _ hfk
        rcases hc.typed _ f ty rg o hfd hfk with ⟨b, rfl⟩ | ⟨ref, h1, w, m, b, h2, h3, h4, rfl⟩
        · have : b' = b := by rcases hb' with hb' | ⟨_, hb'⟩ <;> cases hb'; rfl
          subst this
          have hfe : (fieldEntry f).offset = o.getD 0 := by unfold fieldEntry; rw [hfk]
          rw [ho] at hfe
          simp only [Option.getD_some] at hfe
          rw [hfe] at hoff
          have hdd : declaredField f = some ⟨String.ofList f.name, b'.width, b'.name.isSigned⟩ := by unfold declaredField; rw [hfk]
          rw [hdd, Option.some.injEq] at hdi
          refine ⟨b', rg, hwb, by rw [← hdi], by rw [← hdi], .inl ?_⟩
          rw [ho, hoff]; rfl
        · have : b' = b := by rcases hb' with hb' | ⟨_, hb'⟩ <;> cases hb'; rfl
          subst this
          have hfe : (fieldEntry f).offset = o.getD 0 := by unfold fieldEntry; rw [hfk]
          rw [ho] at hfe
          simp only [Option.getD_some] at hfe
          rw [hfe] at hoff
          have hdd : declaredField f = some ⟨String.ofList f.name, b'.width, b'.name.isSigned⟩ := by unfold declaredField; rw [hfk]
          rw [hdd, Option.some.injEq] at hdi
          have hone := one_enumeration st hl hfd hfk
          have hmem : ref ∈ f.childrenLike Kind.isEnumerationReference := by
            unfold Tree.childrenLike
            rw [List.mem_filter]
            exact ⟨h1, by rw [h2]; rfl⟩
          have hlist : f.childrenLike Kind.isEnumerationReference = [ref] := by
            match hc : f.childrenLike Kind.isEnumerationReference, hone, hmem with
            | [x], _, hmem => rw [List.mem_singleton] at hmem; rw [hmem]
            | x :: y :: l, hone, _ => simp at hone
          have hfind : t.find ref.target = .ok m := by
            obtain ⟨m', g1, g2, g3, g4⟩ := hc.lk.target (hc.child hfd h1) h2
            rw [h3] at g2; cases g2
            exact g3
          refine ⟨b', rg, hwb, by rw [← hdi], by rw [← hdi], .inr ⟨ref, m, ?_, h1, ⟨w, h2⟩, hlist, hfind, h3, h4⟩⟩
          rw [ho, hoff]; rfl
      | _ => rw [hfk] at hff; cases hff

theorem mapM_index {α β : Type} {g : α → M β} {l : List α} (h : ∀ (i : Nat) x, l[i]? = some x → ∃ y, g x = .ok y) :
    ∃ ys, l.mapM g = .ok ys ∧ ys.length = l.length ∧ ∀ (i : Nat) x, l[i]? = some x → ∃ y, g x = .ok y ∧ ys[i]? = some y := by
  induction l with
  | nil => exact ⟨[], rfl, rfl, by simp⟩
  | cons a l ih =>
    obtain ⟨y, hy⟩ := h 0 a rfl
    obtain ⟨ys, h1, h2, h3⟩ := ih fun i x hx => h (i + 1) x (by simpa using hx)
    refine ⟨y :: ys, ?_, by simp [h2], ?_⟩
    · rw [List.mapM_cons, hy, h1]; rfl
    · intro i x hx
      cases i with
      | zero => simp only [List.getElem?_cons_zero, Option.some.injEq] at hx; subst hx; exact ⟨y, hy, rfl⟩
      | succ i => exact h3 i x (by simpa using hx)

theorem mapM_option_index {α β : Type} {g : α → Option β} {l : List α} (h : ∀ (i : Nat) x, l[i]? = some x → ∃ y, g x = some y) :
    ∃ ys, l.mapM g = some ys ∧ ys.length = l.length ∧ ∀ (i : Nat) x, l[i]? = some x → ∃ y, g x = some y ∧ ys[i]? = some y := by
  induction l with
  | nil => exact ⟨[], rfl, rfl, by simp⟩
  | cons a l ih =>
    obtain ⟨y, hy⟩ := h 0 a rfl
    obtain ⟨ys, h1, h2, h3⟩ := ih fun i x hx => h (i + 1) x (by simpa using hx)
    refine ⟨y :: ys, ?_, by simp [h2], ?_⟩
    · rw [List.mapM_cons, hy, h1]; rfl
    · intro i x hx
      cases i with
      | zero => simp only [List.getElem?_cons_zero, Option.some.injEq] at hx; subst hx; exact ⟨y, hy, rfl⟩
      | succ i => exact h3 i x (by simpa using hx)

/-! ## Names -/

def colonPath (p : Path) : Text := p.flatMap fun n => "::".toList ++ n

theorem idChar_colon {n : Text} (h : ∀ c ∈ n, IdChar c) : ':' ∉ n := fun hm => absurd (h _ hm) (by decide)

theorem idChar_at {n : Text} (h : ∀ c ∈ n, IdChar c) : '@' ∉ n := fun hm => absurd (h _ hm) (by decide)

theorem idChar_dot {n : Text} (h : ∀ c ∈ n, IdChar c) : '.' ∉ n := fun hm => absurd (h _ hm) (by decide)

theorem splitColons_cons {w t : Text} (hw : ':' ∉ w) : splitColons (w ++ ':' :: ':' :: t) = w :: splitColons t := by
  induction w with
  | nil => rw [List.nil_append, splitColons]
  | cons c w ih =>
    simp only [List.mem_cons, not_or] at hw
    rw [List.cons_append, splitColons, ih hw.2]
    intro u hu
    exact absurd hu.symm hw.1

theorem splitColons_word {w : Text} (hw : ':' ∉ w) : splitColons w = [w] := by
  induction w with
  | nil => rfl
  | cons c w ih =>
    simp only [List.mem_cons, not_or] at hw
    rw [splitColons, ih hw.2]
    intro u hu
    exact absurd hu.symm hw.1

theorem splitColons_path {w : Text} {p : Path} (hw : ':' ∉ w) (h : ∀ k ∈ p, ':' ∉ k) : splitColons (w ++ colonPath p) = w :: p := by
  induction p generalizing w with
  | nil => simp [colonPath, splitColons_word hw]
  | cons k p ih =>
    have : w ++ colonPath (k :: p) = w ++ ':' :: ':' :: (k ++ colonPath p) := by simp [colonPath]
    rw [this, splitColons_cons hw, ih (h k (by simp)) fun x hx => h x (by simp [hx])]

theorem colonPath_inj {p q : Path} (hp : ∀ k ∈ p, ':' ∉ k) (hq : ∀ k ∈ q, ':' ∉ k) (h : colonPath p = colonPath q) : p = q := by
  have h1 := splitColons_path (w := []) (by simp) hp
  have h2 := splitColons_path (w := []) (by simp) hq
  rw [h] at h1
  simp only [List.nil_append] at h1 h2
  rw [h1] at h2
  injection h2

theorem replaceTwoAt_word {w t : Text} (hw : '@' ∉ w) (ht : t.head? = some '@' → t.tail.head? ≠ some '@') :
    replaceTwoAt (w ++ t) = w ++ replaceTwoAt t := by
  induction w with
  | nil => rfl
  | cons c w ih =>
    simp only [List.mem_cons, not_or] at hw
    rw [List.cons_append, replaceTwoAt, ih hw.2, List.cons_append]
    intro u hu
    exact absurd hu.symm hw.1

/-- `@n@E` for a path. -/
def atPath (p : Path) : Text := p.flatMap fun n => '@' :: n

theorem replaceTwoAt_atPath {p : Path} (h : ∀ k ∈ p, k ≠ [] ∧ '@' ∉ k) : replaceTwoAt (atPath p) = atPath p := by
  induction p with
  | nil => rfl
  | cons k p ih =>
    obtain ⟨h1, h2⟩ := h k (by simp)
    obtain ⟨c, k, rfl⟩ := List.exists_cons_of_ne_nil h1
    have e : atPath ((c :: k) :: p) = '@' :: ((c :: k) ++ atPath p) := by simp [atPath]
    have hc : c ≠ '@' := by intro e; subst e; simp at h2
    rw [e, replaceTwoAt, replaceTwoAt_word h2, ih fun x hx => h x (by simp [hx])]
    · intro hh
      cases p with
      | nil => simp [atPath] at hh
      | cons k' p =>
        obtain ⟨g1, g2⟩ := h k' (by simp)
        obtain ⟨c', k', rfl⟩ := List.exists_cons_of_ne_nil g1
        simp only [atPath, List.flatMap_cons, List.cons_append, List.tail_cons, List.head?_cons, ne_eq, Option.some.injEq]
        intro e; subst e; simp at g2
    · intro u _ hu
      simp only [List.cons_append, List.cons.injEq] at hu
      exact hc hu.1

theorem replaceAt_word {w : Text} (h : '@' ∉ w) : replaceAt w = w := by
  induction w with
  | nil => rfl
  | cons c w ih =>
    simp only [List.mem_cons, not_or] at h
    have : replaceAt (c :: w) = (if c = '@' then "::".toList else [c]) ++ replaceAt w := by simp [replaceAt]
    rw [this, if_neg (Ne.symm h.1), ih h.2]; rfl

theorem replaceAt_append (a b : Text) : replaceAt (a ++ b) = replaceAt a ++ replaceAt b := by simp [replaceAt]

theorem replaceAt_atPath {p : Path} (h : ∀ k ∈ p, '@' ∉ k) : replaceAt (atPath p) = colonPath p := by
  induction p with
  | nil => rfl
  | cons k p ih =>
    have e : atPath (k :: p) = ['@'] ++ (k ++ atPath p) := by simp [atPath]
    rw [e, replaceAt_append, replaceAt_append, replaceAt_word (h k (by simp)), ih fun x hx => h x (by simp [hx])]
    simp [colonPath, replaceAt]

/-- The name of a resolved reference. -/
theorem resolved_name {n : Text} {p : Path} (hp : ∀ k ∈ p, '@' ∉ k ∧ '.' ∉ k) (h1 : ∃ body, n = '@' :: body) (h2 : '.' ∉ n)
    (h3 : dereferencify n = pathText p) : n = '@' :: atPath p := by
  obtain ⟨body, rfl⟩ := h1
  congr 1
  simp only [dereferencify, List.drop_succ_cons, List.drop_zero] at h3
  simp only [List.mem_cons, not_or] at h2
  have hinv : ∀ l : Text, '.' ∉ l → (l.map fun c => if c = '@' then '.' else c).map (fun c => if c = '.' then '@' else c) = l := by
    intro l hl
    rw [List.map_map]
    conv_rhs => rw [← List.map_id l]
    apply List.map_congr_left
    intro c hc
    by_cases e : c = '@'
    · simp [e]
    · have : c ≠ '.' := fun h => hl (h ▸ hc)
      simp [e, this]
  rw [← hinv body h2.2, h3]
  clear h3 hinv h2
  induction p with
  | nil => rfl
  | cons k p ih =>
    have e : pathText (k :: p) = '.' :: (k ++ pathText p) := by simp [pathText]
    have e2 : atPath (k :: p) = '@' :: (k ++ atPath p) := by simp [atPath]
    rw [e, e2, List.map_cons, List.map_append, ih fun x hx => hp x (by simp [hx])]
    have : k.map (fun c => if c = '.' then '@' else c) = k := by
      conv_rhs => rw [← List.map_id k]
      apply List.map_congr_left
      intro c hc
      rw [if_neg (fun h : c = '.' => (hp k (by simp)).2 (h ▸ hc))]; rfl
    rw [this]; rfl

theorem cppBaseType_resolved {p : Path} (h : ∀ k ∈ p, NsName k) (hp : p ≠ []) : cppBaseType ('@' :: atPath p) = colonPath p := by
  unfold cppBaseType
  rw [basicOfText_at rfl]
  simp only
  obtain ⟨k, p, rfl⟩ := List.exists_cons_of_ne_nil hp
  have hk := h k (by simp)
  have e : '@' :: atPath (k :: p) = '@' :: '@' :: (k ++ atPath p) := by simp [atPath]
  have hrest : replaceTwoAt (k ++ atPath p) = k ++ atPath p := by
    rw [replaceTwoAt_word (idChar_at hk.2), replaceTwoAt_atPath]
    · intro x hx; exact ⟨(h x (by simp [hx])).1, idChar_at (h x (by simp [hx])).2⟩
    · intro _
      cases p with
      | nil => simp [atPath]
      | cons k' p =>
        obtain ⟨c', k', rfl⟩ := List.exists_cons_of_ne_nil (h k' (by simp)).1
        simp only [atPath, List.flatMap_cons, List.cons_append, List.tail_cons, List.head?_cons, ne_eq, Option.some.injEq]
        intro e
        exact idChar_at (h _ (by simp : c' :: k' ∈ k :: (c' :: k') :: p)).2 (by simp [e])
  rw [e, replaceTwoAt, hrest]
  have : (':' :: ':' :: (k ++ atPath p) : Text) = "::".toList ++ (k ++ atPath p) := rfl
  rw [this, replaceAt_append, replaceAt_append, replaceAt_word (idChar_at hk.2), replaceAt_atPath fun x hx => idChar_at (h x (by simp [hx])).2]
  simp [colonPath, replaceAt]

end Gen
