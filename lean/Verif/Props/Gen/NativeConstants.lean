import Verif.Spec.NativeConstants
import Verif.Props.Gen.NativeClasses
import Verif.Props.Gen.Literals
import Verif.Props.Native.Members

/-!
# C93: constants in C++ and Rust
-/

namespace Props
open Py Gen Spec Model Model.Native _root_.Native

/-! ## Fields and their constants -/

theorem fitsIn_inRange {b : BasicName} {v : Int} {w : Nat} (h : FitsIn b v w) : InRange w b.isSigned v := by
  unfold FitsIn at h
  unfold InRange
  split at h
  · rename_i hs
    obtain ⟨h0, h1, h2⟩ := h
    obtain ⟨w, rfl⟩ : ∃ w', w = w' + 1 := ⟨w - 1, by omega⟩
    rw [if_pos hs]
    simp only [Nat.add_sub_cancel] at h1 h2
    rw [pow_succ]
    omega
  · rename_i hs
    rw [if_neg hs]
    exact h

/-- A field has no constant, or exactly one, which is a value of the field. -/
theorem optional_field {t : Tree} (hc : Compiled t) {q : Path} {f : Tree} {ty rg o} (hf : t.descend q = some f) (hk : f.kind = .field ty rg o) :
    (f.invalidValue = none ∧ ∀ z, ¬ InvalidOf t f z) ∨ ∃ ref m b ct z, f.invalidValue = some ref ∧ ref ∈ f.children ∧ ref.kind = .ref .invalidValue ∧
      t.find ref.target = .ok m ∧ t.descend ref.targetPath = some m ∧ m.kind = .constant ct z ∧ ty = .basic b ∧ b.name = ct.name ∧
      InRange b.width b.name.isSigned z ∧ InvalidOf t f z ∧ ∀ z', InvalidOf t f z' → z' = z := by
  cases hi : f.invalidValue with
  | none =>
    left
    refine ⟨rfl, ?_⟩
    rintro z ⟨ref, hr, hrk, _⟩
    unfold Tree.invalidValue at hi
    rw [List.head?_eq_none_iff] at hi
    have : ref ∈ f.childrenLike fun k => k = .ref .invalidValue := List.mem_filter.mpr ⟨hr, by simp [hrk]⟩
    rw [hi] at this; cases this
  | some ref =>
    right
    have hm := List.mem_of_mem_head? (show ref ∈ (f.childrenLike fun k => k = .ref .invalidValue).head? from hi)
    obtain ⟨hr, hrk⟩ := List.mem_filter.mp hm
    have hrk : ref.kind = .ref .invalidValue := by simpa using hrk
    obtain ⟨h1, h2⟩ := hc.constants q f ty rg o hf hk
    obtain ⟨m, b, ct, z, e1, e2, e3, e4, e5⟩ := h1 ref hr (.inr hrk)
    have hrd := hc.child hf hr
    obtain ⟨m', g1, g2, g3, g4⟩ := hc.lk.target hrd hrk
    rw [e1] at g3; cases g3
    refine ⟨ref, m, b, ct, z, rfl, hr, hrk, e1, g2, e2, e3, e4, fitsIn_inRange e5, ⟨ref, hr, hrk, m, ct, e1, e2⟩, ?_⟩
    rintro z' ⟨ref', hr', hrk', n', ct', i1, i2⟩
    have := h2 ref' hr' ref hr hrk' hrk
    subst this
    rw [e1] at i1; cases i1
    rw [e2] at i2; cases i2
    rfl

/-- A constant is a value of its type. -/
theorem constant_fits {s : Text} {t : Tree} (h : Compile s (.ok t)) {p : Path} {n : Tree} {b : BasicType} {v : Int} (hn : t.descend p = some n)
    (hk : n.kind = .constant b v) : InRange b.name.width b.name.isSigned v := by
  obtain ⟨blocks, hs, hl, hba⟩ := compile_blocks h
  have hplain := fun (b : PBlock) (hb : b ∈ blocks) => lexical_plain (hl b hb)
  rcases C66_only hs h hn (by rw [hk]; rfl) with ⟨bl, hbl, name, hname, rfl⟩ | ⟨q, r, w, o, m, hr, hrk, rfl⟩
  · simp only [List.mem_append, List.mem_map] at hname
    rcases hname with ((⟨x, hx, rfl⟩ | ⟨x, hx, rfl⟩) | ⟨x, hx, rfl⟩) | ⟨x, hx, rfl⟩
    · obtain ⟨n', h1, h2⟩ := C66_constants hs h hbl hx
      rw [hn] at h1; cases h1
      have := h2.kind; rw [hk] at this; cases this
      exact h2.fits
    · obtain ⟨n', h1, h2⟩ := C66_enumerations hs h hbl hx
      rw [hn] at h1; cases h1
      have := h2.kind; rw [hk] at this; cases this
    · obtain ⟨n', h1, h2⟩ := C66_structures hs h hbl hx
      rw [hn] at h1; cases h1
      obtain ⟨_, this⟩ := h2.kind; rw [hk] at this; cases this
    · obtain ⟨n', h1, h2⟩ := C66_archives hs h hbl hx
      rw [hn] at h1; cases h1
      have := h2.kind; rw [hk] at this; cases this
  · obtain ⟨_, _, _, x, sz, _, h1, h2⟩ := C63_index_type hplain hba hr hrk
    rw [hn] at h2; cases h2
    rw [hk] at h1; cases h1

theorem width_ne_zero (b : BasicName) : b.width ≠ 0 := by cases b <;> simp [BasicName.width]

theorem cpp_const_cast {b : BasicName} {w : Nat} {v : Int} (hw : w ≤ b.width) (hv : InRange w b.isSigned v) : (cppOf b).cast v = v :=
  cpp_cast (cppOf_holds b (Nat.le_refl _) (width_ne_zero b)).1 (by rw [(cppOf_signed b).1]; exact _root_.Native.inRange_mono hw hv)

/-- Mapping a function that gives an optional result. -/
theorem mapM_optional {α β γ : Type} {g : α → Gen.M (Option β)} {l : List α} (h : ∀ x ∈ l, ∃ y, g x = .ok y) (k : β → Option γ)
    (hk : ∀ x ∈ l, ∀ y, g x = .ok (some y) → ∃ z, k y = some z) :
    ∃ ys zs, l.mapM g = .ok ys ∧ (ys.filterMap id).mapM k = some zs ∧
      (∀ z ∈ zs, ∃ x ∈ l, ∃ y, g x = .ok (some y) ∧ k y = some z) ∧ ∀ x ∈ l, ∀ y z, g x = .ok (some y) → k y = some z → z ∈ zs := by
  induction l with
  | nil => exact ⟨[], [], rfl, rfl, by simp, by simp⟩
  | cons a l ih =>
    obtain ⟨ys, zs, h1, h2, h3, h4⟩ := ih (fun x hx => h x (by simp [hx])) (fun x hx => hk x (by simp [hx]))
    obtain ⟨y, hy⟩ := h a (by simp)
    cases y with
    | none =>
      refine ⟨none :: ys, zs, by rw [List.mapM_cons, hy, h1]; rfl, by simpa using h2, ?_, ?_⟩
      · intro z hz
        obtain ⟨x, hx, r⟩ := h3 z hz
        exact ⟨x, by simp [hx], r⟩
      · intro x hx y z hxy hyz
        rcases List.mem_cons.mp hx with rfl | hx
        · rw [hy] at hxy; cases hxy
        · exact h4 x hx y z hxy hyz
    | some y =>
      obtain ⟨z, hz⟩ := hk a (by simp) y hy
      refine ⟨some y :: ys, z :: zs, by rw [List.mapM_cons, hy, h1]; rfl, by
        show (y :: ys.filterMap id).mapM k = _
        rw [List.mapM_cons, hz, h2]; rfl, ?_, ?_⟩
      · intro z' hz'
        rcases List.mem_cons.mp hz' with rfl | hz'
        · exact ⟨a, by simp, y, hy, hz⟩
        · obtain ⟨x, hx, r⟩ := h3 z' hz'
          exact ⟨x, by simp [hx], r⟩
      · intro x hx y' z' hxy hyz
        rcases List.mem_cons.mp hx with rfl | hx
        · rw [hy] at hxy; cases hxy
          rw [hz] at hyz; cases hyz
          simp
        · exact List.mem_cons_of_mem _ (h4 x hx y' z' hxy hyz)

/-! ## C++ -/

/-- The constant at `p` as C++ declares it. -/
def cppConstEntry (t : Tree) (p : Path) : Option (Text × CppType × Int) :=
  match t.descend p with
  | none => none
  | some n => match n.kind with
    | .constant b v => some (colonPath p, cppOf b.name, v)
    | _ => none

/-- The constants declared so far. -/
def cppEnv (t : Tree) (done : List Path) : List (Text × CppType × Int) := done.reverse.filterMap (cppConstEntry t)

theorem cppConstEntry_some {t : Tree} {p : Path} {e : Text × CppType × Int} (h : cppConstEntry t p = some e) :
    ∃ n b, t.descend p = some n ∧ n.kind = .constant b e.2.2 ∧ e = (colonPath p, cppOf b.name, e.2.2) := by
  unfold cppConstEntry at h
  split at h
  · cases h
  · rename_i n hn
    split at h
    · rename_i b v hk
      cases h
      exact ⟨n, b, hn, hk, rfl⟩
    · cases h

theorem cppEnv_nodup {t : Tree} (hc : Compiled t) {done : List Path} (hd : done.Nodup) : ((cppEnv t done).map Prod.fst).Nodup := by
  have key : ∀ l : List Path, l.Nodup → ((l.filterMap (cppConstEntry t)).map Prod.fst).Nodup := by
    intro l hl
    induction l with
    | nil => simp
    | cons p l ih =>
      have hl' := List.nodup_cons.mp hl
      cases he : cppConstEntry t p with
      | none => rw [List.filterMap_cons_none he]; exact ih hl'.2
      | some e =>
        rw [List.filterMap_cons_some he, List.map_cons, List.nodup_cons]
        refine ⟨?_, ih hl'.2⟩
        intro hm
        obtain ⟨e', he', hee⟩ := List.mem_map.mp hm
        obtain ⟨q, hq, hqe⟩ := List.mem_filterMap.mp he'
        obtain ⟨n1, b1, d1, k1, e1⟩ := cppConstEntry_some he
        obtain ⟨n2, b2, d2, k2, e2⟩ := cppConstEntry_some hqe
        rw [e1, e2] at hee
        have := colonPath_inj (fun x hx => idChar_colon (hc.names d2 (by rw [k2]; simp) x hx).2)
          (fun x hx => idChar_colon (hc.names d1 (by rw [k1]; simp) x hx).2) hee
        subst this
        exact hl'.1 hq
  exact key _ (List.nodup_reverse.mpr hd)

theorem cppEnv_lookup {t : Tree} (hc : Compiled t) {done : List Path} (hd : done.Nodup) {q : Path} (hq : q ∈ done) {n : Tree} {b : BasicType} {v : Int}
    (hn : t.descend q = some n) (hk : n.kind = .constant b v) : (cppEnv t done).lookup (colonPath q) = some (cppOf b.name, v) := by
  refine lookup_of_nodup (cppEnv_nodup hc hd) (List.mem_filterMap.mpr ⟨q, List.mem_reverse.mpr hq, ?_⟩)
  unfold cppConstEntry
  rw [hn]
  simp only [hk]

theorem cppEnv_fresh {t : Tree} (hc : Compiled t) {done : List Path} {q : Path} (hq : q ∉ done) {n : Tree} {b : BasicType} {v : Int}
    (hn : t.descend q = some n) (hk : n.kind = .constant b v) : (cppEnv t done).lookup (colonPath q) = none := by
  rw [List.lookup_eq_none_iff]
  intro e he
  obtain ⟨q', hq', he'⟩ := List.mem_filterMap.mp he
  obtain ⟨n2, b2, d2, k2, e2⟩ := cppConstEntry_some he'
  rw [e2]
  have hne : colonPath q ≠ colonPath q' := by
    intro hee
    have := colonPath_inj (fun x hx => idChar_colon (hc.names hn (by rw [hk]; simp) x hx).2)
      (fun x hx => idChar_colon (hc.names d2 (by rw [k2]; simp) x hx).2) hee
    subst this
    exact hq (List.mem_reverse.mp hq')
  simpa using hne

theorem field_kind {f : Tree} (h : f.kind.isField = true) : ∃ ty rg o, f.kind = .field ty rg o := isField_iff.mp h

theorem tagged_member {t : Tree} (hc : Compiled t) {q : Path} {f : Tree} (hf : t.descend q = some f) (hk : f.kind.isField = true) :
    (cppTagged t f = .ok none ∧ ∀ z, ¬ InvalidOf t f z) ∨ ∃ ref m b ct z, ref ∈ f.children ∧ ref.kind = .ref .invalidValue ∧
      t.descend ref.targetPath = some m ∧ m.kind = .constant ct z ∧ ct.name = b.name ∧
      cppTagged t f = .ok (some ⟨f.name, b.name.cppText, colonPath ref.targetPath⟩) ∧ (∃ rg o, f.kind = .field (.basic b) rg o) ∧
      InRange b.width b.name.isSigned z ∧ InvalidOf t f z ∧ ∀ z', InvalidOf t f z' → z' = z := by
  obtain ⟨ty, rg, o, hk⟩ := field_kind hk
  rcases optional_field hc hf hk with ⟨h1, h2⟩ | ⟨ref, m, b, ct, z, h1, h2, h3, h4, h5, h6, rfl, h8, h9, h10, h11⟩
  · left
    exact ⟨by unfold cppTagged; rw [h1]; rfl, h2⟩
  · right
    refine ⟨ref, m, b, ct, z, h2, h3, h5, h6, h8.symm, ?_, ⟨rg, o, hk⟩, h9, h10, h11⟩
    unfold cppTagged
    rw [h1, hk]
    simp only [Kind.fieldType, h4, FieldType.nameText, bind, Except.bind, pure, Except.pure]
    rw [cppBaseType_text]
    rfl

/-- A path in the order has the constants of its fields before it. -/
theorem const_walk {t : Tree} {p : Path} {n f ref : Tree} (hn : t.descend p = some n) (hf : f ∈ n.children) (hfk : f.kind.isReference = false)
    (hfd : t.descend (p ++ [f.name]) = some f) (hr : ref ∈ f.children) (hk : ref.kind = .ref .invalidValue) : Walk (depChildren t) 2 p ref.targetPath := by
  refine Walk.step (b := p ++ [f.name]) (Walk.step (.refl p) ?_) ?_
  · unfold depChildren
    rw [hn]
    simp only [List.mem_append, List.mem_map, Tree.childrenLike, List.mem_filter]
    exact .inl ⟨f, ⟨hf, by rw [hfk]; rfl⟩, rfl⟩
  · unfold depChildren
    rw [hfd]
    simp only [List.mem_append, List.mem_map, Tree.childrenLike, List.mem_filter]
    exact .inr ⟨ref, ⟨hr, by rw [hk]; rfl⟩, rfl⟩

theorem field_bits {s : Text} {t : Tree} (h : Compile s (.ok t)) {q : Path} {f : Tree} {b : BasicType} {rg o} (hf : t.descend q = some f)
    (hk : f.kind = .field (.basic b) rg o) : b.width ≤ b.name.width ∧ ∃ fd, declaredField f = some fd ∧ fd.width = b.width ∧ fd.isSigned = b.name.isSigned := by
  obtain ⟨blocks, _, hl, hba⟩ := compile_blocks h
  have hplain := fun (b : PBlock) (hb : b ∈ blocks) => lexical_plain (hl b hb)
  obtain ⟨st, _⟩ := buildAst_stages hba
  refine ⟨?_, ⟨_, by unfold declaredField; rw [hk], rfl, rfl⟩⟩
  rcases typed_final st hplain q (.basic b) rg o (kindAt_some.mpr ⟨f, hf, hk⟩) with ⟨b', e, hw⟩ | ⟨_, _, e, _⟩
  · cases e; exact hw
  · cases e

theorem cpp_const_struct {s : Text} {t : Tree} (h : Compile s (.ok t)) (hf : Flat t) {p : Path} {n : Tree} {sz : Option Nat} (hn : t.descend p = some n)
    (hk : n.kind = .structure sz) {env : List (Text × CppType × Int)}
    (henv : ∀ q m b v, t.descend q = some m → m.kind = .constant b v → (∃ k, Walk (depChildren t) (k + 1) p q) → env.lookup (colonPath q) = some (cppOf b.name, v)) :
    ∃ scope name tagged ms, cppConstNode t (p, n) = .ok [.structure scope name tagged] ∧ cppFullName scope name = colonPath p ∧
      (tagged.mapM fun m => do
        let t ← cppBuiltin m.type
        let c ← env.lookup m.invalid
        if t.cast c.2 = c.2 then some (m.name, t, c.2) else none) = some ms ∧
      OptionalsOf CppHolds CppType.isSigned id t n ms := by
  have hc := compile_compiled h
  obtain ⟨ns, k, rfl, hkn, _, hns, _⟩ := hc.namespaces hf hn (by rw [hk]; rfl)
  have hfields : ∀ f ∈ n.fields, f ∈ n.children ∧ f.kind.isField = true := fun f hf => by
    have := List.mem_filter.mp hf
    exact ⟨this.1, this.2⟩
  have key := fun f (hm : f ∈ n.fields) => tagged_member hc (hc.child hn (hfields f hm).1) (hfields f hm).2
  have hlook : ∀ f ∈ n.fields, ∀ ref m ct z, ref ∈ f.children → ref.kind = .ref .invalidValue → t.descend ref.targetPath = some m → m.kind = .constant ct z →
      env.lookup (colonPath ref.targetPath) = some (cppOf ct.name, z) := by
    intro f hm ref m ct z hr hrk hd hmk
    refine henv _ m ct z hd hmk ⟨1, const_walk hn (hfields f hm).1 ?_ (hc.child hn (hfields f hm).1) hr hrk⟩
    have := (hfields f hm).2
    cases hx : f.kind <;> rw [hx] at this <;> simp_all [Gen.Kind.isField, Kind.isReference]
  obtain ⟨ys, ms, h1, h2, h3, h4⟩ := mapM_optional (g := cppTagged t) (l := n.fields) (k := fun m => (do
        let t ← cppBuiltin m.type
        let c ← env.lookup m.invalid
        if t.cast c.2 = c.2 then some (m.name, t, c.2) else none : Option (Text × CppType × Int))) (by
      intro f hm
      rcases key f hm with ⟨e, _⟩ | ⟨ref, m, b, ct, z, _, _, _, _, _, e, _⟩ <;> exact ⟨_, e⟩) (by
      intro f hm y hy
      rcases key f hm with ⟨e, _⟩ | ⟨ref, m, b, ct, z, g1, g2, g3, g4, g5, e, ⟨rg, o, hfk⟩, g6, _⟩
      · rw [e] at hy; cases hy
      · rw [e] at hy; cases hy
        refine ⟨(f.name, cppOf b.name, z), ?_⟩
        simp only [cppBuiltin_text, hlook f hm ref m ct z g1 g2 g3 g4, Option.bind_eq_bind, Option.bind_some]
        rw [if_pos (cpp_const_cast (field_bits h (hc.child hn (hfields f hm).1) hfk).1 g6)])
  have hval : ∀ f ∈ n.fields, ∀ y z, cppTagged t f = .ok (some y) → (do
        let t ← cppBuiltin y.type
        let c ← env.lookup y.invalid
        if t.cast c.2 = c.2 then some (y.name, t, c.2) else none : Option (Text × CppType × Int)) = some z →
      ∃ fd, declaredField f = some fd ∧ z.1 = f.name ∧ InvalidOf t f z.2.2 ∧ z.2.1.isSigned = fd.isSigned ∧ (fd.width ≠ 0 → CppHolds z.2.1 fd.width) ∧
        InRange fd.width fd.isSigned z.2.2 := by
    intro f hm y z hy hz
    rcases key f hm with ⟨e, _⟩ | ⟨ref, m, b, ct, v, g1, g2, g3, g4, g5, e, ⟨rg, o, hfk⟩, g6, g7, _⟩
    · rw [e] at hy; cases hy
    · rw [e] at hy; cases hy
      simp only [cppBuiltin_text, hlook f hm ref m ct v g1 g2 g3 g4, Option.bind_eq_bind, Option.bind_some] at hz
      obtain ⟨hw, fd, e1, e2, e3⟩ := field_bits h (hc.child hn (hfields f hm).1) hfk
      rw [if_pos (cpp_const_cast hw g6)] at hz
      cases hz
      refine ⟨fd, e1, rfl, g7, ?_, ?_, ?_⟩
      · rw [e3]; exact (cppOf_signed b.name).1
      · intro h0; rw [e2]; exact (cppOf_holds b.name hw (by rw [← e2]; exact h0)).1
      · rw [e2, e3]; exact g6
  refine ⟨ns, k, ys.filterMap id, ms, ?_, rfl, h2, ?_, ?_⟩
  · unfold cppConstNode
    simp only [hk, hns, hkn]
    rw [h1]; rfl
  · intro m hm
    obtain ⟨f, hfm, y, hy, hz⟩ := h3 m hm
    obtain ⟨fd, r⟩ := hval f hfm y m hy hz
    exact ⟨f, (hfields f hfm).1, fd, r⟩
  · intro f hfm z hfk hinv
    have hfm' : f ∈ n.fields := List.mem_filter.mpr ⟨hfm, hfk⟩
    rcases key f hfm' with ⟨_, e⟩ | ⟨ref, m, b, ct, v, g1, g2, g3, g4, g5, e, ⟨rg, o, hfk'⟩, g6, g7, g8⟩
    · exact absurd hinv (e z)
    · refine ⟨cppOf b.name, h4 f hfm' _ _ e ?_⟩
      simp only [cppBuiltin_text, hlook f hfm' ref m ct v g1 g2 g3 g4, Option.bind_eq_bind, Option.bind_some]
      rw [if_pos (cpp_const_cast (field_bits h (hc.child hn (hfields f hfm').1) hfk').1 g6), g8 z hinv]
      rfl

theorem cpp_const_rest {s : Text} {t : Tree} (h : Compile s (.ok t)) (hf : Flat t) {order : List Path} (hnd : order.Nodup)
    (hbefore : ∀ p k q, p ∈ order → Walk (depChildren t) (k + 1) p q → Before order q p) :
    ∀ (rest done : List Path), done ++ rest = order →
      ∃ decls structs, (cppNodes t rest).mapM (cppConstNode t) = .ok decls ∧
        cppConstCompile (cppEnv t done) decls.flatten = some (cppEnv t order, structs) ∧
        (∀ q ∈ rest, ∀ n sz, t.descend q = some n → n.kind = .structure sz → ∃ ms, (colonPath q, ms) ∈ structs) ∧
        ∀ e ∈ structs, ∃ q n sz, e.1 = colonPath q ∧ t.descend q = some n ∧ n.kind = .structure sz ∧ OptionalsOf CppHolds CppType.isSigned id t n e.2 := by
  have hc := compile_compiled h
  intro rest
  induction rest with
  | nil =>
    intro done hord
    rw [List.append_nil] at hord
    subst hord
    exact ⟨[], [], rfl, rfl, by simp, by simp⟩
  | cons p rest ih =>
    intro done hord
    have hord' : (done ++ [p]) ++ rest = order := by rw [← hord]; simp
    obtain ⟨decls, structs, h1, h2, h3, h4⟩ := ih (done ++ [p]) hord'
    have hdone : done.Nodup ∧ p ∉ done := by
      rw [← hord, List.nodup_append] at hnd
      exact ⟨hnd.1, fun hp => hnd.2.2 p hp p (by simp) rfl⟩
    have henvp : cppEnv t (done ++ [p]) = match cppConstEntry t p with
        | some e => e :: cppEnv t done
        | none => cppEnv t done := by
      unfold cppEnv
      rw [List.reverse_append, List.reverse_singleton, List.singleton_append, List.filterMap_cons]
      cases cppConstEntry t p <;> rfl
    cases hn : t.descend p with
    | none =>
      have he : cppConstEntry t p = none := by unfold cppConstEntry; rw [hn]
      rw [he] at henvp
      simp only at henvp
      refine ⟨decls, structs, ?_, by rw [← henvp]; exact h2, ?_, h4⟩
      · rw [← h1]; unfold cppNodes; rw [List.filterMap_cons]; simp [hn]
      · intro q hq n sz hqn hqk
        rcases List.mem_cons.mp hq with rfl | hq
        · rw [hn] at hqn; cases hqn
        · exact h3 q hq n sz hqn hqk
    | some n =>
      have hnodes : cppNodes t (p :: rest) = (p, n) :: cppNodes t rest := by
        unfold cppNodes
        rw [List.filterMap_cons]
        simp [hn]
      rw [hnodes]
      simp only [List.mapM_cons]
      have other : ∀ (_ : ∀ b v, n.kind ≠ .constant b v) (_ : ∀ sz, n.kind ≠ .structure sz), ∃ decls structs,
          (do let x ← cppConstNode t (p, n); let y ← (cppNodes t rest).mapM (cppConstNode t); pure (x :: y) : Gen.M _) = .ok decls ∧
          cppConstCompile (cppEnv t done) decls.flatten = some (cppEnv t order, structs) ∧
          (∀ q ∈ p :: rest, ∀ n sz, t.descend q = some n → n.kind = .structure sz → ∃ ms, (colonPath q, ms) ∈ structs) ∧
          ∀ e ∈ structs, ∃ q n sz, e.1 = colonPath q ∧ t.descend q = some n ∧ n.kind = .structure sz ∧ OptionalsOf CppHolds CppType.isSigned id t n e.2 := by
        intro hk1 hk2
        have hnode : cppConstNode t (p, n) = .ok [] := by
          unfold cppConstNode
          cases hk : n.kind with
          | constant b v => exact absurd hk (hk1 b v)
          | «structure» sz => exact absurd hk (hk2 sz)
          | _ => rfl
        have he : cppConstEntry t p = none := by
          unfold cppConstEntry
          rw [hn]
          cases hk : n.kind with
          | constant b v => exact absurd hk (hk1 b v)
          | _ => simp only [hk]
        rw [he] at henvp
        simp only at henvp
        refine ⟨[] :: decls, structs, by rw [hnode, h1]; rfl, by rw [← henvp]; exact h2, ?_, h4⟩
        intro q hq m sz hqn hqk
        rcases List.mem_cons.mp hq with rfl | hq
        · rw [hn] at hqn; cases hqn; exact absurd hqk (hk2 sz)
        · exact h3 q hq m sz hqn hqk
      cases hk : n.kind with
      | constant b v =>
        obtain ⟨ns, k, e, hkn, _, hns, _⟩ := hc.namespaces hf hn (by rw [hk]; rfl)
        have hnode : cppConstNode t (p, n) = .ok [.constant ns k b.name.cppText v] := by
          unfold cppConstNode
          simp only [hk, hns, hkn]
          rfl
        have he : cppConstEntry t p = some (colonPath p, cppOf b.name, v) := by
          unfold cppConstEntry; rw [hn]; simp only [hk]
        rw [he] at henvp
        simp only at henvp
        refine ⟨[.constant ns k b.name.cppText v] :: decls, structs, by rw [hnode, h1]; rfl, ?_, ?_, h4⟩
        · rw [List.flatten_cons, List.singleton_append, cppConstCompile, cppBuiltin_text, cppFullName_eq, ← e]
          simp only [Option.bind_eq_bind, Option.bind_some]
          rw [if_pos ⟨cpp_const_cast (Nat.le_refl _) (constant_fits h hn hk), cppEnv_fresh hc hdone.2 hn hk⟩, ← henvp]
          exact h2
        · intro q hq m sz hqn hqk
          rcases List.mem_cons.mp hq with rfl | hq
          · rw [hn] at hqn; cases hqn; rw [hk] at hqk; cases hqk
          · exact h3 q hq m sz hqn hqk
      | «structure» sz =>
        have he : cppConstEntry t p = none := by
          unfold cppConstEntry; rw [hn]; simp only [hk]
        rw [he] at henvp
        simp only at henvp
        obtain ⟨scope, name, tagged, ms, g1, g2, g3, g4⟩ := cpp_const_struct h hf hn hk (env := cppEnv t done) (by
          intro q m b v hm hk' ⟨k, hw⟩
          have hb := hbefore p k q (by rw [← hord]; simp) hw
          rw [← hord] at hb hnd
          exact cppEnv_lookup hc hdone.1 (before_mem hnd hb) hm hk')
        refine ⟨[.structure scope name tagged] :: decls, (colonPath p, ms) :: structs, by rw [g1, h1]; rfl, ?_, ?_, ?_⟩
        · rw [List.flatten_cons, List.singleton_append, cppConstCompile, g3, ← henvp, h2, g2]
          rfl
        · intro q hq m sz' hqn hqk
          rcases List.mem_cons.mp hq with rfl | hq
          · exact ⟨_, List.mem_cons_self⟩
          · obtain ⟨c, hc⟩ := h3 q hq m sz' hqn hqk
            exact ⟨c, List.mem_cons_of_mem _ hc⟩
        · intro x hx
          rcases List.mem_cons.mp hx with rfl | hx
          · exact ⟨p, n, sz, rfl, hn, hk, g4⟩
          · exact h4 x hx
      | _ => exact other (by rw [hk]; simp) (by rw [hk]; simp)

/-- **C93, C++.** For every accepted schema (without namespaces below definitions) the header declares exactly the constants of the schema, each
once, with its type and its value; and for every structure the optional fields, and no others, are `Tagged` with a constant that is declared
before, has the value the schema gives for the field, and is a value of the field. -/
theorem C93_cpp {s : Text} {t : Tree} (h : Compile s (.ok t)) (hf : Flat t) :
    ∃ header constants structs, CppConstHeader t (.ok header) ∧ (∀ out, CppConstHeader t out → out = .ok header) ∧
      cppConstCompile [] header = some (constants, structs) ∧
      (∀ ns k b z, ConstantAt t (ns ++ [k]) b z → ∃ ty, cppBuiltin b.cppText = some ty ∧ (cppFullName ns k, ty, z) ∈ constants) ∧
      (∀ c ∈ constants, ∃ ns k b, c.1 = cppFullName ns k ∧ ConstantAt t (ns ++ [k]) b c.2.2 ∧ cppBuiltin b.cppText = some c.2.1) ∧
      (∀ ns k n sz, t.descend (ns ++ [k]) = some n → n.kind = .structure sz → ∃ ms, (cppFullName ns k, ms) ∈ structs) ∧
      ∀ ns k n sz ms, t.descend (ns ++ [k]) = some n → n.kind = .structure sz → (cppFullName ns k, ms) ∈ structs →
        OptionalsOf CppHolds CppType.isSigned id t n ms := by
  have hc := compile_compiled h
  obtain ⟨n0, events, hrun, hnd, hall, hbefore⟩ := order_exists h
  obtain ⟨decls, structs, h1, h2, h3, h4⟩ := cpp_const_rest h hf hnd hbefore (dependencyOrder events) [] rfl
  have hh : cppConstHeaderN t n0 = some (.ok decls.flatten) := by
    unfold cppConstHeaderN
    rw [hrun]
    simp only
    rw [h1]; rfl
  refine ⟨decls.flatten, cppEnv t (dependencyOrder events), structs, ⟨n0, hh⟩, ?_, h2, ?_, ?_, ?_, ?_⟩
  · intro out ⟨n, ho⟩
    have hrun' : ∀ m, n ≤ m → n0 ≤ m → some out = some (.ok decls.flatten) := by
      intro m hm hm0
      unfold cppConstHeaderN at ho hh
      cases hr : Dfs.run (depChildren t) n (Dfs.init []) with
      | none => rw [hr] at ho; cases ho
      | some r =>
        have a1 := dfs_run_mono _ hr hm
        have a2 := dfs_run_mono _ hrun hm0
        rw [a1] at a2; cases a2
        rw [hr] at ho
        rw [hrun] at hh
        rw [← ho, ← hh]
    have := hrun' (max n n0) (Nat.le_max_left ..) (Nat.le_max_right ..)
    injection this
  · rintro ns k b z ⟨n, w, hn, hk⟩
    refine ⟨cppOf b, cppBuiltin_text b, List.mem_filterMap.mpr ⟨ns ++ [k], List.mem_reverse.mpr (hall _ n hn (by rw [hk]; simp)), ?_⟩⟩
    unfold cppConstEntry
    rw [hn]
    simp only [hk]
    rfl
  · intro c hcm
    obtain ⟨q, hq, he⟩ := List.mem_filterMap.mp hcm
    obtain ⟨n, b, hn, hk, e⟩ := cppConstEntry_some he
    obtain ⟨ns, k, rfl, _⟩ := hc.namespaces hf hn (by rw [hk]; rfl)
    exact ⟨ns, k, b.name, by rw [e]; rfl, ⟨n, b.width, hn, hk⟩, by rw [e]; exact cppBuiltin_text b.name⟩
  · intro ns k n sz hn hk
    exact h3 _ (hall _ n hn (by rw [hk]; simp)) n sz hn hk
  · intro ns k n sz ms hn hk hm
    obtain ⟨q, n', sz', e, hn', hk', r⟩ := h4 _ hm
    have := colonPath_inj (fun x hx => idChar_colon (hc.names hn (by rw [hk]; simp) x hx).2)
      (fun x hx => idChar_colon (hc.names hn' (by rw [hk']; simp) x hx).2) e
    subst this
    rw [hn] at hn'; cases hn'
    exact r

/-! ## Rust: names and literals -/

theorem splitCamel_shouting : ∀ (n : Nat) (t : Text), t.length ≤ n → Shouting t → ∀ b, splitCamel b t = t := by
  intro n
  induction n with
  | zero =>
    intro t ht _ b
    have : t = [] := List.length_eq_zero_iff.mp (by omega)
    subst this; simp [splitCamel]
  | succ n ih =>
    intro t ht h b
    match t with
    | [] => simp [splitCamel]
    | [c] => simp [splitCamel, h c (by simp)]
    | [c, x] => simp [splitCamel, h c (by simp)]
    | c :: x :: y :: t =>
      rw [splitCamel, h c (by simp)]
      simp only [Bool.and_false, Bool.false_eq_true, if_false, h y (by simp)]
      rw [ih (x :: y :: t) (by simpa using ht) fun c hc => h c (by simp [hc])]

theorem char_case {c : Char} (h : isLowerChar c = false) : upperChar (lowerChar c) = c := by
  unfold lowerChar
  by_cases hu : isUpperChar c = true
  · rw [if_pos hu]
    have hr : 65 ≤ c.toNat ∧ c.toNat ≤ 90 := by simpa [isUpperChar] using hu
    obtain ⟨v, hv⟩ : ∃ v : Fin 26, c.toNat = 65 + v := ⟨⟨c.toNat - 65, by omega⟩, by simp; omega⟩
    have hc : c = Char.ofNat (65 + v) := by rw [← hv, Char.ofNat_toNat]
    have hall : ∀ v : Fin 26, upperChar (Char.ofNat ((Char.ofNat (65 + v)).toNat + 32)) = Char.ofNat (65 + v) := by decide
    rw [hc]
    exact hall v
  · rw [if_neg hu]
    unfold upperChar
    rw [if_neg (by rw [h]; simp)]

theorem upper_not_lower (c : Char) : isLowerChar (upperChar c) = false := by
  unfold upperChar
  by_cases hu : isLowerChar c = true
  · rw [if_pos hu]
    have hr : 97 ≤ c.toNat ∧ c.toNat ≤ 122 := by simpa [isLowerChar] using hu
    obtain ⟨v, hv⟩ : ∃ v : Fin 26, c.toNat = 97 + v := ⟨⟨c.toNat - 97, by omega⟩, by simp; omega⟩
    have hall : ∀ v : Fin 26, isLowerChar (Char.ofNat (97 + v - 32)) = false := by decide
    rw [hv]
    exact hall v
  · rw [if_neg hu]
    simpa using hu

theorem rustConstName_shouting {k : Text} (h : Shouting k) : rustConstName k = k := by
  unfold rustConstName camelToSnake
  rw [splitCamel_shouting _ k (Nat.le_refl _) h, List.map_map]
  conv_rhs => rw [← List.map_id k]
  exact List.map_congr_left fun c hc => char_case (h c hc)

theorem rustConstName_shouts (k : Text) : Shouting (rustConstName k) := by
  intro c hc
  obtain ⟨d, _, rfl⟩ := List.mem_map.mp hc
  exact upper_not_lower d

theorem splitCamel_letters : ∀ (n : Nat) (t : Text), t.length ≤ n → ∀ b, (splitCamel b t).filter (fun c => decide (c ≠ '_')) = t.filter (fun c => decide (c ≠ '_')) := by
  intro n
  induction n with
  | zero =>
    intro t ht b
    have : t = [] := List.length_eq_zero_iff.mp (by omega)
    subst this; simp [splitCamel]
  | succ n ih =>
    intro t ht b
    match t with
    | [] => simp [splitCamel]
    | c :: t =>
      have hl : t.length ≤ n := by simpa using ht
      rw [splitCamel.eq_def]
      simp only
      split
      · rw [List.filter_cons, List.filter_cons, ih t hl]
      · match t with
        | [] => rfl
        | [x] => rfl
        | x :: y :: t =>
          simp only
          have hl' : t.length ≤ n := by simp at hl; omega
          split
          · rw [List.filter_cons, List.filter_cons, if_neg (show ¬ (decide ('_' ≠ '_') = true) by simp), List.filter_cons, List.filter_cons, ih t hl' true,
              List.filter_cons (x := c), List.filter_cons (x := x), List.filter_cons (x := y)]
          · rw [List.filter_cons, List.filter_cons (x := c), ih _ hl]

theorem upper_lower (c : Char) : upperChar (lowerChar c) = upperChar c := by
  by_cases h : isLowerChar c = true
  · unfold lowerChar
    rw [if_neg]
    intro hu
    have h1 : 97 ≤ c.toNat ∧ c.toNat ≤ 122 := by simpa [isLowerChar] using h
    have h2 : 65 ≤ c.toNat ∧ c.toNat ≤ 90 := by simpa [isUpperChar] using hu
    omega
  · have h' : isLowerChar c = false := by simpa using h
    rw [char_case h', upperChar, if_neg h]

theorem upper_underscore (c : Char) : upperChar c = '_' ↔ c = '_' := by
  unfold upperChar
  by_cases h : isLowerChar c = true
  · rw [if_pos h]
    have hr : 97 ≤ c.toNat ∧ c.toNat ≤ 122 := by simpa [isLowerChar] using h
    obtain ⟨v, hv⟩ : ∃ v : Fin 26, c.toNat = 97 + v := ⟨⟨c.toNat - 97, by omega⟩, by simp; omega⟩
    have hall : ∀ v : Fin 26, Char.ofNat (97 + v - 32) ≠ '_' ∧ Char.ofNat (97 + v) ≠ '_' := by decide
    have hc : c = Char.ofNat (97 + v) := by rw [← hv, Char.ofNat_toNat]
    rw [hv]
    exact ⟨fun e => absurd e (hall v).1, fun e => absurd (hc ▸ e) (hall v).2⟩
  · rw [if_neg h]

/-- **C93** (names in Rust). The name that Rust declares is the name of the constant in upper case, up to underscores: no letter is lost or changed. -/
theorem C93_rust_names (t : Text) : (rustConstName t).filter (fun c => decide (c ≠ '_')) = (t.filter fun c => decide (c ≠ '_')).map upperChar := by
  unfold rustConstName camelToSnake
  rw [List.map_map, List.filter_map, ← splitCamel_letters t.length t (Nat.le_refl _) false]
  have : (upperChar ∘ lowerChar) = upperChar := funext upper_lower
  rw [this]
  congr 1
  refine List.filter_congr fun c _ => ?_
  simp [upper_underscore]

theorem rustDecimal_format (n : Nat) : rustDecimal (insertUnderscores (natText n)) = some n := by
  have hv : (insertUnderscores (natText n)).filter (fun c => decide (c ≠ '_')) = natText n := by
    have := C59_value (n : Int)
    rwa [formatNumericLiteral, intText, if_neg (by omega), Int.natAbs_natCast] at this
  have hdig : ∀ c ∈ natText n, rustDigit c = true := fun c hc => by simpa [rustDigit, IsDigit] using natText_digits n c hc
  have hall : ∀ c ∈ insertUnderscores (natText n), rustDigit c = true ∨ c = '_' := by
    intro c hc
    by_cases h : c = '_'
    · exact .inr h
    · exact .inl (hdig c (by rw [← hv]; exact List.mem_filter.mpr ⟨hc, by simpa using h⟩))
  have hfil : (insertUnderscores (natText n)).filter rustDigit = natText n := by
    refine Eq.trans ?_ hv
    refine List.filter_congr fun c hc => ?_
    rcases hall c hc with h | rfl
    · rw [h]
      symm
      rw [decide_eq_true_eq]
      rintro rfl
      revert h; decide
    · decide
  unfold rustDecimal
  rw [hfil, if_pos]
  · exact congrArg some (digitsVal_natText n)
  · refine ⟨?_, List.all_eq_true.mpr fun c hc => by rcases hall c hc with h | rfl <;> simp [*]⟩
    obtain ⟨c, u, hcu⟩ := List.exists_cons_of_ne_nil (natText_ne_nil n)
    have h1 := hdig c (by rw [hcu]; simp)
    rw [hcu, insertUnderscores]
    split <;> simp [h1]

theorem rustLiteral_format (z : Int) : rustLiteral (formatNumericLiteral z) = some z := by
  unfold formatNumericLiteral intText
  by_cases hz : z < 0
  · rw [if_pos hz]
    have : insertUnderscores ('-' :: natText z.natAbs) = '-' :: insertUnderscores (natText z.natAbs) := by
      rw [insertUnderscores]
      have : isDigitChar '-' = false := by decide
      simp [this]
    rw [this, rustLiteral, rustDecimal_format]
    exact congrArg some (by show -(z.natAbs : Int) = z; omega)
  · rw [if_neg hz]
    have hd := rustDecimal_format z.natAbs
    unfold rustLiteral
    split
    · rename_i u he
      rw [he] at hd
      unfold rustDecimal at hd
      rw [if_neg (fun h => absurd (show rustDigit '-' = true from h.1) (by decide))] at hd
      cases hd
    · rw [hd]
      exact congrArg some (by show (z.natAbs : Int) = z; omega)

/-! ## Rust: constants and their uses -/

/-- The constant at `p` as Rust declares it. -/
def rustConstEntry (e : Path × Tree) : Option (Path × Text × Text) :=
  match e.2.kind with
  | .constant b v => some (e.1, b.name.text, formatNumericLiteral v)
  | _ => none

theorem rustConstEntry_some {e : Path × Tree} {x : Path × Text × Text} (h : rustConstEntry e = some x) :
    ∃ b v, e.2.kind = .constant b v ∧ x = (e.1, b.name.text, formatNumericLiteral v) := by
  unfold rustConstEntry at h
  split at h
  · rename_i b v hk
    cases h
    exact ⟨b, v, hk, rfl⟩
  · cases h

/-- All constants are found by their paths. -/
def RustConstsFound (t : Tree) (items : List RustConstItem) : Prop := ∀ q m b v, t.descend q = some m → m.kind = .constant b v →
  (rustConstants items).lookup q = some (b.name.text, formatNumericLiteral v)

theorem optional_member {t : Tree} (hc : Compiled t) (p : Path) {q : Path} {f : Tree} (hf : t.descend q = some f) (hk : f.kind.isField = true) :
    (rustOptional t p f = .ok none ∧ ∀ z, ¬ InvalidOf t f z) ∨ ∃ ref m b ct z, ref ∈ f.children ∧ ref.kind = .ref .invalidValue ∧
      t.descend ref.targetPath = some m ∧ m.kind = .constant ct z ∧ ct.name = b.name ∧
      rustOptional t p f = .ok (some (escapeRust f.name, b.name.text, rustQualified p ref.targetPath)) ∧ (∃ rg o, f.kind = .field (.basic b) rg o) ∧
      InRange b.width b.name.isSigned z ∧ InvalidOf t f z ∧ ∀ z', InvalidOf t f z' → z' = z := by
  obtain ⟨ty, rg, o, hk⟩ := field_kind hk
  rcases optional_field hc hf hk with ⟨h1, h2⟩ | ⟨ref, m, b, ct, z, h1, h2, h3, h4, h5, h6, rfl, h8, h9, h10, h11⟩
  · left
    exact ⟨by unfold rustOptional; rw [h1]; rfl, h2⟩
  · right
    refine ⟨ref, m, b, ct, z, h2, h3, h5, h6, h8.symm, ?_, ⟨rg, o, hk⟩, h9, h10, h11⟩
    unfold rustOptional
    rw [h1, hk]
    simp only [Kind.fieldType, h4, rustFieldType, bind, Except.bind, pure, Except.pure]

/-- What the compiler makes of an optional field. -/
def rustUse (items : List RustConstItem) (scope : Path) (m : Text × Text × Text) : Option (Text × RustType × Int) := do
  let q ← rustLookup scope (splitColons m.2.2)
  let c ← (rustConstants items).lookup q
  let t ← rustBuiltin m.2.1
  let z ← rustLiteral c.2
  if c.1 = m.2.1 then some (m.1, t, z) else none

theorem rust_const_struct {s : Text} {t : Tree} (h : Compile s (.ok t)) (hf : Flat t) (hr : RustConstsNameable t) {p : Path} {n : Tree} {sz : Option Nat}
    (hn : t.descend p = some n) (hk : n.kind = .structure sz) :
    ∃ scope name optional, rustConstNode t (p, n) = .ok [.structure scope name optional] ∧ scope ++ [name] = p ∧
      ∀ items, RustConstsFound t items → ∃ ms, optional.mapM (rustUse items scope) = some ms ∧
        OptionalsOf RustHolds RustType.isSigned escapeRust t n ms := by
  have hc := compile_compiled h
  obtain ⟨ns, k, rfl, hkn, hns0, _, _⟩ := hc.namespaces hf hn (by rw [hk]; rfl)
  have hfields : ∀ f ∈ n.fields, f ∈ n.children ∧ f.kind.isField = true := fun f hf => by
    have := List.mem_filter.mp hf
    exact ⟨this.1, this.2⟩
  have key := fun f (hm : f ∈ n.fields) => optional_member hc (ns ++ [k]) (hc.child hn (hfields f hm).1) (hfields f hm).2
  obtain ⟨ys, hys⟩ : ∃ ys, n.fields.mapM (rustOptional t (ns ++ [k])) = .ok ys := by
    obtain ⟨ys, _, h1, _⟩ := mapM_optional (g := rustOptional t (ns ++ [k])) (l := n.fields) (k := fun _ => some ()) (by
      intro f hm
      rcases key f hm with ⟨e, _⟩ | ⟨ref, m, b, ct, z, _, _, _, _, _, e, _⟩ <;> exact ⟨_, e⟩) (by intros; exact ⟨_, rfl⟩)
    exact ⟨ys, h1⟩
  refine ⟨ns, k, ys.filterMap id, ?_, rfl, ?_⟩
  · unfold rustConstNode
    simp only [hk, hkn, List.dropLast_concat]
    rw [hys]; rfl
  intro items hfound
  have huse : ∀ f ∈ n.fields, ∀ (ref m : Tree) (b ct : BasicType) (z : Int), ref ∈ f.children → ref.kind = .ref .invalidValue → t.descend ref.targetPath = some m → m.kind = .constant ct z →
      ct.name = b.name → rustUse items ns (escapeRust f.name, b.name.text, rustQualified (ns ++ [k]) ref.targetPath) = some (escapeRust f.name, rustOf b.name, z) := by
    intro f hm ref m b ct z hr' hrk hd hmk hb
    have hq := hc.names hd (by rw [hmk]; simp)
    have hq0 : ref.targetPath ≠ [] := by
      obtain ⟨ns', k', e, _⟩ := hc.namespaces hf hd (by rw [hmk]; rfl)
      rw [e]; simp
    obtain ⟨l1, _⟩ := rustQualified_lookup (ns := ns) (k := k) (q := ref.targetPath) hns0 (fun x hx => idChar_colon (hq x hx).2) (hr.super _ m _ _ hd hmk) hq0
    unfold rustUse
    simp only [l1, hfound _ m ct z hd hmk, Option.bind_eq_bind, Option.bind_some, rustBuiltin_text, rustLiteral_format, hb, if_true]
  obtain ⟨ys', ms, h1, h2, h3, h4⟩ := mapM_optional (g := rustOptional t (ns ++ [k])) (l := n.fields) (k := rustUse items ns) (by
      intro f hm
      rcases key f hm with ⟨e, _⟩ | ⟨ref, m, b, ct, z, _, _, _, _, _, e, _⟩ <;> exact ⟨_, e⟩) (by
      intro f hm y hy
      rcases key f hm with ⟨e, _⟩ | ⟨ref, m, b, ct, z, g1, g2, g3, g4, g5, e, ⟨rg, o, hfk⟩, g6, _⟩
      · rw [e] at hy; cases hy
      · rw [e] at hy; cases hy
        exact ⟨_, huse f hm ref m b ct z g1 g2 g3 g4 g5⟩)
  rw [hys] at h1; cases h1
  refine ⟨ms, h2, ?_, ?_⟩
  · intro x hx
    obtain ⟨f, hm, y, hy, hz⟩ := h3 x hx
    rcases key f hm with ⟨e, _⟩ | ⟨ref, m, b, ct, v, g1, g2, g3, g4, g5, e, ⟨rg, o, hfk⟩, g6, g7, _⟩
    · rw [e] at hy; cases hy
    · rw [e] at hy; cases hy
      rw [huse f hm ref m b ct v g1 g2 g3 g4 g5] at hz
      cases hz
      obtain ⟨hw, fd, e1, e2, e3⟩ := field_bits h (hc.child hn (hfields f hm).1) hfk
      refine ⟨f, (hfields f hm).1, fd, e1, rfl, g7, ?_, ?_, ?_⟩
      · rw [e3]; exact rustOf_signed b.name
      · intro h0; rw [e2]; exact rustOf_holds b.name hw (by rw [← e2]; exact h0)
      · rw [e2, e3]; exact g6
  · intro f hfm z hfk hinv
    have hfm' : f ∈ n.fields := List.mem_filter.mpr ⟨hfm, hfk⟩
    rcases key f hfm' with ⟨_, e⟩ | ⟨ref, m, b, ct, v, g1, g2, g3, g4, g5, e, ⟨rg, o, hfk'⟩, g6, g7, g8⟩
    · exact absurd hinv (e z)
    · refine ⟨rustOf b.name, h4 f hfm' _ _ e ?_⟩
      rw [huse f hfm' ref m b ct v g1 g2 g3 g4 g5, g8 z hinv]

theorem rust_const_nodes {s : Text} {t : Tree} (h : Compile s (.ok t)) (hf : Flat t) (hr : RustConstsNameable t) :
    ∀ L : List (Path × Tree), (∀ e ∈ L, t.descend e.1 = some e.2) →
    ∃ itemss, L.mapM (rustConstNode t) = .ok itemss ∧ rustConstants itemss.flatten = L.filterMap rustConstEntry ∧
      ∀ items, RustConstsFound t items → ∃ uses, rustConstUses items itemss.flatten = some uses ∧
        (∀ e ∈ L, ∀ sz, e.2.kind = .structure sz → ∃ ms, (e.1, ms) ∈ uses) ∧
        ∀ x ∈ uses, ∃ n sz, t.descend x.1 = some n ∧ n.kind = .structure sz ∧ OptionalsOf RustHolds RustType.isSigned escapeRust t n x.2 := by
  have hc := compile_compiled h
  intro L
  induction L with
  | nil => intro _; exact ⟨[], rfl, rfl, fun items _ => ⟨[], rfl, by simp, by simp⟩⟩
  | cons e L ih =>
    intro hL
    obtain ⟨p, n⟩ := e
    have hn : t.descend p = some n := hL (p, n) (by simp)
    obtain ⟨itemss, h1, h2, h4⟩ := ih fun e he => hL e (by simp [he])
    rw [List.mapM_cons]
    have other : ∀ (_ : ∀ b v, n.kind ≠ .constant b v) (_ : ∀ sz, n.kind ≠ .structure sz), ∃ itemss,
        (do let x ← rustConstNode t (p, n); let y ← L.mapM (rustConstNode t); pure (x :: y) : Gen.M _) = .ok itemss ∧
        rustConstants itemss.flatten = ((p, n) :: L).filterMap rustConstEntry ∧
        ∀ items, RustConstsFound t items → ∃ uses, rustConstUses items itemss.flatten = some uses ∧
          (∀ e ∈ (p, n) :: L, ∀ sz, e.2.kind = .structure sz → ∃ ms, (e.1, ms) ∈ uses) ∧
          ∀ x ∈ uses, ∃ n sz, t.descend x.1 = some n ∧ n.kind = .structure sz ∧ OptionalsOf RustHolds RustType.isSigned escapeRust t n x.2 := by
      intro hk1 hk2
      have hnode : rustConstNode t (p, n) = .ok [] := by
        unfold rustConstNode
        cases hk : n.kind with
        | constant b v => exact absurd hk (hk1 b v)
        | «structure» sz => exact absurd hk (hk2 sz)
        | _ => rfl
      have hent : rustConstEntry (p, n) = none := by
        unfold rustConstEntry
        cases hk : n.kind with
        | constant b v => exact absurd hk (hk1 b v)
        | _ => rfl
      refine ⟨[] :: itemss, by rw [hnode, h1]; rfl, by rw [List.filterMap_cons_none hent]; exact h2, ?_⟩
      intro items hi
      obtain ⟨uses, c1, c2, c3⟩ := h4 items hi
      refine ⟨uses, c1, ?_, c3⟩
      intro e he sz hsz
      rcases List.mem_cons.mp he with rfl | he
      · exact absurd hsz (hk2 sz)
      · exact c2 e he sz hsz
    cases hk : n.kind with
    | constant b v =>
      obtain ⟨ns, k, rfl, hkn, _, _, _⟩ := hc.namespaces hf hn (by rw [hk]; rfl)
      have hnode : rustConstNode t (ns ++ [k], n) = .ok [.constant ns k b.name.text (formatNumericLiteral v)] := by
        unfold rustConstNode
        simp only [hk, hkn, List.dropLast_concat, rustConstName_shouting (hr.shouting ns k n b v hn hk)]
        rfl
      have hent : rustConstEntry (ns ++ [k], n) = some (ns ++ [k], b.name.text, formatNumericLiteral v) := by
        unfold rustConstEntry; simp only [hk]
      refine ⟨[.constant ns k b.name.text (formatNumericLiteral v)] :: itemss, by rw [hnode, h1]; rfl, ?_, ?_⟩
      · rw [List.filterMap_cons_some hent, ← h2]; rfl
      · intro items hi
        obtain ⟨uses, c1, c2, c3⟩ := h4 items hi
        refine ⟨uses, by rw [List.flatten_cons, List.singleton_append, rustConstUses]; exact c1, ?_, c3⟩
        intro e he sz hsz
        rcases List.mem_cons.mp he with rfl | he
        · rw [hk] at hsz; cases hsz
        · exact c2 e he sz hsz
    | «structure» sz =>
      obtain ⟨scope, name, optional, g1, g2, g3⟩ := rust_const_struct h hf hr hn hk
      have hent : rustConstEntry (p, n) = none := by unfold rustConstEntry; simp only [hk]
      refine ⟨[.structure scope name optional] :: itemss, by rw [g1, h1]; rfl, ?_, ?_⟩
      · rw [List.filterMap_cons_none hent, ← h2]; rfl
      · intro items hi
        obtain ⟨uses, c1, c2, c3⟩ := h4 items hi
        obtain ⟨ms, m1, m2⟩ := g3 items hi
        refine ⟨(p, ms) :: uses, ?_, ?_, ?_⟩
        · rw [List.flatten_cons, List.singleton_append, rustConstUses]
          show (do let members ← optional.mapM (rustUse items scope); _) = _
          rw [m1, c1, ← g2]; rfl
        · intro e he sz' hsz
          rcases List.mem_cons.mp he with rfl | he
          · exact ⟨_, List.mem_cons_self⟩
          · obtain ⟨c, hc⟩ := c2 e he sz' hsz
            exact ⟨c, List.mem_cons_of_mem _ hc⟩
        · intro x hx
          rcases List.mem_cons.mp hx with rfl | hx
          · exact ⟨n, sz, hn, hk, m2⟩
          · exact c3 x hx
    | _ => exact other (by rw [hk]; simp) (by rw [hk]; simp)

/-- **C93, Rust.** For every accepted schema (without namespaces below definitions, with constants that have no lower-case letters in their
names, are not of type `bool` and are not in a namespace `super`) the generated constants are those of the schema, each once, with its type
and its value; and for every structure the optional fields, and no others, refer to a constant that exists, has the type of the field, the
value the schema gives, and is a value of the field. -/
theorem C93_rust {s : Text} {t : Tree} (h : Compile s (.ok t)) (hf : Flat t) (hr : RustConstsNameable t) :
    ∃ items uses, rustConstProgram t = .ok items ∧ rustConstCompile items = some uses ∧
      (∀ p b z, ConstantAt t p b z → ∃ value, rustLiteral value = some z ∧ (p, b.text, value) ∈ rustConstants items) ∧
      (∀ c ∈ rustConstants items, ∃ b z, ConstantAt t c.1 b z ∧ c.2.1 = b.text ∧ rustLiteral c.2.2 = some z) ∧
      (∀ p n sz, t.descend p = some n → n.kind = .structure sz → ∃ ms, (p, ms) ∈ uses) ∧
      ∀ p n sz ms, t.descend p = some n → n.kind = .structure sz → (p, ms) ∈ uses → OptionalsOf RustHolds RustType.isSigned escapeRust t n ms := by
  have hc := compile_compiled h
  obtain ⟨itemss, h1, h2, h4⟩ := rust_const_nodes h hf hr ((t.iter []).filter fun e => rustVisited t e.1) (by
    intro e he
    exact (iter_descend hc.lk.good).mp (List.mem_filter.mp he).1)
  have hin : ∀ {p n}, t.descend p = some n → Spec.Kind.isDefinition n.kind = true → (p, n) ∈ (t.iter []).filter fun e => rustVisited t e.1 := by
    intro p n hn hd
    rw [List.mem_filter]
    exact ⟨(iter_descend hc.lk.good).mpr hn, rust_visited hc hf hn hd⟩
  have hnodup : ((rustConstants itemss.flatten).map (·.1)).Nodup := by
    rw [h2]
    have hnd : ((t.iter []).map (·.1)).Nodup := iter_nodup t hc.lk.good []
    have hsub : ∀ L : List (Path × Tree), ((L.filterMap rustConstEntry).map Prod.fst).Sublist (L.map (·.1)) := by
      intro L
      induction L with
      | nil => exact List.Sublist.refl _
      | cons e L ih =>
        rw [List.map_cons]
        cases he : rustConstEntry e with
        | none => rw [List.filterMap_cons_none he]; exact ih.cons _
        | some x =>
          rw [List.filterMap_cons_some he, List.map_cons]
          obtain ⟨b, v, _, rfl⟩ := rustConstEntry_some he
          exact ih.cons_cons _
    exact ((hsub _).trans (List.filter_sublist.map _)).nodup hnd
  have hmem : ∀ q m b v, t.descend q = some m → m.kind = .constant b v → (q, b.name.text, formatNumericLiteral v) ∈ rustConstants itemss.flatten := by
    intro q m b v hm hk
    rw [h2]
    exact List.mem_filterMap.mpr ⟨(q, m), hin hm (by rw [hk]; rfl), by unfold rustConstEntry; simp only [hk]⟩
  have hfound : RustConstsFound t itemss.flatten := fun q m b v hm hk => lookup_of_nodup hnodup (hmem q m b v hm hk)
  have hconst : ∀ c ∈ rustConstants itemss.flatten, ∃ n b v, t.descend c.1 = some n ∧ n.kind = .constant b v ∧ c.2 = (b.name.text, formatNumericLiteral v) := by
    intro c hcm
    rw [h2] at hcm
    obtain ⟨e, he, hx⟩ := List.mem_filterMap.mp hcm
    obtain ⟨b, v, hk, rfl⟩ := rustConstEntry_some hx
    exact ⟨e.2, b, v, (iter_descend hc.lk.good).mp (List.mem_filter.mp he).1, hk, rfl⟩
  obtain ⟨uses, c1, c2, c3⟩ := h4 itemss.flatten hfound
  refine ⟨itemss.flatten, uses, ?_, ?_, ?_, ?_, ?_, ?_⟩
  · unfold rustConstProgram
    rw [h1]; rfl
  · unfold rustConstCompile
    have hall : (rustConstants itemss.flatten).all (fun c => rustConstOk c.2.1 c.2.2) = true := by
      rw [List.all_eq_true]
      intro c hcm
      obtain ⟨n, b, v, hn, hk, e⟩ := hconst c hcm
      have hb := hr.integers _ _ _ _ hn hk
      have hbi : rustBuiltin b.name.text = some (.int b.name.width b.name.isSigned) := by
        rw [rustBuiltin_text]
        cases hbn : b.name <;> first | rfl | exact absurd hbn hb
      rw [e]
      unfold rustConstOk
      simp only [hbi, rustLiteral_format, decide_eq_true_eq]
      exact constant_fits h hn hk
    rw [if_pos ⟨hnodup, hall⟩]
    exact c1
  · rintro p b z ⟨n, w, hn, hk⟩
    exact ⟨_, rustLiteral_format z, hmem p n ⟨b, w⟩ z hn hk⟩
  · intro c hcm
    obtain ⟨n, b, v, hn, hk, e⟩ := hconst c hcm
    exact ⟨b.name, v, ⟨n, b.width, hn, hk⟩, by rw [e], by rw [e]; exact rustLiteral_format v⟩
  · intro p n sz hn hk
    exact c2 (p, n) (hin hn (by rw [hk]; rfl)) sz hk
  · intro p n sz ms hn hk hm
    obtain ⟨n', sz', hn', hk', hd⟩ := c3 _ hm
    rw [hn] at hn'; cases hn'
    exact hd

/-! ## Rust: constants with lower-case letters -/

theorem rustConstUses_none {items : List RustConstItem} {scope : Path} {name : Text} {optional : List (Text × Text × Text)}
    {m : Text × Text × Text} (hm : m ∈ optional) (hu : rustUse items scope m = none) :
    ∀ {l : List RustConstItem}, .structure scope name optional ∈ l → rustConstUses items l = none := by
  have hnone : optional.mapM (rustUse items scope) = none := by
    induction optional with
    | nil => cases hm
    | cons a l ih =>
      rw [List.mapM_cons]
      rcases List.mem_cons.mp hm with rfl | hm
      · rw [hu]; rfl
      · rw [ih hm]
        cases rustUse items scope a <;> rfl
  intro l
  induction l with
  | nil => intro h; cases h
  | cons a l ih =>
    intro h
    rcases List.mem_cons.mp h with rfl | h'
    · rw [rustConstUses]
      show (do let members ← optional.mapM (rustUse items scope); _) = _
      rw [hnone]; rfl
    · cases a with
      | constant => rw [rustConstUses]; exact ih h'
      | «structure» sc nm op =>
        rw [rustConstUses, ih h']
        cases List.mapM (m := Option) _ op <;> rfl

theorem rust_names_shout {t : Tree} {L : List (Path × Tree)} {itemss : List (List RustConstItem)} (h : L.mapM (rustConstNode t) = .ok itemss) :
    ∀ c ∈ rustConstants itemss.flatten, ∃ ns k, c.1 = ns ++ [k] ∧ Shouting k := by
  intro c hc
  obtain ⟨item, hi, hx⟩ := List.mem_filterMap.mp hc
  obtain ⟨l, hl, hil⟩ := List.mem_flatten.mp hi
  obtain ⟨e, _, he⟩ := mapM_mem h l hl
  cases item with
  | «structure» => cases hx
  | constant scope name type value =>
    injection hx with hx
    unfold rustConstNode at he
    split at he
    · cases hm : e.2.fields.mapM (rustOptional t e.1) with
      | error x => rw [hm] at he; cases he
      | ok x =>
        rw [hm] at he
        cases he
        simp at hil
    · cases he
      rw [List.mem_singleton] at hil
      cases hil
      exact ⟨_, _, by rw [← hx], rustConstName_shouts _⟩
    · cases he; cases hil

theorem mapM_each {α β : Type} {f : α → Gen.M β} : ∀ {l : List α} {r : List β}, l.mapM f = .ok r → ∀ a ∈ l, ∃ b, f a = .ok b ∧ b ∈ r
  | [], _, _, _, ha => by cases ha
  | x :: l, r, h, a, ha => by
    rw [List.mapM_cons] at h
    cases hx : f x with
    | error e => rw [hx] at h; cases h
    | ok b =>
      rw [hx] at h
      cases hl : l.mapM f with
      | error e => rw [hl] at h; cases h
      | ok bs =>
        rw [hl] at h
        cases h
        rcases List.mem_cons.mp ha with rfl | ha
        · exact ⟨b, hx, by simp⟩
        · obtain ⟨b', h1, h2⟩ := mapM_each hl a ha
          exact ⟨b', h1, by simp [h2]⟩

/-- **C93, Rust (limits).** An optional field whose constant has a lower-case letter in its name does not compile: the constant is declared
in upper case, the field refers to it as it is written in the schema. -/
theorem C93_rust_lower_case {s : Text} {t : Tree} (h : Compile s (.ok t)) (hf : Flat t) {p : Path} {n f ref m : Tree} {sz : Option Nat} {ns : Path} {k : Text}
    {b : BasicType} {z : Int} (hn : t.descend p = some n) (hk : n.kind = .structure sz) (hfn : f ∈ n.children) (hfk : f.kind.isField = true)
    (hr : ref ∈ f.children) (hrk : ref.kind = .ref .invalidValue) (hq : ref.targetPath = ns ++ [k]) (hm : t.descend (ns ++ [k]) = some m) (hmk : m.kind = .constant b z)
    (hsuper : (ns ++ [k]).head? ≠ some "super".toList) (hlow : ¬ Shouting k) {items : List RustConstItem} (hp : rustConstProgram t = .ok items) :
    rustConstCompile items = none := by
  have hc := compile_compiled h
  unfold rustConstProgram at hp
  cases hi : ((t.iter []).filter fun e => rustVisited t e.1).mapM (rustConstNode t) with
  | error e => rw [hi] at hp; cases hp
  | ok itemss =>
    rw [hi] at hp
    cases hp
    obtain ⟨pns, pk, rfl, hkn, hns0, _, _⟩ := hc.namespaces hf hn (by rw [hk]; rfl)
    obtain ⟨x, hx, hxm⟩ := mapM_each hi (pns ++ [pk], n) (List.mem_filter.mpr ⟨(iter_descend hc.lk.good).mpr hn, rust_visited hc hf hn (by rw [hk]; rfl)⟩)
    unfold rustConstNode at hx
    simp only [hk, hkn, List.dropLast_concat] at hx
    cases ho : n.fields.mapM (rustOptional t (pns ++ [pk])) with
    | error e => rw [ho] at hx; cases hx
    | ok ys =>
      rw [ho] at hx
      cases hx
      obtain ⟨y, hy, hym⟩ := mapM_each ho f (List.mem_filter.mpr ⟨hfn, hfk⟩)
      rcases optional_member hc (pns ++ [pk]) (hc.child hn hfn) hfk with ⟨_, e⟩ | ⟨ref', m', b', ct, v, g1, g2, g3, g4, g5, e, _, _, _, g8⟩
      · obtain ⟨m0, _, _, h3, _⟩ := hc.lk.target (hc.child (hc.child hn hfn) hr) hrk
        rename_i hd0 _
        have : m0 = m := by
          have := hd0; rw [hq] at this; rw [hm] at this; exact (Option.some.inj this).symm
        subst this
        exact absurd ⟨ref, hr, hrk, m0, b, h3, hmk⟩ (e z)
      · have href : ref' = ref := by
          obtain ⟨ty, rg, o, hk'⟩ := field_kind hfk
          exact (hc.constants _ f ty rg o (hc.child hn hfn) hk').2 ref' g1 ref hr g2 hrk
        subst href
        rw [e] at hy
        cases hy
        have hnames := hc.names hm (by rw [hmk]; simp)
        obtain ⟨l1, _⟩ := rustQualified_lookup (ns := pns) (k := pk) (q := ns ++ [k]) hns0 (fun x hx => idChar_colon (hnames x hx).2) hsuper (by simp)
        have huse : rustUse itemss.flatten pns (escapeRust f.name, b'.name.text, rustQualified (pns ++ [pk]) ref'.targetPath) = none := by
          have hl : (rustConstants itemss.flatten).lookup (ns ++ [k]) = none := by
            rw [List.lookup_eq_none_iff]
            intro c hcm
            obtain ⟨ns', k', he, hs⟩ := rust_names_shout hi c hcm
            rw [he]
            have : ns ++ [k] ≠ ns' ++ [k'] := by
              intro hh
              have := (List.append_inj' hh rfl).2
              injection this with this
              exact hlow (this ▸ hs)
            simpa using this
          unfold rustUse
          rw [hq]
          simp only [l1, hl, Option.bind_eq_bind, Option.bind_some, Option.bind_none]
        unfold rustConstCompile
        split
        · exact rustConstUses_none (List.mem_filterMap.mpr ⟨_, hym, rfl⟩) huse (List.mem_flatten.mpr ⟨_, hxm, List.mem_singleton.mpr rfl⟩)
        · rfl

/-! ## Generated members and C91, C92 -/

theorem optional_range {τ : Type} {holds : τ → Nat → Prop} {signed : τ → Bool} {rename : Text → Text} {t n : Tree} {ms : List (Text × τ × Int)}
    (ho : OptionalsOf holds signed rename t n ms) (hnd : ((n.children.filterMap declaredField).map fun f => rename f.name.toList).Nodup)
    {f : FieldDecl} (hf : f ∈ n.children.filterMap declaredField) {ty : τ} {z : Int} (hm : (rename f.name.toList, ty, z) ∈ ms) :
    InRange f.width f.isSigned z := by
  obtain ⟨g, hg, fd, h1, h2, _, _, _, h3⟩ := ho.sound _ hm
  have hfd : fd ∈ n.children.filterMap declaredField := List.mem_filterMap.mpr ⟨g, hg, h1⟩
  have hname : fd.name.toList = g.name := by
    unfold declaredField at h1
    split at h1 <;> first | cases h1; done | (cases h1; simp)
  have : f = fd := by
    refine List.inj_on_of_nodup_map hnd hf hfd ?_
    rw [hname]; exact h2
  subst this
  exact h3

/-- **C93 and C91, C92 in Rust.** The members of a generated struct, with their constants, are as the theorems on comparison, copying and
optional fields require. -/
theorem C93_rust_slots {t n : Tree} {fs : List FieldDecl} (hfs : fs = n.children.filterMap declaredField) (hg : GoodStruct fs)
    {c : NativeClass (RustType × Option (List Int))} (hd : Declares (fun ty w => RustHolds ty.1 w) (fun ty => ty.1.isSigned) escapeRust fs c)
    {ms : List (Text × RustType × Int)} (ho : OptionalsOf RustHolds RustType.isSigned escapeRust t n ms)
    (hnd : (fs.map fun f => escapeRust f.name.toList).Nodup) {i : Nat} {f : FieldDecl} (hi : fs[i]? = some f) (hp : RustPortable (bitOffset fs i) f.width) :
    ∃ ty o w, c.members[i]? = some (escapeRust f.name.toList, ty, o, w) ∧
      ∀ invalid, (∀ z, invalid = some z → ∃ ty', (escapeRust f.name.toList, ty', z) ∈ ms) → RustSlotOk c.size ⟨ty.1, o, w, invalid⟩ := by
  subst hfs
  obtain ⟨ty, h1, h2, h3⟩ := hd.members i f hi
  have hw := hg.widths f (List.mem_of_getElem? hi)
  refine ⟨ty, _, _, h1, fun invalid hz => ⟨hw.1, hw.2, h3 (by omega), hp, ?_, ?_⟩⟩
  · rw [hd.size]
    have := bitOffset_fits hi
    simp only [byteSize]
    omega
  · intro z hzz
    obtain ⟨ty', hm⟩ := hz z hzz
    rw [show (RustSlot.mk ty.1 (bitOffset _ i) f.width invalid).type.isSigned = f.isSigned from h2]
    exact optional_range ho hnd (List.mem_of_getElem? hi) hm

/-- **C93 and C91, C92 in C++.** The members of a generated class, with their constants, are as the theorems on comparison, copying and
optional fields require. -/
theorem C93_cpp_slots {t n : Tree} {fs : List FieldDecl} (hfs : fs = n.children.filterMap declaredField) (hg : GoodStruct fs)
    {c : NativeClass (CppType × Option (List Int))} (hd : Declares (fun ty w => CppHolds ty.1 w) (fun ty => ty.1.isSigned) id fs c)
    {ms : List (Text × CppType × Int)} (ho : OptionalsOf CppHolds CppType.isSigned id t n ms) {i : Nat} {f : FieldDecl} (hi : fs[i]? = some f) :
    ∃ ty o w, c.members[i]? = some (f.name.toList, ty, o, w) ∧
      ∀ invalid, (∀ z, invalid = some z → ∃ ty', (f.name.toList, ty', z) ∈ ms) → CppSlotOk c.size ⟨ty.1, o, w, invalid⟩ := by
  subst hfs
  obtain ⟨ty, h1, h2, h3⟩ := hd.members i f hi
  have hw := hg.widths f (List.mem_of_getElem? hi)
  refine ⟨ty, _, _, h1, fun invalid hz => ⟨hw.1, hw.2, h3 (by omega), ?_, ?_⟩⟩
  · rw [hd.size]
    have := bitOffset_fits hi
    simp only [byteSize]
    omega
  · intro z hzz
    obtain ⟨ty', hm⟩ := hz z hzz
    rw [show (CppSlot.mk ty.1 (bitOffset _ i) f.width invalid).type.isSigned = f.isSigned from h2]
    refine optional_range ho ?_ (List.mem_of_getElem? hi) hm
    have := hg.names.map (f := fun x : String => x.toList) (fun a b h => String.toList_inj.mp h)
    rwa [List.map_map] at this

/-- The places of the members follow each other without gaps. -/
theorem C93_consecutive {τ : Type} {holds : τ → Nat → Prop} {signed : τ → Bool} {rename : Text → Text} {fs : List FieldDecl} {c : NativeClass τ}
    (hd : Declares holds signed rename fs c) : Consecutive 0 (c.members.map fun m => (m.2.2.1, m.2.2.2)) (bitOffset fs fs.length) := by
  have key : ∀ (k : Nat) (l : List (Text × τ × Nat × Nat)) (gs : List FieldDecl), l.length = gs.length → fs.drop k = gs →
      (∀ (i : Nat) f, gs[i]? = some f → ∃ ty, l[i]? = some (rename f.name.toList, ty, bitOffset fs (k + i), f.width)) →
      Consecutive (bitOffset fs k) (l.map fun m => (m.2.2.1, m.2.2.2)) (bitOffset fs fs.length) := by
    intro k l
    induction l generalizing k with
    | nil =>
      intro gs hl hk _
      have : gs = [] := List.length_eq_zero_iff.mp hl.symm
      subst this
      rw [List.drop_eq_nil_iff] at hk
      simp only [List.map_nil, Consecutive, bitOffset]
      rw [List.take_of_length_le hk, List.take_length]
    | cons a l ih =>
      intro gs hl hk hm
      obtain ⟨g, gs, rfl⟩ : ∃ g gs', gs = g :: gs' := by
        cases gs with
        | nil => simp at hl
        | cons g gs => exact ⟨g, gs, rfl⟩
      obtain ⟨ty, h0⟩ := hm 0 g rfl
      rw [List.getElem?_cons_zero] at h0
      cases h0
      refine ⟨rfl, ?_⟩
      have hg : fs[k]? = some g := by
        have := congrArg (fun l => l[0]?) hk
        simpa using this
      have hb : bitOffset fs k + g.width = bitOffset fs (k + 1) := by
        unfold bitOffset
        rw [List.take_add_one, hg]
        simp
      show Consecutive (bitOffset fs k + g.width) _ _
      rw [hb]
      refine ih (k + 1) gs (by simpa using hl) ?_ ?_
      · rw [← List.drop_drop, hk]; rfl
      · intro i f hi
        obtain ⟨ty', h'⟩ := hm (i + 1) f (by simpa using hi)
        exact ⟨ty', by rw [List.getElem?_cons_succ] at h'; rw [h']; congr 5; omega⟩
  have := key 0 c.members fs hd.length rfl (fun i f hi => by
    obtain ⟨ty, h1, _⟩ := hd.members i f hi
    exact ⟨ty, by rw [h1, Nat.zero_add]⟩)
  simpa [bitOffset] using this

end Props
