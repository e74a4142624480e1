import Verif.Lemmas.GenNative

/-!
# C89: the classes generated for C++, Rust and Go

For every accepted schema: which classes the generated code declares, after a compiler has looked up the names of types in it.
-/

namespace Props
open Gen Spec Model Model.Native

/-! ## Types -/

/-- The C++ type of a basic type. -/
def cppOf : BasicName → CppType
  | .bool => .bool
  | b => .int b.width b.isSigned

theorem cppBuiltin_text (b : BasicName) : cppBuiltin b.cppText = some (cppOf b) := by cases b <;> rfl

theorem cppBaseType_text (b : BasicName) : cppBaseType b.text = b.cppText := by cases b <;> rfl

theorem cppOf_signed (b : BasicName) : (cppOf b).isSigned = b.isSigned ∧ (enumOver (cppOf b)).isSigned = b.isSigned := by cases b <;> exact ⟨rfl, rfl⟩

theorem cppOf_holds (b : BasicName) {w : Nat} (h : w ≤ b.width) (h0 : w ≠ 0) : CppHolds (cppOf b) w ∧ CppHolds (enumOver (cppOf b)) w := by
  cases b <;> simp only [cppOf, enumOver, CppHolds, BasicName.width] at h ⊢ <;> omega

theorem cppBuiltin_path {k : Text} {p : Path} : cppBuiltin (colonPath (k :: p)) = none := by
  have e : colonPath (k :: p) = ':' :: (':' :: (k ++ colonPath p)) := by simp [colonPath]
  rw [e]
  unfold cppBuiltin
  split <;> first | rfl | (rename_i h; have h := congrArg String.toList h; rw [String.toList_ofList] at h; exact absurd (List.cons.inj h).1 (by decide))

theorem cppFullName_eq (ns : List Text) (k : Text) : cppFullName ns k = colonPath (ns ++ [k]) := rfl

/-! ## Members -/

/-- The name of the enumeration of a field, as C++ finds it. -/
theorem enum_name {t : Tree} (hc : Compiled t) {q : Path} {f ref m : Tree} (hf : t.descend q = some f) (hr : ref ∈ f.children) {w : Option Nat}
    (hk : ref.kind = .ref (.enumeration w)) (hm : t.descend ref.targetPath = some m) {b : BasicType} (hmk : m.kind = .enumeration b) :
    ref.name = '@' :: atPath ref.targetPath ∧ (∀ k ∈ ref.targetPath, NsName k) ∧ ref.targetPath ≠ [] := by
  have hrd := hc.child hf hr
  have hns := hc.names hm (by rw [hmk]; simp)
  refine ⟨?_, hns, ?_⟩
  · obtain ⟨m', h1, h2, h3, h4⟩ := hc.lk.target hrd hk
    refine resolved_name (fun k hk => ⟨idChar_at (hns k hk).2, idChar_dot (hns k hk).2⟩) (hc.refName _ _ _ hrd hk) ?_ ?_
    · exact ((good_iff _).mp (descend_good hc.lk.good hrd)).1
    · exact h1
  · intro h0
    rw [h0] at hm
    simp only [Tree.descend, Option.some.injEq] at hm
    subst hm
    rw [hc.rootKind] at hmk; cases hmk

theorem cpp_member {t : Tree} (hc : Compiled t) {p : Path} {fs : List FieldDecl} {i : Nat} {fd : FieldDecl} {f : Tree} (h : FieldFacts t p fs i fd f) (size : Nat) :
    ∃ ty, cppMember size f = .ok ⟨fd.name.toList, ty, bitOffset fs i, fd.width, size⟩ ∧
      ∃ b, fd.width ≤ b.width ∧ fd.isSigned = b.isSigned ∧ (ty = b.cppText ∨
        ∃ ref m, ref ∈ f.children ∧ (∃ w, ref.kind = .ref (.enumeration w)) ∧ t.descend ref.targetPath = some m ∧
          m.kind = .enumeration ⟨b, fd.width⟩ ∧ ty = colonPath ref.targetPath ∧ ref.targetPath ≠ []) := by
  obtain ⟨hnode, hname, b, rg, hw, hwd, hsg, hk | ⟨ref, m, hk, hr, ⟨w, hrk⟩, _, _, hm, hmk⟩⟩ := h
  · refine ⟨b.name.cppText, ?_, b.name, by omega, hsg, .inl rfl⟩
    unfold cppMember
    rw [hk, hwd, hname]
    simp only [Kind.fieldType, Kind.fieldOffset, FieldType.width, FieldType.nameText]
    rw [← cppBaseType_text]
    rfl
  · obtain ⟨e, hns, hne⟩ := enum_name hc hnode hr hrk hm hmk
    refine ⟨colonPath ref.targetPath, ?_, b.name, by omega, hsg, .inr ⟨ref, m, hr, ⟨w, hrk⟩, hm, by rw [hwd]; exact hmk, rfl, hne⟩⟩
    unfold cppMember
    rw [hk, hwd, hname]
    simp only [Kind.fieldType, Kind.fieldOffset, FieldType.width, FieldType.nameText]
    rw [e, ← cppBaseType_resolved hns hne]
    rfl

/-- A path in the order has the enumerations of its fields before it. -/
theorem enum_walk {t : Tree} {p : Path} {n f ref : Tree} {w : Option Nat} (hn : t.descend p = some n) (hf : f ∈ n.children) (hfk : f.kind.isReference = false)
    (hfd : t.descend (p ++ [f.name]) = some f) (hr : ref ∈ f.children) (hk : ref.kind = .ref (.enumeration w)) : Walk (depChildren t) 2 p ref.targetPath := by
  refine Walk.step (b := p ++ [f.name]) (Walk.step (.refl p) ?_) ?_
  · unfold depChildren
    rw [hn]
    simp only [List.mem_append, List.mem_map, Tree.childrenLike, List.mem_filter]
    exact .inl ⟨f, ⟨hf, by rw [hfk]; rfl⟩, rfl⟩
  · unfold depChildren
    rw [hfd]
    simp only [List.mem_append, List.mem_map, Tree.childrenLike, List.mem_filter]
    exact .inr ⟨ref, ⟨hr, by rw [hk]; rfl⟩, rfl⟩

/-! ## Enumerations -/

/-- The values of the enumerators of an enumeration. -/
theorem enum_values {s : Text} {t : Tree} (h : Compile s (.ok t)) {p : Path} {n : Tree} {b : BasicType} (hn : t.descend p = some n) (hk : n.kind = .enumeration b) :
    b.width ≤ b.name.width ∧ (n.children.filterMap fun c => c.kind.enumeratorValue).Nodup ∧ ∀ v, v ∈ (n.children.filterMap fun c => c.kind.enumeratorValue) ↔ InRange b.width b.name.isSigned v := by
  obtain ⟨blocks, hs, hl, hba⟩ := compile_blocks h
  have hplain := fun (b : PBlock) (hb : b ∈ blocks) => lexical_plain (hl b hb)
  have key : ∃ e : PEnum, EnumAs e n := by
    rcases C66_only hs h hn (by rw [hk]; rfl) with ⟨bl, hbl, name, hname, rfl⟩ | ⟨q, r, w, o, m, hr, hrk, rfl⟩
    · simp only [List.mem_append, List.mem_map] at hname
      rcases hname with ((⟨x, hx, rfl⟩ | ⟨x, hx, rfl⟩) | ⟨x, hx, rfl⟩) | ⟨x, hx, rfl⟩
      · obtain ⟨n', h1, h2⟩ := C66_constants hs h hbl hx
        rw [hn] at h1; cases h1
        have := h2.kind; rw [hk] at this; cases this
      · obtain ⟨n', h1, h2⟩ := C66_enumerations hs h hbl hx
        rw [hn] at h1; cases h1
        exact ⟨x, h2⟩
      · obtain ⟨n', h1, h2⟩ := C66_structures hs h hbl hx
        rw [hn] at h1; cases h1
        obtain ⟨_, this⟩ := h2.kind; rw [hk] at this; cases this
      · obtain ⟨n', h1, h2⟩ := C66_archives hs h hbl hx
        rw [hn] at h1; cases h1
        have := h2.kind; rw [hk] at this; cases this
    · obtain ⟨_, _, _, x, sz, _, h1, h2⟩ := C63_index_type hplain hba hr hrk
      rw [hn] at h2; cases h2
      rw [hk] at h1; cases h1
  obtain ⟨e, he⟩ := key
  have hke := he.kind
  rw [hk] at hke
  injection hke with hke
  subst hke
  obtain ⟨vals, hv, _⟩ := C43_assignment_exists_unique e.values
  obtain ⟨gen, h1, h2, h3⟩ := he.declared vals hv
  have hmem : (n.children.filterMap fun c => c.kind.enumeratorValue) = (members n).filterMap fun c => c.kind.enumeratorValue := by
    unfold members
    rw [List.filterMap_filter]
    apply List.filterMap_congr
    intro c _
    split
    · rfl
    · rename_i hc
      simp only [decide_eq_true_eq, not_not] at hc
      rcases hc with hc | hc | ⟨_, hc⟩ <;> rw [hc] <;> rfl
  have hval : ((members n).filterMap fun c => c.kind.enumeratorValue) = vals ++ gen := by
    have : ((members n).filterMap fun c => c.kind.enumeratorValue) = ((members n).map fun c => (c.name, c.kind)).filterMap fun x => x.2.enumeratorValue := by
      rw [List.filterMap_map]; rfl
    rw [this, h1, List.filterMap_append, List.filterMap_map, List.filterMap_map]
    congr 1
    · have hlen : ∀ (a : List Text) (c : List Int), a.length = c.length → (a.zip c).filterMap ((fun x : Text × Kind => x.2.enumeratorValue) ∘ fun x => (x.1, Kind.enumValue x.2 false)) = c := by
        intro a
        induction a with
        | nil => intro c hc; cases c <;> simp_all
        | cons x a ih =>
          intro c hc
          cases c with
          | nil => cases hc
          | cons y c =>
            have := ih c (by simpa using hc)
            simp only [Function.comp_def, Kind.enumeratorValue] at this
            simp only [List.zip_cons_cons, List.filterMap_cons, Function.comp_def, Kind.enumeratorValue, this]
      exact hlen _ _ (by rw [List.length_map, hv.length])
    · clear h1 h2 h3
      induction gen with
      | nil => rfl
      | cons x a ih =>
        simp only [Function.comp_def, Kind.enumeratorValue] at ih
        simp only [List.filterMap_cons, Function.comp_def, Kind.enumeratorValue, ih]
  rw [hmem, hval]
  exact ⟨he.fits, h2, h3⟩

/-! ## C++ -/

/-- What is known of a generated class of C++. -/
def CppClassAt (t : Tree) (p : Path) (e : Text × NativeClass (CppType × Option (List Int))) : Prop :=
  e.1 = colonPath p ∧ ∃ fs, FieldsAt t p fs ∧ Declares (fun ty w => CppHolds ty.1 w) (fun ty => ty.1.isSigned) id fs e.2 ∧
    ∀ m ∈ e.2.members, ∀ values, m.2.1.2 = some values → values.Nodup ∧ ∀ v, v ∈ values ↔ InRange m.2.2.2 m.2.1.1.isSigned v

theorem enumerators_ok {s : Text} {t : Tree} (h : Compile s (.ok t)) {p : Path} {n : Tree} {b : BasicType} (hn : t.descend p = some n) (hk : n.kind = .enumeration b) :
    cppEnumeratorsOk (cppOf b.name) (n.children.filterMap fun c => c.kind.enumeratorValue) = true := by
  obtain ⟨hb, v1, v2⟩ := enum_values h hn hk
  unfold cppEnumeratorsOk
  rw [decide_eq_true_iff]
  refine ⟨v1, fun v hv => ?_⟩
  have hv := _root_.Native.inRange_mono hb ((v2 v).mp hv)
  have hw : b.name.width ≠ 0 := by cases b.name <;> simp [BasicName.width]
  exact cpp_cast (cppOf_holds b.name (Nat.le_refl _) hw).1 (by rw [(cppOf_signed b.name).1]; exact hv)

theorem cpp_struct {s : Text} {t : Tree} (h : Compile s (.ok t)) (hf : Flat t) {p : Path} {n : Tree} {sz : Option Nat} (hn : t.descend p = some n)
    (hk : n.kind = .structure sz) {enums : List (Text × CppType × List Int)}
    (hen : ∀ q m b, t.descend q = some m → m.kind = .enumeration b → (∃ k, Walk (depChildren t) (k + 1) p q) → enums.lookup (colonPath q) = some (enumOver (cppOf b.name), m.children.filterMap fun c => c.kind.enumeratorValue)) :
    ∃ scope name size members ms, cppNode t (p, n) = .ok [.structure scope name size members] ∧ cppFullName scope name = colonPath p ∧
      (members.mapM fun m => do
        let t ← cppTypeNamed enums m.type
        pure (m.name, t, m.offset, m.width)) = some ms ∧ Declares (fun ty w => CppHolds ty.1 w) (fun ty => ty.1.isSigned) id (n.children.filterMap declaredField) ⟨size, ms⟩ ∧
      ∀ m ∈ ms, ∀ values, m.2.1.2 = some values → values.Nodup ∧ ∀ v, v ∈ values ↔ InRange m.2.2.2 m.2.1.1.isSigned v := by
  have hc := compile_compiled h
  obtain ⟨h1, h2, h3⟩ := struct_facts h hn hk
  obtain ⟨ns, k, rfl, hkn, _, hns, _⟩ := hc.namespaces hf hn (by rw [hk]; rfl)
  have hsome : ∀ (i : Nat) f, n.fields[i]? = some f → ∃ fd, (n.children.filterMap declaredField)[i]? = some fd ∧ FieldFacts t (ns ++ [k]) (n.children.filterMap declaredField) i fd f := by
    intro i f hi
    have hlt : i < (n.children.filterMap declaredField).length := by
      rw [← h2]; exact (List.getElem?_eq_some_iff.mp hi).1
    obtain ⟨f', hf', hff⟩ := h3 i _ (List.getElem?_eq_getElem hlt)
    rw [hi] at hf'; cases hf'
    exact ⟨_, List.getElem?_eq_getElem hlt, hff⟩
  obtain ⟨members, e1, e2, e3⟩ := mapM_index (g := cppMember (byteSize (n.children.filterMap declaredField))) (l := n.fields) (by
    intro i f hi
    obtain ⟨fd, _, hff⟩ := hsome i f hi
    obtain ⟨ty, hty, _⟩ := cpp_member hc hff (byteSize (n.children.filterMap declaredField))
    exact ⟨_, hty⟩)
  have hmem : ∀ (i : Nat) fd, (n.children.filterMap declaredField)[i]? = some fd → ∃ txt ty, members[i]? = some ⟨fd.name.toList, txt, bitOffset (n.children.filterMap declaredField) i, fd.width, byteSize (n.children.filterMap declaredField)⟩ ∧
      cppTypeNamed enums txt = some ty ∧ ty.1.isSigned = fd.isSigned ∧ (fd.width ≠ 0 → CppHolds ty.1 fd.width) ∧
      ∀ values, ty.2 = some values → values.Nodup ∧ ∀ v, v ∈ values ↔ InRange fd.width ty.1.isSigned v := by
    intro i fd hi
    obtain ⟨f, hfi, hff⟩ := h3 i fd hi
    obtain ⟨y, hy1, hy2⟩ := e3 i f hfi
    obtain ⟨txt, hty, b, hb1, hb2, hb3⟩ := cpp_member hc hff (byteSize (n.children.filterMap declaredField))
    rw [hty] at hy1
    cases hy1
    rcases hb3 with rfl | ⟨ref, m, hr, ⟨w, hrk⟩, hm, hmk, rfl, hne⟩
    · refine ⟨_, (cppOf b, none), hy2, ?_, ?_, ?_, ?_⟩
      · unfold cppTypeNamed; rw [cppBuiltin_text]
      · rw [(cppOf_signed b).1, hb2]
      · intro h0; exact (cppOf_holds b hb1 h0).1
      · intro values hv; cases hv
    · obtain ⟨_, v1, v2⟩ := enum_values h hm hmk
      refine ⟨_, (enumOver (cppOf b), some (m.children.filterMap fun c => c.kind.enumeratorValue)), hy2, ?_, ?_, ?_, ?_⟩
      · have hfm : f ∈ n.fields := List.mem_of_getElem? hfi
        unfold Tree.fields Tree.childrenLike at hfm
        obtain ⟨hfm, hfk⟩ := List.mem_filter.mp hfm
        have := hen _ m _ hm hmk ⟨1, enum_walk hn hfm (by cases hk : f.kind <;> rw [hk] at hfk <;> first | rfl | cases hfk) hff.node hr hrk⟩
        obtain ⟨k', p', e⟩ := List.exists_cons_of_ne_nil hne
        unfold cppTypeNamed
        rw [e] at this ⊢
        rw [cppBuiltin_path, this]
        rfl
      · rw [(cppOf_signed b).2, hb2]
      · intro h0; exact (cppOf_holds b hb1 h0).2
      · intro values hv
        cases hv
        refine ⟨v1, ?_⟩
        rw [(cppOf_signed b).2]
        exact v2
  have hlen : members.length = (n.children.filterMap declaredField).length := by rw [e2, h2]
  obtain ⟨ms, g1, g2, g3⟩ := mapM_option_index (l := members) (g := fun m : CppMember => do
        let t ← cppTypeNamed enums m.type
        pure (m.name, t, m.offset, m.width)) (by
    intro i x hx
    have hlt : i < (n.children.filterMap declaredField).length := by
      rw [← hlen]; exact (List.getElem?_eq_some_iff.mp hx).1
    obtain ⟨txt, ty, hm1, hm2, _⟩ := hmem i _ (List.getElem?_eq_getElem hlt)
    rw [hx] at hm1; cases hm1
    exact ⟨_, by simp only [hm2]; rfl⟩)
  have hms : ∀ (i : Nat) fd, (n.children.filterMap declaredField)[i]? = some fd → ∃ ty, ms[i]? = some (fd.name.toList, ty, bitOffset (n.children.filterMap declaredField) i, fd.width) ∧
      ty.1.isSigned = fd.isSigned ∧ (fd.width ≠ 0 → CppHolds ty.1 fd.width) ∧
      ∀ values, ty.2 = some values → values.Nodup ∧ ∀ v, v ∈ values ↔ InRange fd.width ty.1.isSigned v := by
    intro i fd hi
    obtain ⟨txt, ty, hm1, hm2, hm3, hm4, hm5⟩ := hmem i fd hi
    obtain ⟨y, hy1, hy2⟩ := g3 i _ hm1
    simp only [hm2] at hy1
    cases hy1
    exact ⟨ty, hy2, hm3, hm4, hm5⟩
  refine ⟨ns, k, byteSize (n.children.filterMap declaredField), members, ms, ?_, rfl, g1, ⟨rfl, by rw [g2, hlen], ?_⟩, ?_⟩
  · unfold cppNode
    simp only [hk]
    rw [hk] at h1
    rw [h1, hns, hkn]
    simp only [bind, Except.bind, pure, Except.pure]
    rw [e1]
  · intro i fd hi
    obtain ⟨ty, a1, a2, a3, _⟩ := hms i fd hi
    exact ⟨ty, a1, a2, a3⟩
  · intro m hm values hv
    obtain ⟨i, hi⟩ := List.getElem?_of_mem hm
    have hlt : i < (n.children.filterMap declaredField).length := by rw [← hlen, ← g2]; exact (List.getElem?_eq_some_iff.mp hi).1
    obtain ⟨ty, a1, a2, a3, a4⟩ := hms i _ (List.getElem?_eq_getElem hlt)
    rw [hi] at a1; cases a1
    exact a4 values hv

theorem cpp_rest {s : Text} {t : Tree} (h : Compile s (.ok t)) (hf : Flat t) {order : List Path} (hnd : order.Nodup)
    (hbefore : ∀ p k q, p ∈ order → Walk (depChildren t) (k + 1) p q → Before order q p) :
    ∀ (rest done : List Path) (enums : List (Text × CppType × List Int)), done ++ rest = order →
      (∀ q ∈ done, ∀ m b, t.descend q = some m → m.kind = .enumeration b → enums.lookup (colonPath q) = some (enumOver (cppOf b.name), m.children.filterMap fun c => c.kind.enumeratorValue)) →
      ∃ decls classes, (cppNodes t rest).mapM (cppNode t) = .ok decls ∧ cppCompile enums decls.flatten = some classes ∧
        (∀ p ∈ rest, ∀ fs, FieldsAt t p fs → ∃ c, (colonPath p, c) ∈ classes) ∧ ∀ e ∈ classes, ∃ p, CppClassAt t p e := by
  have hc := compile_compiled h
  intro rest
  induction rest with
  | nil => intro done enums _ _; exact ⟨[], [], rfl, rfl, by simp, by simp⟩
  | cons p rest ih =>
    intro done enums hord hen
    have hord' : (done ++ [p]) ++ rest = order := by rw [← hord]; simp
    have hnodes : cppNodes t (p :: rest) = (match t.descend p with | some n => [(p, n)] | none => []) ++ cppNodes t rest := by
      unfold cppNodes
      rw [List.filterMap_cons]
      cases t.descend p <;> rfl
    rw [hnodes]
    cases hn : t.descend p with
    | none =>
      obtain ⟨decls, classes, h1, h2, h3, h4⟩ := ih (done ++ [p]) enums hord' (by
        intro q hq m b hm hk
        rcases List.mem_append.mp hq with hq | hq
        · exact hen q hq m b hm hk
        · rw [List.mem_singleton] at hq; subst hq; rw [hn] at hm; cases hm)
      refine ⟨decls, classes, h1, h2, ?_, h4⟩
      intro q hq fs hfs
      rcases List.mem_cons.mp hq with rfl | hq
      · obtain ⟨n, _, hn', _⟩ := hfs
        rw [hn] at hn'; cases hn'
      · exact h3 q hq fs hfs
    | some n =>
      simp only [List.cons_append, List.nil_append]
      rw [List.mapM_cons]
      have other : ∀ (_ : ∀ b, n.kind ≠ .enumeration b) (_ : ∀ sz, n.kind ≠ .structure sz), ∃ decls classes,
          (do let x ← cppNode t (p, n); let y ← (cppNodes t rest).mapM (cppNode t); pure (x :: y) : M _) = .ok decls ∧ cppCompile enums decls.flatten = some classes ∧
          (∀ q ∈ p :: rest, ∀ fs, FieldsAt t q fs → ∃ c, (colonPath q, c) ∈ classes) ∧ ∀ e ∈ classes, ∃ q, CppClassAt t q e := by
        intro hk1 hk2
        obtain ⟨decls, classes, h1, h2, h3, h4⟩ := ih (done ++ [p]) enums hord' (by
          intro q hq m b hm hk
          rcases List.mem_append.mp hq with hq | hq
          · exact hen q hq m b hm hk
          · rw [List.mem_singleton] at hq; subst hq; rw [hn] at hm; cases hm; exact absurd hk (hk1 b))
        have hnode : cppNode t (p, n) = .ok [] := by
          unfold cppNode
          cases hk : n.kind with
          | enumeration b => exact absurd hk (hk1 b)
          | «structure» sz => exact absurd hk (hk2 sz)
          | _ => rfl
        refine ⟨[] :: decls, classes, by rw [hnode, h1]; rfl, h2, ?_, h4⟩
        intro q hq fs hfs
        rcases List.mem_cons.mp hq with rfl | hq
        · obtain ⟨n', sz, hn', hk', _⟩ := hfs
          rw [hn] at hn'; cases hn'
          exact absurd hk' (hk2 sz)
        · exact h3 q hq fs hfs
      cases hk : n.kind with
      | enumeration b =>
        obtain ⟨ns, k, e, hkn, _, hns, _⟩ := hc.namespaces hf hn (by rw [hk]; rfl)
        obtain ⟨decls, classes, h1, h2, h3, h4⟩ := ih (done ++ [p]) ((colonPath p, enumOver (cppOf b.name), n.children.filterMap fun c => c.kind.enumeratorValue) :: enums) hord' (by
          intro q hq m b' hm hk'
          rcases List.mem_append.mp hq with hqd | hq
          · rw [List.lookup_cons]
            have hne : colonPath q ≠ colonPath p := by
              intro e
              have hqp := colonPath_inj (fun x hx => idChar_colon (hc.names hm (by rw [hk']; simp) x hx).2)
                (fun x hx => idChar_colon (hc.names hn (by rw [hk]; simp) x hx).2) e
              subst hqp
              rw [← hord, List.nodup_append] at hnd
              exact hnd.2.2 q hqd q (by simp) rfl
            have : (colonPath q == colonPath p) = false := by simpa using hne
            rw [this]
            exact hen q hqd m b' hm hk'
          · rw [List.mem_singleton] at hq; subst hq; rw [hn] at hm; cases hm
            rw [hk] at hk'; cases hk'
            rw [List.lookup_cons, beq_self_eq_true])
        have hnode : cppNode t (p, n) = .ok [.enumeration ns k b.name.cppText (n.children.filterMap fun c => c.kind.enumeratorValue)] := by
          unfold cppNode
          simp only [hk, hns, hkn]
          rfl
        refine ⟨[.enumeration ns k b.name.cppText (n.children.filterMap fun c => c.kind.enumeratorValue)] :: decls, classes, by rw [hnode, h1]; rfl, ?_, ?_, h4⟩
        · rw [List.flatten_cons, List.singleton_append, cppCompile, cppBuiltin_text, cppFullName_eq, ← e]
          simp only [Option.bind_eq_bind, Option.bind_some]
          rw [if_pos (enumerators_ok h hn hk)]
          exact h2
        · intro q hq fs hfs
          rcases List.mem_cons.mp hq with rfl | hq
          · obtain ⟨n', sz, hn', hk', _⟩ := hfs
            rw [hn] at hn'; cases hn'
            rw [hk] at hk'; cases hk'
          · exact h3 q hq fs hfs
      | «structure» sz =>
        obtain ⟨decls, classes, h1, h2, h3, h4⟩ := ih (done ++ [p]) enums hord' (by
          intro q hq m b hm hk'
          rcases List.mem_append.mp hq with hq | hq
          · exact hen q hq m b hm hk'
          · rw [List.mem_singleton] at hq; subst hq; rw [hn] at hm; cases hm; rw [hk] at hk'; cases hk')
        obtain ⟨scope, name, size, members, ms, g1, g2, g3, g4, g5⟩ := cpp_struct h hf hn hk (enums := enums) (by
          intro q m b hm hk' ⟨k, hw⟩
          have hb := hbefore p k q (by rw [← hord]; simp) hw
          rw [← hord] at hb hnd
          exact hen q (before_mem hnd hb) m b hm hk')
        refine ⟨[.structure scope name size members] :: decls, (colonPath p, ⟨size, ms⟩) :: classes, by rw [g1, h1]; rfl, ?_, ?_, ?_⟩
        · rw [List.flatten_cons, List.singleton_append, cppCompile, g3, h2, g2]
          rfl
        · intro q hq fs hfs
          rcases List.mem_cons.mp hq with rfl | hq
          · exact ⟨_, List.mem_cons_self⟩
          · obtain ⟨c, hc⟩ := h3 q hq fs hfs
            exact ⟨c, List.mem_cons_of_mem _ hc⟩
        · intro e he
          rcases List.mem_cons.mp he with rfl | he
          · exact ⟨p, rfl, _, ⟨n, sz, hn, hk, rfl⟩, g4, g5⟩
          · exact h4 e he
      | _ => exact other (by rw [hk]; simp) (by rw [hk]; simp)

/-- **C89, C++.** For every accepted schema (without namespaces below definitions) the generator writes exactly one header; in it every
type is declared before it is used; and it declares, under their full names, the structures of the schema and no others, each with one
member per declared field: at the bits of the field, with a type that has its sign and can hold its values. -/
theorem C89_cpp {s : Text} {t : Tree} (h : Compile s (.ok t)) (hf : Flat t) :
    ∃ header classes, CppHeader t (.ok header) ∧ (∀ out, CppHeader t out → out = .ok header) ∧ cppCompile [] header = some classes ∧
      (∀ ns k fs, FieldsAt t (ns ++ [k]) fs → ∃ c, (cppFullName ns k, c) ∈ classes) ∧
      (∀ name c, (name, c) ∈ classes → ∃ ns k fs, name = cppFullName ns k ∧ FieldsAt t (ns ++ [k]) fs) ∧
      ∀ ns k fs c, FieldsAt t (ns ++ [k]) fs → (cppFullName ns k, c) ∈ classes → Declares (fun ty w => CppHolds ty.1 w) (fun ty => ty.1.isSigned) id fs c ∧
        ∀ m ∈ c.members, ∀ values, m.2.1.2 = some values → values.Nodup ∧ ∀ v, v ∈ values ↔ InRange m.2.2.2 m.2.1.1.isSigned v := by
  have hc := compile_compiled h
  obtain ⟨n0, events, hrun, hnd, hall, hbefore⟩ := order_exists h
  obtain ⟨decls, classes, h1, h2, h3, h4⟩ := cpp_rest h hf hnd hbefore (dependencyOrder events) [] [] rfl (by simp)
  have hh : cppHeaderN t n0 = some (.ok decls.flatten) := by
    unfold cppHeaderN
    rw [hrun]
    simp only
    rw [h1]; rfl
  have hsnoc : ∀ p fs, FieldsAt t p fs → ∃ ns k, p = ns ++ [k] := by
    intro p fs ⟨n, sz, hn, hk, _⟩
    obtain ⟨ns, k, e, _⟩ := hc.namespaces hf hn (by rw [hk]; rfl)
    exact ⟨ns, k, e⟩
  refine ⟨decls.flatten, classes, ⟨n0, hh⟩, ?_, h2, ?_, ?_, ?_⟩
  · intro out ⟨n, ho⟩
    have hrun' : ∀ m, n ≤ m → n0 ≤ m → some out = some (.ok decls.flatten) := by
      intro m hm hm0
      unfold cppHeaderN at ho hh
      cases hr : Dfs.run (depChildren t) n (Dfs.init []) with
      | none => rw [hr] at ho; cases ho
      | some r =>
        have a1 := dfs_run_mono _ hr hm
        have a2 := dfs_run_mono _ hrun hm0
        rw [a1] at a2; cases a2
        rw [hr] at ho
        rw [hrun] at hh
        rw [← ho, ← hh]
    have := hrun' (max n n0) (Nat.le_max_left ..) (Nat.le_max_right ..)
    injection this
  · intro ns k fs hfs
    obtain ⟨n, sz, hn, hk, _⟩ := id hfs
    exact h3 _ (hall _ n hn (by rw [hk]; simp)) fs hfs
  · intro name c hm
    obtain ⟨p, e, fs, hfs, _⟩ := h4 _ hm
    obtain ⟨ns, k, rfl⟩ := hsnoc p fs hfs
    exact ⟨ns, k, fs, e, hfs⟩
  · intro ns k fs c hfs hm
    obtain ⟨p, e, fs', hfs', hd⟩ := h4 _ hm
    obtain ⟨n, sz, hn, hk, rfl⟩ := hfs
    obtain ⟨n', sz', hn', hk', rfl⟩ := hfs'
    have := colonPath_inj (fun x hx => idChar_colon (hc.names hn (by rw [hk]; simp) x hx).2)
      (fun x hx => idChar_colon (hc.names hn' (by rw [hk']; simp) x hx).2) e
    subst this
    rw [hn] at hn'; cases hn'
    exact hd

/-! ## Rust -/

/-- The Rust type of a basic type. -/
def rustOf : BasicName → RustType
  | .bool => .bool
  | b => .int b.width b.isSigned

theorem rustBuiltin_text (b : BasicName) : rustBuiltin b.text = some (rustOf b) := by cases b <;> rfl

theorem rustOf_signed (b : BasicName) : (rustOf b).isSigned = b.isSigned := by cases b <;> rfl

theorem rustOf_holds (b : BasicName) {w : Nat} (h : w ≤ b.width) (h0 : w ≠ 0) : RustHolds (rustOf b) w := by
  cases b <;> simp only [rustOf, RustHolds, BasicName.width] at h ⊢ <;> omega

theorem text_nocolon (b : BasicName) : ':' ∉ b.text := by cases b <;> decide

/-- The path from one place in the tree to another. -/
theorem rustQualified_lookup {ns : Path} {k : Text} {q : Path} (hne : ns ≠ []) (hq : ∀ x ∈ q, ':' ∉ x) (hs : q.head? ≠ some "super".toList) (hq0 : q ≠ []) :
    rustLookup ns (splitColons (rustQualified (ns ++ [k]) q)) = some q ∧ ':' ∈ rustQualified (ns ++ [k]) q := by
  have hsplit : ∀ m, splitColons (joinTexts "::".toList (List.replicate (m + 1) "super".toList) ++ colonPath q) = List.replicate (m + 1) "super".toList ++ q := by
    intro m
    induction m with
    | zero =>
      simp only [Nat.zero_add, List.replicate_one, joinTexts]
      exact splitColons_path (by decide) hq
    | succ m ih =>
      have e : joinTexts "::".toList (List.replicate (m + 1 + 1) "super".toList) = "super".toList ++ "::".toList ++ joinTexts "::".toList (List.replicate (m + 1) "super".toList) := by
        rw [List.replicate_succ, List.replicate_succ, joinTexts]
        simp
      have e2 : joinTexts "::".toList (List.replicate (m + 1 + 1) "super".toList) ++ colonPath q =
          "super".toList ++ ':' :: ':' :: (joinTexts "::".toList (List.replicate (m + 1) "super".toList) ++ colonPath q) := by rw [e]; simp
      rw [e2, splitColons_cons (by decide), ih, List.replicate_succ (n := m + 1)]; rfl
  have hlook : ∀ (m : Nat) (a : Path), a.length = m → rustLookup a (List.replicate m "super".toList ++ q) = some q := by
    intro m
    induction m with
    | zero =>
      intro a ha
      have : a = [] := List.length_eq_zero_iff.mp ha
      subst this
      obtain ⟨x, q', rfl⟩ := List.exists_cons_of_ne_nil hq0
      rw [List.replicate_zero, List.nil_append, rustLookup, if_neg (by simpa using hs)]; rfl
    | succ m ih =>
      intro a ha
      have : a ≠ [] := by rintro rfl; cases ha
      rw [List.replicate_succ, List.cons_append, rustLookup, if_pos rfl, if_neg this]
      exact ih _ (by rw [List.length_dropLast, ha]; rfl)
  have e : rustQualified (ns ++ [k]) q = joinTexts "::".toList (List.replicate ns.length "super".toList) ++ colonPath q := by
    unfold rustQualified colonPath
    rw [List.length_append, List.length_singleton, Nat.add_sub_cancel]
  obtain ⟨m, hm⟩ : ∃ m, ns.length = m + 1 := ⟨ns.length - 1, by have := List.length_pos_iff.mpr hne; omega⟩
  rw [e]
  constructor
  · rw [hm, hsplit, ← hm]
    exact hlook _ _ rfl
  · obtain ⟨x, q', rfl⟩ := List.exists_cons_of_ne_nil hq0
    simp [colonPath]

theorem rust_visited {t : Tree} (hc : Compiled t) (hf : Flat t) {p : Path} {n : Tree} (hn : t.descend p = some n) (hd : Spec.Kind.isDefinition n.kind = true) :
    rustVisited t p = true := by
  obtain ⟨ns, k, rfl, _, _, _, _⟩ := hc.namespaces hf hn hd
  obtain ⟨m, hm, _, h1, _⟩ := hc.parents ns k n hn
  unfold rustVisited
  rw [List.all_eq_true]
  intro i hi
  rw [List.mem_range, List.length_append, List.length_singleton] at hi
  rw [Bool.or_eq_true, decide_eq_true_eq]
  by_cases h0 : i = 0
  · exact .inl h0
  · right
    rw [List.take_append_of_le_length (by omega)]
    exact flat_prefix hf hm (h1 hd) i (by omega) (by omega)

theorem rust_member {t : Tree} {p : Path} {fs : List FieldDecl} {i : Nat} {fd : FieldDecl} {f : Tree} (h : FieldFacts t p fs i fd f) :
    ∃ ty b, rustMember t p f = .ok ⟨escapeRust fd.name.toList, b.text, ty, bitOffset fs i, fd.width⟩ ∧ fd.width ≤ b.width ∧ fd.isSigned = b.isSigned ∧
      (ty = b.text ∨ ∃ q m, t.descend q = some m ∧ m.kind = .enumeration ⟨b, fd.width⟩ ∧ ty = rustQualified p q) := by
  obtain ⟨hnode, hname, b, rg, hw, hwd, hsg, hk | ⟨ref, m, hk, hr, ⟨w, hrk⟩, hlist, hfind, hm, hmk⟩⟩ := h
  · refine ⟨b.name.text, b.name, ?_, by omega, hsg, .inl rfl⟩
    unfold rustMember
    rw [hk, hwd, hname]
    rfl
  · refine ⟨rustQualified p ref.targetPath, b.name, ?_, by omega, hsg, .inr ⟨ref.targetPath, m, hm, by rw [hmk, hwd], rfl⟩⟩
    have he : enumerationOf t f = .ok (ref.targetPath, m, b) := by
      unfold enumerationOf
      rw [hlist]
      simp only [hfind, bind, Except.bind, hmk]
      rfl
    unfold rustMember
    rw [hk, hwd, hname]
    simp only [Kind.fieldType, Kind.fieldOffset, FieldType.width, rustPrimitive, rustFieldType, he]
    rfl

/-- What is known of a generated struct of Rust. -/
def RustClassAt (t : Tree) (e : Path × NativeClass (RustType × Option (List Int))) : Prop :=
  ∃ fs, FieldsAt t e.1 fs ∧ Declares (fun ty w => RustHolds ty.1 w) (fun ty => ty.1.isSigned) escapeRust fs e.2 ∧
    ∀ m ∈ e.2.members, ∀ values, m.2.1.2 = some values → values.Nodup ∧ ∀ v, v ∈ values ↔ InRange m.2.2.2 m.2.1.1.isSigned v

/-- The enumerations are found. -/
def RustFound (t : Tree) (items : List RustItem) : Prop := ∀ q m b, t.descend q = some m → m.kind = .enumeration b →
  (rustEnums items).lookup q = some (b.name.text, m.children.filterMap fun c => c.kind.enumeratorValue)

theorem rust_struct {s : Text} {t : Tree} (h : Compile s (.ok t)) (hf : Flat t) (hr : RustNameable t) {p : Path} {n : Tree} {sz : Option Nat} (hn : t.descend p = some n)
    (hk : n.kind = .structure sz) : ∃ scope name size members, rustNode t (p, n) = .ok [.structure scope name size members] ∧ scope ++ [name] = p ∧
      ∀ items, RustFound t items → ∃ ms, (members.mapM fun m => do
        let t ← rustMemberType items scope m
        pure (m.name, t, m.offset, m.width)) = some ms ∧ RustClassAt t (p, ⟨size, ms⟩) := by
  have hc := compile_compiled h
  obtain ⟨h1, h2, h3⟩ := struct_facts h hn hk
  obtain ⟨ns, k, rfl, hkn, hns0, hns, _⟩ := hc.namespaces hf hn (by rw [hk]; rfl)
  generalize hfs : n.children.filterMap declaredField = fs at h1 h2 h3
  obtain ⟨members, e1, e2, e3⟩ := mapM_index (g := rustMember t (ns ++ [k])) (l := n.fields) (by
    intro i f hi
    have hlt : i < fs.length := by rw [← h2]; exact (List.getElem?_eq_some_iff.mp hi).1
    obtain ⟨f', hf', hff⟩ := h3 i _ (List.getElem?_eq_getElem hlt)
    rw [hi] at hf'; cases hf'
    obtain ⟨ty, b, hty, _⟩ := rust_member hff
    exact ⟨_, hty⟩)
  have hlen : members.length = fs.length := by rw [e2, h2]
  refine ⟨ns, k, byteSize fs, members, ?_, rfl, ?_⟩
  · unfold rustNode
    simp only [hk]
    rw [hk] at h1
    rw [h1, hkn, List.dropLast_concat]
    simp only [bind, Except.bind, pure, Except.pure]
    rw [e1]
  · intro items hfound
    have hmem : ∀ (i : Nat) fd, fs[i]? = some fd → ∃ m ty, members[i]? = some m ∧ m.name = escapeRust fd.name.toList ∧ m.offset = bitOffset fs i ∧ m.width = fd.width ∧
        rustMemberType items ns m = some ty ∧ ty.1.isSigned = fd.isSigned ∧ (fd.width ≠ 0 → RustHolds ty.1 fd.width) ∧
        ∀ values, ty.2 = some values → values.Nodup ∧ ∀ v, v ∈ values ↔ InRange fd.width ty.1.isSigned v := by
      intro i fd hi
      obtain ⟨f, hfi, hff⟩ := h3 i fd hi
      obtain ⟨y, hy1, hy2⟩ := e3 i f hfi
      obtain ⟨ty, b, hty, hb1, hb2, hb3⟩ := rust_member hff
      rw [hty] at hy1
      cases hy1
      rcases hb3 with rfl | ⟨q, m, hm, hmk, rfl⟩
      · refine ⟨_, (rustOf b, none), hy2, rfl, rfl, rfl, ?_, ?_, rustOf_holds b hb1, ?_⟩
        · unfold rustMemberType
          simp only [rustBuiltin_text, if_true]
        · simp only [rustOf_signed, hb2]
        · intro values hv; cases hv
      · have hq := hc.names hm (by rw [hmk]; simp)
        have hq0 : q ≠ [] := by
          rintro rfl
          simp only [Tree.descend, Option.some.injEq] at hm
          subst hm
          rw [hc.rootKind] at hmk; cases hmk
        obtain ⟨l1, l2⟩ := rustQualified_lookup (ns := ns) (k := k) (q := q) hns0 (fun x hx => idChar_colon (hq x hx).2) (hr.super q m _ hm hmk) hq0
        obtain ⟨_, v1, v2⟩ := enum_values h hm hmk
        refine ⟨_, (rustOf b, some (m.children.filterMap fun c => c.kind.enumeratorValue)), hy2, rfl, rfl, rfl, ?_, ?_, rustOf_holds b hb1, ?_⟩
        · unfold rustMemberType
          simp only [rustBuiltin_text]
          rw [if_neg (fun e : rustQualified (ns ++ [k]) q = b.text => text_nocolon b (e ▸ l2)), l1]
          simp only [hfound q m _ hm hmk, if_true]
        · simp only [rustOf_signed, hb2]
        · intro values hv
          cases hv
          refine ⟨v1, ?_⟩
          rw [rustOf_signed]
          exact v2
    obtain ⟨ms, g1, g2, g3⟩ := mapM_option_index (l := members) (g := fun m : RustMember => do
        let t ← rustMemberType items ns m
        pure (m.name, t, m.offset, m.width)) (by
      intro i x hx
      have hlt : i < fs.length := by rw [← hlen]; exact (List.getElem?_eq_some_iff.mp hx).1
      obtain ⟨m, ty, hm1, _, _, _, hm2, _⟩ := hmem i _ (List.getElem?_eq_getElem hlt)
      rw [hx] at hm1; cases hm1
      exact ⟨_, by simp only [hm2]; rfl⟩)
    have hms : ∀ (i : Nat) fd, fs[i]? = some fd → ∃ ty, ms[i]? = some (escapeRust fd.name.toList, ty, bitOffset fs i, fd.width) ∧ ty.1.isSigned = fd.isSigned ∧ (fd.width ≠ 0 → RustHolds ty.1 fd.width) ∧
        ∀ values, ty.2 = some values → values.Nodup ∧ ∀ v, v ∈ values ↔ InRange fd.width ty.1.isSigned v := by
      intro i fd hi
      obtain ⟨m, ty, hm1, a1, a2, a3, hm2, hm3, hm4, hm5⟩ := hmem i fd hi
      obtain ⟨y, hy1, hy2⟩ := g3 i _ hm1
      simp only [hm2] at hy1
      cases hy1
      exact ⟨ty, by rw [hy2, a1, a2, a3], hm3, hm4, hm5⟩
    refine ⟨ms, g1, fs, ⟨n, sz, hn, hk, hfs.symm⟩, ⟨rfl, by rw [g2, hlen], ?_⟩, ?_⟩
    · intro i fd hi
      obtain ⟨ty, a1, a2, a3, _⟩ := hms i fd hi
      exact ⟨ty, a1, a2, a3⟩
    · intro m hm values hv
      obtain ⟨i, hi⟩ := List.getElem?_of_mem hm
      have hlt : i < fs.length := by rw [← hlen, ← g2]; exact (List.getElem?_eq_some_iff.mp hi).1
      obtain ⟨ty, a1, a2, a3, a4⟩ := hms i _ (List.getElem?_eq_getElem hlt)
      rw [hi] at a1; cases a1
      exact a4 values hv

/-- The entry of a node among the enumerations. -/
def rustEntry (e : Path × Tree) : Option (Path × Text × List Int) :=
  match e.2.kind with
  | .enumeration b => some (e.1, b.name.text, e.2.children.filterMap fun c => c.kind.enumeratorValue)
  | _ => none

theorem rust_nodes {s : Text} {t : Tree} (h : Compile s (.ok t)) (hf : Flat t) (hr : RustNameable t) : ∀ L : List (Path × Tree), (∀ e ∈ L, t.descend e.1 = some e.2) →
    ∃ itemss, L.mapM (rustNode t) = .ok itemss ∧ rustEnums itemss.flatten = L.filterMap rustEntry ∧ itemss.flatten.all rustItemOk = true ∧
      ∀ items, RustFound t items → ∃ classes, rustClasses items itemss.flatten = some classes ∧
        (∀ e ∈ L, ∀ fs, FieldsAt t e.1 fs → ∃ c, (e.1, c) ∈ classes) ∧ ∀ x ∈ classes, RustClassAt t x := by
  have hc := compile_compiled h
  intro L
  induction L with
  | nil => intro _; exact ⟨[], rfl, rfl, rfl, fun items _ => ⟨[], rfl, by simp, by simp⟩⟩
  | cons e L ih =>
    intro hL
    obtain ⟨p, n⟩ := e
    have hn : t.descend p = some n := hL (p, n) (by simp)
    obtain ⟨itemss, h1, h2, h3, h4⟩ := ih fun e he => hL e (by simp [he])
    rw [List.mapM_cons]
    have other : ∀ (_ : ∀ b, n.kind ≠ .enumeration b) (_ : ∀ sz, n.kind ≠ .structure sz), ∃ itemss,
        (do let x ← rustNode t (p, n); let y ← L.mapM (rustNode t); pure (x :: y) : M _) = .ok itemss ∧ rustEnums itemss.flatten = ((p, n) :: L).filterMap rustEntry ∧
        itemss.flatten.all rustItemOk = true ∧ ∀ items, RustFound t items → ∃ classes, rustClasses items itemss.flatten = some classes ∧
        (∀ e ∈ (p, n) :: L, ∀ fs, FieldsAt t e.1 fs → ∃ c, (e.1, c) ∈ classes) ∧ ∀ x ∈ classes, RustClassAt t x := by
      intro hk1 hk2
      have hnode : rustNode t (p, n) = .ok [] := by
        unfold rustNode
        cases hk : n.kind with
        | enumeration b => exact absurd hk (hk1 b)
        | «structure» sz => exact absurd hk (hk2 sz)
        | _ => rfl
      have hent : rustEntry (p, n) = none := by
        unfold rustEntry
        cases hk : n.kind with
        | enumeration b => exact absurd hk (hk1 b)
        | _ => rfl
      refine ⟨[] :: itemss, by rw [hnode, h1]; rfl, by rw [List.filterMap_cons_none hent]; exact h2, h3, ?_⟩
      intro items hi
      obtain ⟨classes, c1, c2, c3⟩ := h4 items hi
      refine ⟨classes, c1, ?_, c3⟩
      intro e he fs hfs
      rcases List.mem_cons.mp he with rfl | he
      · obtain ⟨n', sz, hn', hk', _⟩ := hfs
        rw [hn] at hn'; cases hn'
        exact absurd hk' (hk2 sz)
      · exact c2 e he fs hfs
    cases hk : n.kind with
    | enumeration b =>
      obtain ⟨ns, k, rfl, hkn, _, _, _⟩ := hc.namespaces hf hn (by rw [hk]; rfl)
      obtain ⟨v0, v1, v2⟩ := enum_values h hn hk
      have hnode : rustNode t (ns ++ [k], n) = .ok [.enumeration ns k b.name.text (n.children.filterMap fun c => c.kind.enumeratorValue)] := by
        unfold rustNode
        simp only [hk, hkn, List.dropLast_concat]
        rfl
      have hent : rustEntry (ns ++ [k], n) = some (ns ++ [k], b.name.text, n.children.filterMap fun c => c.kind.enumeratorValue) := by
        unfold rustEntry; simp only [hk]
      refine ⟨[.enumeration ns k b.name.text (n.children.filterMap fun c => c.kind.enumeratorValue)] :: itemss, by rw [hnode, h1]; rfl, ?_, ?_, ?_⟩
      · rw [List.filterMap_cons_some hent, ← h2]; rfl
      · rw [List.flatten_cons, List.singleton_append, List.all_cons, h3, Bool.and_true]
        have hb := hr.enums _ _ _ hn hk
        have hbi : rustBuiltin b.name.text = some (.int b.name.width b.name.isSigned) := by
          rw [rustBuiltin_text]
          cases hbn : b.name <;> first | rfl | exact absurd hbn hb
        unfold rustItemOk
        simp only [hbi, decide_eq_true_eq]
        refine ⟨v1, fun v hv => _root_.Native.inRange_mono v0 ((v2 v).mp hv)⟩
      · intro items hi
        obtain ⟨classes, c1, c2, c3⟩ := h4 items hi
        refine ⟨classes, by rw [List.flatten_cons, List.singleton_append, rustClasses]; exact c1, ?_, c3⟩
        intro e he fs hfs
        rcases List.mem_cons.mp he with rfl | he
        · obtain ⟨n', sz, hn', hk', _⟩ := hfs
          rw [hn] at hn'; cases hn'
          rw [hk] at hk'; cases hk'
        · exact c2 e he fs hfs
    | «structure» sz =>
      obtain ⟨scope, name, size, members, g1, g2, g3⟩ := rust_struct h hf hr hn hk
      have hent : rustEntry (p, n) = none := by unfold rustEntry; simp only [hk]
      refine ⟨[.structure scope name size members] :: itemss, by rw [g1, h1]; rfl, ?_, ?_, ?_⟩
      · rw [List.filterMap_cons_none hent, ← h2]; rfl
      · rw [List.flatten_cons, List.singleton_append, List.all_cons, h3]; rfl
      · intro items hi
        obtain ⟨classes, c1, c2, c3⟩ := h4 items hi
        obtain ⟨ms, m1, m2⟩ := g3 items hi
        refine ⟨(p, ⟨size, ms⟩) :: classes, ?_, ?_, ?_⟩
        · rw [List.flatten_cons, List.singleton_append, rustClasses, m1, c1, ← g2]; rfl
        · intro e he fs hfs
          rcases List.mem_cons.mp he with rfl | he
          · exact ⟨_, List.mem_cons_self⟩
          · obtain ⟨c, hc⟩ := c2 e he fs hfs
            exact ⟨c, List.mem_cons_of_mem _ hc⟩
        · intro x hx
          rcases List.mem_cons.mp hx with rfl | hx
          · exact m2
          · exact c3 x hx
    | _ => exact other (by rw [hk]; simp) (by rw [hk]; simp)

/-- **C89, Rust.** For every accepted schema (without namespaces below definitions, without enumerations over `bool`, and without
enumerations in a namespace `super`) all names of types in the generated items resolve, all enumerations have different discriminants
that fit their representation, and the structs are those of the schema, each with one getter per declared field: at the bits of the
field, with a type that has its sign and can hold its values; and if it is an enumeration, it has a discriminant for every value. -/
theorem C89_rust {s : Text} {t : Tree} (h : Compile s (.ok t)) (hf : Flat t) (hr : RustNameable t) :
    ∃ items classes, rustProgram t = .ok items ∧ rustCompile items = some classes ∧
      (∀ p fs, FieldsAt t p fs → ∃ c, (p, c) ∈ classes) ∧
      (∀ p c, (p, c) ∈ classes → ∃ fs, FieldsAt t p fs) ∧
      ∀ p fs c, FieldsAt t p fs → (p, c) ∈ classes →
        Declares (fun ty w => RustHolds ty.1 w) (fun ty => ty.1.isSigned) escapeRust fs c ∧
        ∀ m ∈ c.members, ∀ values, m.2.1.2 = some values → values.Nodup ∧ ∀ v, v ∈ values ↔ InRange m.2.2.2 m.2.1.1.isSigned v := by
  have hc := compile_compiled h
  obtain ⟨itemss, h1, h2, h3, h4⟩ := rust_nodes h hf hr ((t.iter []).filter fun e => rustVisited t e.1) (by
    intro e he
    exact (iter_descend hc.lk.good).mp (List.mem_filter.mp he).1)
  have hin : ∀ {p n}, t.descend p = some n → Spec.Kind.isDefinition n.kind = true → (p, n) ∈ (t.iter []).filter fun e => rustVisited t e.1 := by
    intro p n hn hd
    rw [List.mem_filter]
    exact ⟨(iter_descend hc.lk.good).mpr hn, rust_visited hc hf hn hd⟩
  have hfound : RustFound t itemss.flatten := by
    intro q m b hm hk
    rw [h2]
    refine lookup_of_nodup ?_ (List.mem_filterMap.mpr ⟨(q, m), hin hm (by rw [hk]; rfl), by unfold rustEntry; simp only [hk]⟩)
    have hnd : ((t.iter []).map (·.1)).Nodup := iter_nodup t hc.lk.good []
    have hsub : ∀ L : List (Path × Tree), ((L.filterMap rustEntry).map Prod.fst).Sublist (L.map (·.1)) := by
      intro L
      induction L with
      | nil => exact List.Sublist.refl _
      | cons e L ih =>
        rw [List.map_cons]
        cases he : rustEntry e with
        | none => rw [List.filterMap_cons_none he]; exact ih.cons _
        | some x =>
          rw [List.filterMap_cons_some he, List.map_cons]
          have : x.1 = e.1 := by
            unfold rustEntry at he
            split at he
            · injection he with he; rw [← he]
            · cases he
          rw [this]
          exact ih.cons_cons _
    exact ((hsub _).trans (List.filter_sublist.map _)).nodup hnd
  obtain ⟨classes, c1, c2, c3⟩ := h4 itemss.flatten hfound
  refine ⟨itemss.flatten, classes, ?_, ?_, ?_, ?_, ?_⟩
  · unfold rustProgram
    rw [h1]; rfl
  · unfold rustCompile
    rw [if_pos h3]; exact c1
  · intro p fs hfs
    obtain ⟨n, sz, hn, hk, _⟩ := id hfs
    exact c2 (p, n) (hin hn (by rw [hk]; rfl)) fs hfs
  · intro p c hm
    obtain ⟨fs, hfs, _⟩ := c3 _ hm
    exact ⟨fs, hfs⟩
  · intro p fs c hfs hm
    obtain ⟨fs', hfs', hd⟩ := c3 _ hm
    obtain ⟨n, sz, hn, hk, rfl⟩ := hfs
    obtain ⟨n', sz', hn', hk', rfl⟩ := hfs'
    rw [hn] at hn'; cases hn'
    exact hd

/-! ## Go -/

/-- The Go type of a basic type. -/
def goOf : BasicName → GoType
  | .bool => .bool
  | b => .int b.width b.isSigned

/-- The Go name of a basic type. -/
def goText : BasicName → Text
  | .bool => "bool".toList
  | .i8 => "int8".toList
  | .u8 => "uint8".toList
  | .u16 => "uint16".toList
  | .i16 => "int16".toList
  | .u32 => "uint32".toList
  | .i32 => "int32".toList
  | .u64 => "uint64".toList
  | .i64 => "int64".toList

theorem goTypeText_text (b : BasicName) : goTypeText b.text = .ok (goText b) ∧ goBuiltin (goText b) = some (goOf b) := by
  cases b <;> exact ⟨rfl, rfl⟩

theorem goOf_signed (b : BasicName) : (goOf b).isSigned = b.isSigned := by cases b <;> rfl

theorem goOf_holds (b : BasicName) {w : Nat} (h : w ≤ b.width) (h0 : w ≠ 0) : GoHolds (goOf b) w := by
  cases b <;> simp only [goOf, GoHolds, BasicName.width] at h ⊢ <;> omega

/-- A field has an enumeration as its type. -/
def HasEnum (f : Tree) : Prop := ∃ e b rg o, f.kind = .field (.enum e b) rg o

theorem go_member {t : Tree} (hc : Compiled t) {p : Path} {fs : List FieldDecl} {i : Nat} {fd : FieldDecl} {f : Tree} (h : FieldFacts t p fs i fd f) :
    (HasEnum f ∧ goMember f = .error .keyError) ∨
    (¬ HasEnum f ∧ ∃ b, goMember f = .ok ⟨fd.name.toList, goText b, bitOffset fs i, fd.width, b.isSigned⟩ ∧ fd.width ≤ b.width ∧ fd.isSigned = b.isSigned) := by
  obtain ⟨hnode, hname, b, rg, hw, hwd, hsg, hk | ⟨ref, m, hk, hr, ⟨w, hrk⟩, _, _, hm, hmk⟩⟩ := h
  · right
    refine ⟨?_, b.name, ?_, by omega, hsg⟩
    · rintro ⟨e, b', rg', o, h⟩
      rw [hk] at h; cases h
    · unfold goMember
      rw [hk, hwd, hname]
      have hd : ∀ (x : M Text), x = .ok (goText b.name) → (do
          let type ← x
          let width ← FieldType.width (.basic b)
          let offset ← Kind.fieldOffset (.field (.basic b) rg (some (bitOffset fs i)))
          pure ⟨f.name, type, offset, width, ← FieldType.isSigned (.basic b)⟩ : M GoMember) = .ok ⟨f.name, goText b.name, bitOffset fs i, b.width, b.name.isSigned⟩ := by
        intro x hx; rw [hx]; rfl
      exact hd _ (goTypeText_text b.name).1
  · left
    obtain ⟨e, _, _⟩ := enum_name hc hnode hr hrk hm hmk
    refine ⟨⟨_, _, _, _, hk⟩, ?_⟩
    unfold goMember
    rw [hk]
    simp only [Kind.fieldType, FieldType.nameText, goTypeText, pure_bind]
    rw [e, basicOfText_at rfl]
    rfl

/-- **C89, Go.** For every structure of an accepted schema: if no field is an enumeration, the generator writes a struct with one getter
per declared field: at the bits of the field, with a type that has its sign and can hold its values. Otherwise it raises a `KeyError`. -/
theorem C89_go {s : Text} {t : Tree} (h : Compile s (.ok t)) {p : Path} {n : Tree} {sz : Option Nat} (hn : t.descend p = some n)
    (hk : n.kind = .structure sz) :
    ((∀ f ∈ n.children, ¬ HasEnum f) → ∃ g c, goStructure n = .ok g ∧ g.name = n.name ∧ goCompile g = some c ∧
      Declares GoHolds GoType.isSigned id (n.children.filterMap declaredField) c) ∧
    ((∃ f ∈ n.children, HasEnum f) → goStructure n = .error .keyError) := by
  have hc := compile_compiled h
  obtain ⟨h1, h2, h3⟩ := struct_facts h hn hk
  generalize hfs : n.children.filterMap declaredField = fs at h1 h2 h3
  have hfacts : ∀ (i : Nat) f, n.fields[i]? = some f → ∃ fd, fs[i]? = some fd ∧ FieldFacts t p fs i fd f := by
    intro i f hi
    have hlt : i < fs.length := by rw [← h2]; exact (List.getElem?_eq_some_iff.mp hi).1
    obtain ⟨f', hf', hff⟩ := h3 i _ (List.getElem?_eq_getElem hlt)
    rw [hi] at hf'; cases hf'
    exact ⟨_, List.getElem?_eq_getElem hlt, hff⟩
  have hsub : ∀ f ∈ n.fields, f ∈ n.children := by
    intro f hf
    unfold Tree.fields Tree.childrenLike at hf
    exact (List.mem_filter.mp hf).1
  constructor
  · intro hno
    obtain ⟨members, e1, e2, e3⟩ := mapM_index (g := goMember) (l := n.fields) (by
      intro i f hi
      obtain ⟨fd, _, hff⟩ := hfacts i f hi
      rcases go_member hc hff with ⟨he, _⟩ | ⟨_, b, hb, _⟩
      · exact absurd he (hno f (hsub f (List.mem_of_getElem? hi)))
      · exact ⟨_, hb⟩)
    have hlen : members.length = fs.length := by rw [e2, h2]
    have hmem : ∀ (i : Nat) fd, fs[i]? = some fd → ∃ b, members[i]? = some ⟨fd.name.toList, goText b, bitOffset fs i, fd.width, b.isSigned⟩ ∧ fd.width ≤ b.width ∧ fd.isSigned = b.isSigned := by
      intro i fd hi
      obtain ⟨f, hfi, hff⟩ := h3 i fd hi
      obtain ⟨y, hy1, hy2⟩ := e3 i f hfi
      rcases go_member hc hff with ⟨he, _⟩ | ⟨_, b, hb, hb1, hb2⟩
      · exact absurd he (hno f (hsub f (List.mem_of_getElem? hfi)))
      · rw [hb] at hy1; cases hy1
        exact ⟨b, hy2, hb1, hb2⟩
    obtain ⟨ms, g1, g2, g3⟩ := mapM_option_index (l := members) (g := fun m : GoMember => do
        let t ← goBuiltin m.type
        if t.isSigned = m.isSigned then some (m.name, t, m.offset, m.width) else none) (by
      intro i x hx
      have hlt : i < fs.length := by rw [← hlen]; exact (List.getElem?_eq_some_iff.mp hx).1
      obtain ⟨b, hm1, _⟩ := hmem i _ (List.getElem?_eq_getElem hlt)
      rw [hx] at hm1; cases hm1
      refine ⟨(fs[i].name.toList, goOf b, bitOffset fs i, fs[i].width), ?_⟩
      simp only [(goTypeText_text b).2, Option.bind_eq_bind, Option.bind_some, goOf_signed, if_true])
    refine ⟨⟨n.name, byteSize fs, members⟩, ⟨byteSize fs, ms⟩, ?_, rfl, ?_, rfl, by rw [g2, hlen], ?_⟩
    · unfold goStructure
      rw [h1]
      simp only [bind, Except.bind, pure, Except.pure]
      rw [e1]
    · unfold goCompile
      rw [g1]; rfl
    · intro i fd hi
      obtain ⟨b, hm1, hb1, hb2⟩ := hmem i fd hi
      obtain ⟨y, hy1, hy2⟩ := g3 i _ hm1
      simp only [(goTypeText_text b).2, Option.bind_eq_bind, Option.bind_some, goOf_signed, if_true] at hy1
      cases hy1
      exact ⟨goOf b, hy2, by rw [goOf_signed, hb2], goOf_holds b hb1⟩
  · rintro ⟨f, hf, he⟩
    have hff : f ∈ n.fields := by
      unfold Tree.fields Tree.childrenLike
      rw [List.mem_filter]
      obtain ⟨e, b, rg, o, hk'⟩ := he
      exact ⟨hf, by rw [hk']; rfl⟩
    have key : ∀ l : List Tree, (∀ f ∈ l, (HasEnum f ∧ goMember f = .error .keyError) ∨ ∃ x, goMember f = .ok x) → f ∈ l → l.mapM goMember = .error .keyError := by
      intro l
      induction l with
      | nil => intro _ h; cases h
      | cons a l ih =>
        intro hl hfl
        rw [List.mapM_cons]
        rcases hl a List.mem_cons_self with ⟨_, ha⟩ | ⟨x, hx⟩
        · rw [ha]; rfl
        · rw [hx]
          rcases List.mem_cons.mp hfl with rfl | hfl
          · obtain ⟨i, hi⟩ := List.getElem?_of_mem hff
            obtain ⟨fd, _, hfd⟩ := hfacts i _ hi
            rcases go_member hc hfd with ⟨_, h⟩ | ⟨h, _⟩
            · rw [h] at hx; cases hx
            · exact absurd he h
          · have := ih (fun f hf => hl f (by simp [hf])) hfl
            simp only [bind, Except.bind]
            rw [this]
    have := key n.fields (by
      intro f hf
      obtain ⟨i, hi⟩ := List.getElem?_of_mem hf
      obtain ⟨fd, _, hfd⟩ := hfacts i _ hi
      rcases go_member hc hfd with h | ⟨_, b, h, _⟩
      · exact .inl h
      · exact .inr ⟨_, h⟩) hff
    unfold goStructure
    rw [h1]
    simp only [bind, Except.bind]
    rw [this]

/-! ## Reading -/

/-- The type of the member for a field. -/
def memberType {τ : Type} (dflt : τ) (fs : List FieldDecl) (c : NativeClass τ) (name : String) : τ :=
  match (fs.map (·.name)).idxOf? name with
  | some i => ((c.members[i]?).map fun m => m.2.1).getD dflt
  | none => dflt

theorem memberType_eq {τ : Type} {dflt : τ} {fs : List FieldDecl} (hn : (fs.map (·.name)).Nodup) {c : NativeClass τ} {i : Nat} {f : FieldDecl} (hi : fs[i]? = some f)
    {x : Text} {ty : τ} {o w : Nat} (hm : c.members[i]? = some (x, ty, o, w)) : memberType dflt fs c f.name = ty := by
  have hlt : i < (fs.map (·.name)).length := by rw [List.length_map]; exact (List.getElem?_eq_some_iff.mp hi).1
  have hget : (fs.map (·.name))[i] = f.name := by
    have : (fs.map (·.name))[i]? = some f.name := by rw [List.getElem?_map, hi]; rfl
    exact (List.getElem?_eq_some_iff.mp this).2
  have hidx : (fs.map (·.name)).idxOf? f.name = some i := by
    rw [List.idxOf?_eq_some_iff]
    exact ⟨hlt, hget, fun j hj e => absurd (hn.getElem_inj_iff.mp (e.trans hget.symm)) (by omega)⟩
  unfold memberType
  rw [hidx]
  simp only [hm, Option.map_some, Option.getD_some]

/-- The types of the members can hold the fields, as the theorems about reading and writing require (C70 to C88). -/
theorem declares_types {τ : Type} {holds : τ → Nat → Prop} {signed : τ → Bool} {rename : Text → Text} {fs : List FieldDecl} {c : NativeClass τ} (dflt : τ)
    (hg : GoodStruct fs) (h : Declares holds signed rename fs c) : ∃ ty : String → τ,
      (∀ f ∈ fs, holds (ty f.name) f.width ∧ signed (ty f.name) = f.isSigned) ∧
      ∀ (i : Nat) f, fs[i]? = some f → c.members[i]? = some (rename f.name.toList, ty f.name, bitOffset fs i, f.width) := by
  have key : ∀ (i : Nat) f, fs[i]? = some f → c.members[i]? = some (rename f.name.toList, memberType dflt fs c f.name, bitOffset fs i, f.width) ∧
      signed (memberType dflt fs c f.name) = f.isSigned ∧ holds (memberType dflt fs c f.name) f.width := by
    intro i f hi
    obtain ⟨ty, h1, h2, h3⟩ := h.members i f hi
    rw [memberType_eq hg.names hi h1]
    exact ⟨h1, h2, h3 (by have := (hg.widths f (List.mem_of_getElem? hi)).1; omega)⟩
  refine ⟨memberType dflt fs c, ?_, fun i f hi => (key i f hi).1⟩
  intro f hf
  obtain ⟨i, hi⟩ := List.getElem?_of_mem hf
  obtain ⟨_, h2, h3⟩ := key i f hi
  exact ⟨h3, h2⟩

/-- **C89, reading in C++.** The members of a generated class show the values in the documented bytes. -/
theorem C89_cpp_reads {fs : List FieldDecl} {c : NativeClass (CppType × Option (List Int))} (hg : GoodStruct fs) (h : Declares (fun ty w => CppHolds ty.1 w) (fun ty => ty.1.isSigned) id fs c) (d : Dict) {rest : Py.Bytes}
    (hr : 8 ≤ rest.length) {i : Nat} {f : FieldDecl} (hi : fs[i]? = some f) {v : Int} (hv : d.lookup f.name = some v) :
    ∃ ty o w, c.members[i]? = some (f.name.toList, ty, o, w) ∧ cppRead ty.1 (structBytes fs d ++ rest) o w = some (storedValue f.width f.isSigned v) := by
  obtain ⟨ty, ht, hm⟩ := declares_types (.bool, none) hg h
  have hs := (cpp_shows (ty := fun x => (ty x).1) hg ht d rest hr f (List.mem_of_getElem? hi) v hv).1
  refine ⟨_, _, _, hm i f hi, ?_⟩
  have hlk := layoutFrom_getElem? 0 fs i
  rw [hi] at hlk
  have hkeysn : ((layoutFrom 0 fs).map (·.1)).Nodup := by rw [layoutFrom_keys]; exact hg.names
  have hlk := lookup_of_mem_nodup hkeysn (List.mem_of_getElem? hlk)
  simp only [cppGet, hlk, Option.bind_eq_bind, Option.bind_some, Nat.zero_add] at hs
  exact hs

/-- **C89, reading in Rust.** -/
theorem C89_rust_reads {fs : List FieldDecl} {c : NativeClass (RustType × Option (List Int))} (hg : GoodStruct fs)
    (h : Declares (fun ty w => RustHolds ty.1 w) (fun ty => ty.1.isSigned) escapeRust fs c) (d : Dict) (rest : Py.Bytes)
    {i : Nat} {f : FieldDecl} (hi : fs[i]? = some f) (hp : RustPortable (bitOffset fs i) f.width) {v : Int} (hv : d.lookup f.name = some v) :
    ∃ ty o w, c.members[i]? = some (escapeRust f.name.toList, ty, o, w) ∧ rustRead ty.1 (structBytes fs d ++ rest) o w = some (storedValue f.width f.isSigned v) := by
  obtain ⟨ty, h1, h2, h3⟩ := h.members i f hi
  exact ⟨ty, _, _, h1, rust_field hg hi hp (h3 (by have := (hg.widths f (List.mem_of_getElem? hi)).1; omega)) h2 hv rest⟩

/-- **C89, reading in Go.** -/
theorem C89_go_reads {fs : List FieldDecl} {c : NativeClass GoType} (hg : GoodStruct fs) (h : Declares GoHolds GoType.isSigned id fs c) (d : Dict) {rest : Py.Bytes}
    (hr : 1 ≤ rest.length) (hlen : 8 * (structBytes fs d ++ rest).length < 2 ^ 64) {i : Nat} {f : FieldDecl} (hi : fs[i]? = some f) {v : Int} (hv : d.lookup f.name = some v) :
    ∃ ty o w, c.members[i]? = some (f.name.toList, ty, o, w) ∧ goGet ty (structBytes fs d ++ rest) (goBits 0 o) w = some (goShown (bitOffset fs i) f.width f.isSigned v) := by
  obtain ⟨ty, ht, hm⟩ := declares_types .bool hg h
  have hs := (go_shows hg ht d (file := structBytes fs d ++ rest) (p := 0) rfl hr hlen i f hi v hv).1
  refine ⟨_, _, _, hm i f hi, ?_⟩
  have hlk := layoutFrom_getElem? 0 fs i
  rw [hi] at hlk
  have hkeysn : ((layoutFrom 0 fs).map (·.1)).Nodup := by rw [layoutFrom_keys]; exact hg.names
  have hlk := lookup_of_mem_nodup hkeysn (List.mem_of_getElem? hlk)
  simp only [goField, hlk, Option.bind_eq_bind, Option.bind_some, Nat.zero_add] at hs
  exact hs

end Props
