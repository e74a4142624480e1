import Verif.Props.Gen.Declared
import Verif.Props.Gen.DeclaredOnly
import Verif.Props.Gen.Schema
import Verif.Props.Gen.Accepted
import Verif.Props.Gen.SchemaSamples

/-! # The field of an explicit reference -/

namespace Props
open Gen Spec

/-- An archive of the tree is an archive of the source. -/
theorem archive_source {source : Text} {blocks : List PBlock} {t : Tree} (hs : parseSource source = .ok blocks) (h : Compile source (.ok t))
    {p : Path} {n : Tree} (hn : t.descend p = some n) (hk : n.kind = .archive) :
    ∃ b ∈ blocks, Lexical b ∧ ∃ a ∈ b.archives, p = splitDot b.name ++ [a.name] ∧ ArchiveAs t p a n := by
  obtain ⟨bs, h1, h2, h3⟩ := compile_blocks h
  rw [hs] at h1; cases h1
  rcases C66_only hs h hn (by rw [hk]; rfl) with ⟨b, hb, name, hname, rfl⟩ | ⟨q, r, w, o, m, g1, g2, rfl⟩
  · simp only [List.mem_append, List.mem_map] at hname
    rcases hname with ((⟨x, hx, rfl⟩ | ⟨x, hx, rfl⟩) | ⟨x, hx, rfl⟩) | ⟨x, hx, rfl⟩
    · obtain ⟨n', e1, e2⟩ := C66_constants hs h hb hx
      rw [hn] at e1; cases e1; rw [e2.kind] at hk; cases hk
    · obtain ⟨n', e1, e2⟩ := C66_enumerations hs h hb hx
      rw [hn] at e1; cases e1; rw [e2.kind] at hk; cases hk
    · obtain ⟨n', e1, e2⟩ := C66_structures hs h hb hx
      rw [hn] at e1; cases e1
      obtain ⟨sz, hz⟩ := e2.kind
      rw [hz] at hk; cases hk
    · obtain ⟨n', e1, e2⟩ := C66_archives hs h hb hx
      rw [hn] at e1; cases e1
      exact ⟨b, hb, h2 b hb, x, hx, rfl, e2⟩
  · obtain ⟨_, _, _, s, sz, _, e2, e3⟩ := C63_index_type (fun b hb => lexical_plain (h2 b hb)) h3 g1 g2
    rw [hn] at e3; cases e3; rw [e2] at hk; cases hk

theorem forall₂_mem_right {α β : Type} {R : α → β → Prop} {l : List α} {l' : List β} (h : List.Forall₂ R l l') {b : β} (hb : b ∈ l') : ∃ a ∈ l, R a b := by
  induction h with
  | nil => cases hb
  | @cons x y xs ys hxy _ ih =>
    rcases List.mem_cons.mp hb with rfl | hb
    · exact ⟨x, by simp, hxy⟩
    · obtain ⟨a, ha, hr⟩ := ih hb
      exact ⟨a, by simp [ha], hr⟩

theorem isField_parent {k x : Kind} {ks : List Kind} (h : ChildrenOk k ks) (hx : x ∈ ks) (hf : x.isField = true) : ∃ sz, k = .structure sz := by
  cases k with
  | root => rw [show ks = [] from h] at hx; cases hx
  | «namespace» => have := h x hx; cases x <;> simp_all [Spec.Kind.isDefinition, Kind.isField]
  | constant => rw [show ks = [] from h] at hx; cases hx
  | enumeration => have := h x hx; cases x <;> simp_all [Spec.Kind.isEnumValue, Kind.isField]
  | enumValue => rw [show ks = [] from h] at hx; cases hx
  | «structure» sz => exact ⟨sz, rfl⟩
  | field ty =>
    exfalso
    cases ty with
    | basic => have := h x hx; cases x <;> simp_all [Kind.isConstantReference, Kind.isField]
    | enum =>
      obtain ⟨cs, w, rfl, hcs⟩ := h
      rcases List.mem_append.mp hx with hx | hx
      · have := hcs x hx; cases x <;> simp_all [Kind.isConstantReference, Kind.isField]
      · simp only [List.mem_singleton] at hx; subst hx; cases hf
    | none =>
      obtain ⟨cs, w, rfl, hcs⟩ := h
      rcases List.mem_append.mp hx with hx | hx
      · have := hcs x hx; cases x <;> simp_all [Kind.isConstantReference, Kind.isField]
      · simp only [List.mem_singleton] at hx; subst hx; cases hf
  | archive => have := h x hx; cases x <;> simp_all [Kind.isResource, Kind.isField]
  | resource rk o m =>
    have := resource_fixed (k := rk) (o := o) (ks := ks) (by cases rk <;> exact h) x hx
    cases x <;> simp_all [Kind.fixed, Kind.isField]
  | explicitReference =>
    rw [show ks = _ from h] at hx
    simp only [List.mem_cons, List.not_mem_nil, or_false] at hx
    rcases hx with rfl | rfl | rfl <;> cases hf
  | ref => rw [show ks = [] from h] at hx; cases hx

theorem isExplicit_parent {k : Kind} {ks : List Kind} (h : ChildrenOk k ks) (hx : .explicitReference ∈ ks) : ∃ rk o m, k = .resource rk o m := by
  cases k with
  | root => rw [show ks = [] from h] at hx; cases hx
  | «namespace» => have := h _ hx; cases this
  | constant => rw [show ks = [] from h] at hx; cases hx
  | enumeration => have := h _ hx; cases this
  | enumValue => rw [show ks = [] from h] at hx; cases hx
  | «structure» sz => have := h _ hx; cases this
  | field ty =>
    exfalso
    cases ty with
    | basic => have := h _ hx; cases this
    | enum =>
      obtain ⟨cs, w, rfl, hcs⟩ := h
      rcases List.mem_append.mp hx with hx | hx
      · have := hcs _ hx; cases this
      · simp at hx
    | none =>
      obtain ⟨cs, w, rfl, hcs⟩ := h
      rcases List.mem_append.mp hx with hx | hx
      · have := hcs _ hx; cases this
      · simp at hx
  | archive => have := h _ hx; cases this
  | resource rk o m => exact ⟨rk, o, m, rfl⟩
  | explicitReference =>
    rw [show ks = _ from h] at hx
    simp at hx
  | ref => rw [show ks = [] from h] at hx; cases hx

/-- The classes of the children of a node of the compiled tree. -/
theorem compiled_kinds {source : Text} {t : Tree} (h : Compile source (.ok t)) {p : Path} {n : Tree} (hn : t.descend p = some n) :
    ∃ k ks, k.blank = n.kind.blank ∧ ChildrenOk k ks ∧ ∀ c ∈ n.children, c.kind ≠ .namespace →
      (∃ x ∈ ks, x.blank = c.kind.blank) ∨ (n.kind = .archive ∧ c.kind = .ref .constantValue) := by
  obtain ⟨bs, h1, h2, h3⟩ := compile_blocks h
  obtain ⟨s, _⟩ := buildAst_stages h3
  rcases s.origin h2 hn with ⟨r, ext, r1, r2, r3, r4, r5, r6⟩ | ⟨hk, hnil, _⟩
  · have hsh := shaped_descend (s.linked fun b hb => lexical_plain (h2 b hb)).2 r1
    refine ⟨r.kind, _, r3, hsh.kinds, fun c hcm hns => ?_⟩
    have hm : (c.name, c.kind.blank) ∈ r.children.map (fun c => (c.name, c.kind.blank)) ++ ext := by
      rw [← r4]; exact List.mem_map_of_mem hcm
    rcases List.mem_append.mp hm with hm | hm
    · obtain ⟨d, hd, hde⟩ := List.mem_map.mp hm
      have hb : d.kind.blank = c.kind.blank := congrArg Prod.snd hde
      refine .inl ⟨d.kind, childKinds_mem hd (fun e => hns ?_), hb⟩
      rw [e] at hb
      exact blank_namespace.mp hb.symm
    · right
      constructor
      · by_contra ha
        rw [r5 ha] at hm; cases hm
      · have := r6 _ hm
        cases hck : c.kind <;> rw [hck] at this <;> simp [Kind.blank] at this
        rw [this]
  · exact ⟨n.kind, [], rfl, by rw [hk]; rfl, by rw [hnil]; simp⟩

/-- Fields belong to structures. -/
theorem field_parent {source : Text} {t : Tree} (h : Compile source (.ok t)) {p : Path} {k : Text} {c : Tree} {ty rg o} (hc : t.descend (p ++ [k]) = some c)
    (hk : c.kind = .field ty rg o) : ∃ n sz, t.descend p = some n ∧ n.kind = .structure sz ∧ c ∈ n.children ∧ c.name = k := by
  obtain ⟨n, hn, hcm, hname⟩ := descend_parent hc
  obtain ⟨k0, ks, e1, e2, e3⟩ := compiled_kinds h hn
  rcases e3 c hcm (by rw [hk]; simp) with ⟨x, hx, hxk⟩ | ⟨_, e⟩
  · obtain ⟨sz, rfl⟩ := isField_parent e2 hx (by rw [blank_isField hxk, hk]; rfl)
    cases hnk : n.kind <;> rw [hnk] at e1 <;> simp [Kind.blank] at e1
    exact ⟨n, _, hn, hnk, hcm, hname⟩
  · rw [hk] at e; cases e

/-- Explicit references belong to resources. -/
theorem explicit_parent {source : Text} {t : Tree} (h : Compile source (.ok t)) {p : Path} {e : Tree} (he : t.descend p = some e)
    (hk : e.kind = .explicitReference) : ∃ q r rk o m, p = q ++ [e.name] ∧ t.descend q = some r ∧ r.kind = .resource rk o m ∧ e ∈ r.children := by
  cases p using List.reverseRecOn with
  | nil =>
    simp only [Tree.descend, Option.some.injEq] at he
    subst he
    rw [(compile_compiled h).rootKind] at hk; cases hk
  | append_singleton q k =>
    obtain ⟨n, hn, hcm, hname⟩ := descend_parent he
    obtain ⟨k0, ks, e1, e2, e3⟩ := compiled_kinds h hn
    rcases e3 e hcm (by rw [hk]; simp) with ⟨x, hx, hxk⟩ | ⟨_, e'⟩
    · rw [hk] at hxk
      obtain ⟨rk, o, m, rfl⟩ := isExplicit_parent e2 (blank_explicit hxk ▸ hx)
      obtain ⟨m', hm'⟩ := blank_resource e1.symm
      exact ⟨q, n, rk, o, m', by rw [hname], hn, hm', hcm⟩
    · rw [hk] at e'; cases e'

/-- No definition lies inside of another one. -/
theorem enclosing_none {t : Tree} (hc : Compiled t) (hf : Flat t) {p s : Path} {keys : List Text} {n : Tree} (hs : EnclosingDefinition t p s)
    (hp : ∃ k rest, p = k :: rest ∧ rest ≠ [] ∧ NamespaceAt t [k]) (hn : t.descend (s ++ keys) = some n) (hd : Spec.Kind.isDefinition n.kind = true)
    (hkeys : keys ≠ []) : False := by
  by_cases h0 : s = []
  · subst h0
    obtain ⟨k, rest, rfl, hne, hk⟩ := hp
    exact hs.2.2 [k] (List.nil_prefix) (by simp) (by simpa using hne.symm) hk
  · obtain ⟨ks, k, rfl⟩ : ∃ ks k, keys = ks ++ [k] := ⟨_, _, (List.dropLast_append_getLast hkeys).symm⟩
    rw [← List.append_assoc] at hn
    obtain ⟨m, hm, _, h1, _⟩ := hc.parents (s ++ ks) k n hn
    have := flat_prefix hf hm (h1 hd) s.length (List.length_pos_iff.mpr h0) (by simp)
    rw [List.take_left'  rfl] at this
    unfold isNamespaceAt at this
    cases hx : t.descend s with
    | none => rw [hx] at this; cases this
    | some x =>
      rw [hx] at this
      exact hs.2.2 s (List.prefix_refl _) hs.1 hs.2.1 ⟨x, hx, by simpa [Tree.isNamespace] using this⟩

theorem splitDot_snoc {a f : Text} (hf : '.' ∉ f) : splitDot (a ++ '.' :: f) = splitDot a ++ [f] := by
  have h0 : splitDot f = [f] := by
    induction f with
    | nil => rfl
    | cons c f ih =>
      have hc : c ≠ '.' := fun e => hf (by simp [e])
      rw [splitDot, if_neg hc, ih (fun h => hf (by simp [h]))]
  induction a with
  | nil => simp [splitDot, h0]
  | cons c a ih =>
    simp only [List.cons_append, splitDot]
    split
    · rw [ih]; rfl
    · rw [ih]
      cases hs : splitDot a with
      | nil => exact absurd hs (splitDot_ne_nil a)
      | cons w ws => rfl

theorem enclosingNamespace_unique {t : Tree} {p s s' : Path} (h : EnclosingNamespace t p s) (h' : EnclosingNamespace t p s') : s = s' := by
  rcases List.prefix_or_prefix_of_prefix h.1 h'.1 with hp | hp
  · exact (h.2.2 s' hp h'.1 h'.2.1).symm
  · exact h'.2.2 s hp h.1 h.2.1

/-- What a name of a structure means, and what the name of one of its fields means. -/
theorem means_field {source : Text} {t : Tree} (h : Compile source (.ok t)) (hf : Flat t) {p : Path} (hp : ∃ k rest, p = k :: rest ∧ rest ≠ [] ∧ NamespaceAt t [k])
    {a f : Text} (ha : a ≠ []) (hfd : '.' ∉ f) {qs qf : Path} {n c : Tree} (h1 : Means t p a qs) (h2 : Means t p (a ++ '.' :: f) qf)
    (hn : t.descend qs = some n) (hnk : ∃ sz, n.kind = .structure sz) (hc : t.descend qf = some c) (hck : ∃ ty rg o, c.kind = .field ty rg o) : qf = qs ++ [f] := by
  have hcomp := compile_compiled h
  have hg := hcomp.lk.good
  obtain ⟨sz, hnk⟩ := hnk
  obtain ⟨ty, rg, o, hck⟩ := hck
  have hhead : (a ++ '.' :: f).head? = a.head? := by cases a with | nil => exact absurd rfl ha | cons => rfl
  have hsd : splitDot a ≠ [] := splitDot_ne_nil a
  -- where the structure is
  have hstruct : (∃ q, a = pathText q ∧ q ≠ [] ∧ qs = q) ∨ (a.head? ≠ some '.' ∧ ∃ s, EnclosingNamespace t p s ∧ qs = s ++ splitDot a) := by
    cases h1 with
    | absolute h hq => exact .inl ⟨qs, rfl, hq, rfl⟩
    | inDefinition hrel hs _ _ => exact (enclosing_none hcomp hf hs hp hn (by rw [hnk]; rfl) hsd).elim
    | @inNamespace _ s hrel _ hs _ => exact .inr ⟨hrel, s, hs, rfl⟩
  have hfield : (∃ q, a ++ '.' :: f = pathText q ∧ q ≠ [] ∧ qf = q) ∨ (a.head? ≠ some '.' ∧ ∃ s, EnclosingNamespace t p s ∧ qf = s ++ splitDot a ++ [f]) := by
    generalize hx : a ++ '.' :: f = x at h2
    cases h2 with
    | absolute h hq => exact .inl ⟨qf, rfl, hq, rfl⟩
    | @inDefinition _ s hrel hs _ _ =>
      rw [← hx, splitDot_snoc hfd, ← List.append_assoc] at hc
      obtain ⟨m, z, m1, m2, _⟩ := field_parent h hc hck
      exact (enclosing_none hcomp hf hs hp m1 (by rw [m2]; rfl) hsd).elim
    | @inNamespace _ s hrel _ hs _ =>
      rw [← hx, hhead] at hrel
      exact .inr ⟨hrel, s, hs, by rw [← hx, splitDot_snoc hfd, List.append_assoc]⟩
  rcases hstruct with ⟨q, rfl, hq, rfl⟩ | ⟨hr, s, hs, rfl⟩ <;> rcases hfield with ⟨q', e, hq', rfl⟩ | ⟨hr', s', hs', rfl⟩
  · have h3 : pathText qf = pathText (qs ++ [f]) := by rw [← e]; simp [pathText]
    refine pathText_inj (descend_nodot hg hc) ?_ h3
    intro k hk
    rcases List.mem_append.mp hk with hk | hk
    · exact descend_nodot hg hn k hk
    · simp only [List.mem_singleton] at hk; exact hk ▸ hfd
  · exact absurd (pathText_head hq) hr'
  · exfalso
    apply hr
    rw [← hhead, e]; exact pathText_head hq'
  · rw [enclosingNamespace_unique hs hs']

/-- C105. The field of an explicit reference is a field of the structure of the explicit reference: reference to a field `S.f` and
reference to a structure `S` are resolved separately. -/
theorem C105_field_of_structure {source : Text} {t : Tree} (h : Compile source (.ok t)) (hf : Flat t) {p : Path} {e s f : Tree} (he : t.descend p = some e)
    (hk : e.kind = .explicitReference) (hs : s ∈ e.children) (hsk : s.kind = .ref .structure) (hfm : f ∈ e.children) (hfk : f.kind = .ref .field) :
    ∃ n sz c ty rg o, t.descend s.targetPath = some n ∧ n.kind = .structure sz ∧ c ∈ n.children ∧ c.kind = .field ty rg o ∧
      f.targetPath = s.targetPath ++ [c.name] := by
  have hcomp := compile_compiled h
  have hg := hcomp.lk.good
  obtain ⟨blocks, hsrc, hlex, _⟩ := compile_blocks h
  obtain ⟨q, r, rk, o, m, rfl, hr, hrk, her⟩ := explicit_parent h he hk
  obtain ⟨pa, kr, rfl⟩ : ∃ pa kr, q = pa ++ [kr] := by
    cases q using List.reverseRecOn with
    | nil =>
      simp only [Tree.descend, Option.some.injEq] at hr
      subst hr
      rw [hcomp.rootKind] at hrk; cases hrk
    | append_singleton pa kr => exact ⟨pa, kr, rfl⟩
  obtain ⟨a, ha, hra, _, hres⟩ := hcomp.parents pa kr r hr
  have hak := hres (by rw [hrk]; rfl)
  have hrname : r.name = kr := descend_last hr
  obtain ⟨b, hb, hbl, x, hx, hpx, hdecl⟩ := archive_source hsrc h ha hak
  -- the declaration of the explicit reference
  obtain ⟨rs, gs, hm, hrs, hgs⟩ := hdecl.resources
  have hrm : r ∈ members a := by
    unfold members
    rw [List.mem_filter]
    exact ⟨hra, by simp [hrk]⟩
  have hem : e ∈ members r := by
    unfold members
    rw [List.mem_filter]
    exact ⟨her, by simp [hk]⟩
  obtain ⟨y, hy, hey⟩ : ∃ y, (Dotted y.1 ∧ Ident y.2.1) ∧ ExplicitAs t (pa ++ [kr]) y e := by
    rw [hm] at hrm
    rcases List.mem_append.mp hrm with hrm | hrm
    · obtain ⟨z, hz, has⟩ := forall₂_mem_right hrs hrm
      obtain ⟨k, max, refs, es, rs', _, _, h3, h4, h5⟩ := has.is
      rw [h3] at hem
      rcases List.mem_append.mp hem with hem | hem
      · obtain ⟨y, hy, hye⟩ := forall₂_mem_right h4 hem
        rw [← has.name, hrname] at hye
        refine ⟨y, ?_, hye⟩
        have hl := ((hbl.archives x hx).2.2 z hz).2.2
        unfold explicitReferences at hy
        obtain ⟨d, hd, hdy⟩ := List.mem_filterMap.mp hy
        have := hl d hd
        cases d with
        | optional => cases hdy
        | explicitReference s f d => cases hdy; exact ⟨this.1, this.2.1⟩
      · obtain ⟨y, _, hye⟩ := forall₂_mem_right h5 hem
        rw [hye.kind] at hk; cases hk
    · obtain ⟨z, hz, has⟩ := forall₂_mem_right hgs hrm
      obtain ⟨y, _, hye⟩ := forall₂_mem_right has.members hem
      rw [hye.kind] at hk; cases hk
  obtain ⟨y1, y2, y3⟩ := y
  have hrefs := hey.refs
  have hsm : s ∈ members e := by
    unfold members
    rw [List.mem_filter]
    exact ⟨hs, by simp [hsk, hk]⟩
  have hfm' : f ∈ members e := by
    unfold members
    rw [List.mem_filter]
    exact ⟨hfm, by simp [hfk, hk]⟩
  obtain ⟨qs, n, s1, s2, s3, sz, s4⟩ : ∃ qs n, Means t (pa ++ [kr] ++ [e.name]) y1 qs ∧ s.target = pathText qs ∧ t.descend qs = some n ∧ ∃ sz, n.kind = .structure sz := by
    obtain ⟨d, hd, has⟩ := forall₂_mem_right hrefs hsm
    obtain ⟨q, m, h1, h2, h3, h4⟩ := has.target
    have hdk := has.kind
    simp only [List.mem_cons, List.not_mem_nil, or_false] at hd
    rcases hd with rfl | rfl | rfl <;> rw [hsk] at hdk <;> first | (cases hdk; done) | exact ⟨q, m, h1, h2, h3, h4⟩
  obtain ⟨qf, c, f1, f2, f3, ty, rg, off, f4⟩ : ∃ qf c, Means t (pa ++ [kr] ++ [e.name]) (y1 ++ '.' :: y2) qf ∧ f.target = pathText qf ∧ t.descend qf = some c ∧ ∃ ty rg o, c.kind = .field ty rg o := by
    obtain ⟨d, hd, has⟩ := forall₂_mem_right hrefs hfm'
    obtain ⟨q, m, h1, h2, h3, h4⟩ := has.target
    have hdk := has.kind
    simp only [List.mem_cons, List.not_mem_nil, or_false] at hd
    rcases hd with rfl | rfl | rfl <;> rw [hfk] at hdk <;> first | (cases hdk; done) | exact ⟨q, m, h1, h2, h3, h4⟩
  have hns : ∃ k rest, pa ++ [kr] ++ [e.name] = k :: rest ∧ rest ≠ [] ∧ NamespaceAt t [k] := by
    obtain ⟨ns, k, rfl, _, hne, _⟩ := hcomp.namespaces hf ha (by rw [hak]; rfl)
    obtain ⟨k0, ns', rfl⟩ := List.exists_cons_of_ne_nil hne
    refine ⟨k0, ns' ++ [k] ++ [kr] ++ [e.name], by simp, by simp, ?_⟩
    obtain ⟨m', hm', _, h1, _⟩ := hcomp.parents _ k a ha
    have := flat_prefix hf hm' (h1 (by rw [hak]; rfl)) 1 (by omega) (by simp)
    unfold isNamespaceAt at this
    simp only [List.take_succ_cons, List.take_zero] at this
    cases hx : t.descend [k0] with
    | none => rw [hx] at this; cases this
    | some x => rw [hx] at this; exact ⟨x, hx, by simpa [Tree.isNamespace] using this⟩
  have hy1 : y1 ≠ [] := by
    rintro rfl
    obtain ⟨c, hc, _⟩ := hy.1.1
    cases hc
  have hy2 : '.' ∉ y2 := by
    intro hm
    have := hy.2.2 _ hm
    revert this; decide
  have hq := means_field h hf hns hy1 hy2 s1 f1 s3 ⟨sz, s4⟩ f3 ⟨ty, rg, off, f4⟩
  have est : s.targetPath = qs := targetPath_of (descend_nodot hg s3) s2
  have eft : f.targetPath = qf := targetPath_of (descend_nodot hg f3) f2
  rw [hq] at f3
  obtain ⟨n', sz', n1, n2, n3, n4⟩ := field_parent h f3 f4
  refine ⟨n', sz', c, ty, rg, off, by rw [est]; exact n1, n2, n3, f4, by rw [eft, est, hq, n4]⟩

/-- The paths of structure and field of all explicit references of a tree. -/
def explicitPaths (t : Tree) : List (List Path × List Path) :=
  ((t.iter []).filter fun e => e.2.kind = .explicitReference).map fun e =>
    ((childrenOf e.2 (.ref .structure)).map Tree.targetPath, (childrenOf e.2 (.ref .field)).map Tree.targetPath)

theorem explicitA_paths : explicitPaths (treeOf blocksA) = [([[['n'], ['S']]], [[['n'], ['S'], ['f']]])] := by decide +kernel

attribute [local irreducible] Compile in
/-- An explicit reference in an accepted source. -/
example : Compile sourceA (.ok (treeOf blocksA)) ∧ Flat (treeOf blocksA) ∧
    explicitPaths (treeOf blocksA) = [([[['n'], ['S']]], [[['n'], ['S'], ['f']]])] := by
  have h := checksA
  simp only [Bool.and_eq_true] at h
  exact ⟨sourceA_ok, flat_check (compile_compiled sourceA_ok) h.1.1, explicitA_paths⟩

/-- The namespace `n.A.m` lies in the path of the archive `n.A`, and `n.m` and `n.A.m` define a structure `S` each. -/
def nestedField : Text := "namespace n.m { struct S { f : u32; } }
namespace n { archive A { @explicit_reference(m.S.f, r) r : vector< m.S >; } }
namespace n.A.m { struct S { g : u32; } }".toList

def nestedFieldBlocks : List PBlock :=
  [{ name := ['n', '.', 'm'], constants := [], structures := [⟨['S'], [⟨['f'], [], ['u', '3', '2'], none⟩]⟩], enumerations := [], archives := [] },
   { name := ['n'], constants := [], structures := [], enumerations := [],
     archives := [⟨['A'], [], [⟨['r'], [.explicitReference ['m', '.', 'S'] ['f'] ['r']], .vector ['m', '.', 'S']⟩]⟩] },
   { name := ['n', '.', 'A', '.', 'm'], constants := [], structures := [⟨['S'], [⟨['g'], [], ['u', '3', '2'], none⟩]⟩], enumerations := [], archives := [] }]

theorem nestedField_parses : parsesTo nestedField nestedFieldBlocks = true := by decide +kernel

theorem nestedField_accepted : accepted nestedFieldBlocks = true := by decide +kernel

theorem nestedField_paths : explicitPaths (treeOf nestedFieldBlocks) = [([[['n'], ['A'], ['m'], ['S']]], [[['n'], ['m'], ['S'], ['f']]])] := by
  decide +kernel

attribute [local irreducible] Compile in
theorem nestedField_ok : Compile nestedField (.ok (treeOf nestedFieldBlocks)) := compile_accepted nestedField_parses nestedField_accepted

attribute [local irreducible] Compile in
/-- Without `Flat` the claim is false: the explicit reference `m.S.f` of this accepted source has the structure `n.A.m.S` and the
field `n.m.S.f`, which is not a field of that structure. -/
theorem C105_counterexample : Compile nestedField (.ok (treeOf nestedFieldBlocks)) ∧
    explicitPaths (treeOf nestedFieldBlocks) = [([[['n'], ['A'], ['m'], ['S']]], [[['n'], ['m'], ['S'], ['f']]])] :=
  ⟨nestedField_ok, nestedField_paths⟩

end Props
