import Verif.Lemmas.GenSizes

/-! # Maximal sizes of resources -/

namespace Gen
open Spec

theorem onlyChild_mem {t c : Tree} {P : Kind → Bool} (h : t.onlyChild P = .ok c) :
    c ∈ t.children ∧ P c.kind = true ∧ ∀ d ∈ t.children, P d.kind = true → d = c := by
  unfold Tree.onlyChild at h
  split at h
  · rename_i r hr
    simp only [pure, Except.pure, Except.ok.injEq] at h
    subst h
    have : ∀ d, d ∈ t.children ∧ P d.kind = true ↔ d = r := by
      intro d
      have := congrArg (d ∈ ·) hr
      simpa [Tree.childrenLike] using this
    exact ⟨((this r).mpr rfl).1, ((this r).mpr rfl).2, fun d h1 h2 => (this d).mp ⟨h1, h2⟩⟩
  · cases h

theorem unlimited_field {k : Kind} {t : FieldType} {r : Option Text} {o : Option Nat} (h : k.unlimited = .field t r o) : k = .field t r o := by
  cases k <;> simp_all [Kind.unlimited]

theorem unlimited_resource {k : Kind} {rk : ResKind} {o : Bool} {m : Option Nat} (h : k.unlimited = .resource rk o m) :
    ∃ m', k = .resource rk o m' := by
  cases k <;> simp_all [Kind.unlimited]

theorem resRef_cases {k : Kind} (h : k.isResourceReference = true) : k = .ref .resource ∨ k = .ref .vector := by
  cases k with
  | ref rk => cases rk <;> simp_all [Kind.isResourceReference]
  | _ => cases h

theorem resRef_of {k : Kind} (h : k = .ref .resource ∨ k = .ref .vector) : k.isResourceReference = true := by
  rcases h with rfl | rfl <;> rfl

theorem least_congr {P Q : Nat → Prop} (h : ∀ n, P n ↔ Q n) {m : Option Nat} (hm : Least P m) : Least Q m := by
  cases m with
  | none => exact fun n hn => hm n ((h n).mpr hn)
  | some m => exact ⟨(h m).mp hm.1, fun n hn => hm.2 n ((h n).mpr hn)⟩

theorem limitResource_spec {t r r' : Tree} {e : Path × Tree} {done : List (Path × Tree)} (hl : Lk t) (he : t.descend e.1 = some e.2)
    (hg : Good r) (hs : SameBy Kind.unlimited t r)
    (hinv : ∀ q k o m, kindAt r q = some (.resource k o m) → Least (fun l => ∃ x ∈ done, LimitBy t x.2 q l) m)
    (h : limitResource r e = .ok r') : Good r' ∧ SameBy Kind.unlimited r r' ∧
    ∀ q k o m, kindAt r' q = some (.resource k o m) → Least (fun l => ∃ x ∈ done ++ [e], LimitBy t x.2 q l) m := by
  have hsame : Same t r := hs.mono blank_unlimited
  unfold limitResource at h
  obtain ⟨f, hf, h⟩ := bind_ok h
  obtain ⟨fnode, hfn, h⟩ := bind_ok h
  obtain ⟨f1, f2, f3⟩ := onlyChild_mem hf
  simp only [decide_eq_true_eq] at f2 f3
  obtain ⟨m, ft, fd, ff, _⟩ := hl.target (descend_child hl.good he f1) f2
  obtain ⟨m', hm', _, hmk, _⟩ := hs.node fd
  have hfn' : r.find f.target = .ok m' := by
    rw [ft]; exact (find_path (hs.name.trans hl.name) (descend_nodot hl.good fd)).mpr hm'
  rw [hfn'] at hfn; cases hfn
  split at h
  · rename_i ty rg o hfk
    obtain ⟨w, hw, h⟩ := bind_ok h
    have hmf : m.kind = .field ty rg o := unlimited_field (by rw [← hmk, hfk]; rfl)
    -- the limits this reference imposes
    have honly : ∀ {q : Path} {l : Nat}, LimitBy t e.2 q l → w ≠ 64 ∧ l = 2 ^ w := by
      rintro q l ⟨f', g1, d', g2, fn', ty', rg', o', w', g3, g4, g5, g6, g7, g8, g9, g10⟩
      rw [f3 f' g1 g3, ff] at g4
      cases g4
      rw [hmf] at g5; cases g5
      rw [hw] at g6; cases g6
      exact ⟨g7, g10⟩
    split at h
    · rename_i h64
      simp only [pure, Except.pure, Except.ok.injEq] at h
      subst h
      refine ⟨hg, .refl _, fun q k o m hk => least_congr ?_ (hinv q k o m hk)⟩
      intro l
      simp only [List.mem_append, List.mem_singleton]
      constructor
      · rintro ⟨x, hx, hx2⟩; exact ⟨x, .inl hx, hx2⟩
      · rintro ⟨x, hx | rfl, hx2⟩
        · exact ⟨x, hx, hx2⟩
        · exact absurd h64 (honly hx2).1
    · rename_i h64
      obtain ⟨d, hd, h⟩ := bind_ok h
      obtain ⟨dnode, hdn, h⟩ := bind_ok h
      obtain ⟨d1, d2, d3⟩ := onlyChild_mem hd
      have d2' := resRef_cases d2
      have : ∃ rk, d.kind = .ref rk := by rcases d2' with h | h <;> exact ⟨_, h⟩
      obtain ⟨drk, hdrk⟩ := this
      obtain ⟨n, dt, dd, df, _⟩ := hl.target (descend_child hl.good he d1) hdrk
      obtain ⟨n', hn', _, hnk, _⟩ := hs.node dd
      have hdn' : r.find d.target = .ok n' := by
        rw [dt]; exact (find_path (hs.name.trans hl.name) (descend_nodot hl.good dd)).mpr hn'
      obtain rfl : n' = dnode := by rw [hdn'] at hdn; exact Except.ok.inj hdn
      split at h
      · rename_i k0 o0 m0 hdk
        simp only [pure, Except.pure, Except.ok.injEq] at h
        have hk0 : kindAt r d.targetPath = some (.resource k0 o0 m0) := kindAt_some.mpr ⟨n', hn', hdk⟩
        have hat := fun L q => setKind_kindAt (k := .resource k0 o0 (some L)) hg (p := d.targetPath) (by rw [hn']; rfl) q
        have hmine : LimitBy t e.2 d.targetPath (2 ^ w) :=
          ⟨f, f1, d, d1, m, ty, rg, o, w, f2, ff, hmf, hw, h64, d2', dt, rfl⟩
        have hother : ∀ {q l}, (∃ n, r.descend q = some n) → LimitBy t e.2 q l → q = d.targetPath := by
          rintro q l ⟨nq, hnq⟩ ⟨f', g1, d', g2, fn', ty', rg', o', w', g3, g4, g5, g6, g7, g8, g9, g10⟩
          rw [d3 d' g2 (resRef_of g8), dt] at g9
          exact (pathText_inj (descend_nodot hg hn') (descend_nodot hg hnq) g9).symm
        refine ⟨by rw [← h]; exact (setKind_spec hg).1, by rw [← h]; exact setKind_same hg hk0 rfl, ?_⟩
        intro q k o m hk
        rw [← h, hat] at hk
        by_cases hq : q = d.targetPath
        · rw [if_pos hq] at hk
          simp only [Option.some.injEq, Kind.resource.injEq] at hk
          obtain ⟨rfl, rfl, rfl⟩ := hk
          subst hq
          have hi := hinv _ _ _ _ hk0
          have hfw : ∀ l, (∃ x ∈ done ++ [e], LimitBy t x.2 d.targetPath l) ↔ (∃ x ∈ done, LimitBy t x.2 d.targetPath l) ∨ l = 2 ^ w := by
            intro l
            simp only [List.mem_append, List.mem_singleton]
            constructor
            · rintro ⟨x, hx | rfl, hx2⟩
              · exact .inl ⟨x, hx, hx2⟩
              · exact .inr (honly hx2).2
            · rintro (⟨x, hx, hx2⟩ | rfl)
              · exact ⟨x, .inl hx, hx2⟩
              · exact ⟨e, .inr rfl, hmine⟩
          refine least_congr (fun l => (hfw l).symm) ?_
          cases m0 with
          | none =>
            refine ⟨.inr rfl, ?_⟩
            rintro l (hl | rfl)
            · exact absurd hl (hi l)
            · exact Nat.le_refl _
          | some m0 =>
            simp only
            split
            · refine ⟨.inr rfl, ?_⟩
              rintro l (hl | rfl)
              · have := hi.2 l hl; omega
              · exact Nat.le_refl _
            · refine ⟨.inl hi.1, ?_⟩
              rintro l (hl | rfl)
              · exact hi.2 l hl
              · omega
        · rw [if_neg hq] at hk
          refine least_congr ?_ (hinv q k o m hk)
          intro l
          simp only [List.mem_append, List.mem_singleton]
          constructor
          · rintro ⟨x, hx, hx2⟩; exact ⟨x, .inl hx, hx2⟩
          · rintro ⟨x, hx | rfl, hx2⟩
            · exact ⟨x, hx, hx2⟩
            · obtain ⟨nq, h1, _⟩ := kindAt_some.mp hk
              exact absurd (hother ⟨nq, h1⟩ hx2) hq
      · cases h
  · cases h

theorem foldlM_limit {t : Tree} (hl : Lk t) {l : List (Path × Tree)} (hd : ∀ e ∈ l, t.descend e.1 = some e.2) :
    ∀ {r r' : Tree} {done : List (Path × Tree)}, Good r → SameBy Kind.unlimited t r →
    (∀ q k o m, kindAt r q = some (.resource k o m) → Least (fun l => ∃ x ∈ done, LimitBy t x.2 q l) m) →
    l.foldlM limitResource r = .ok r' → Good r' ∧ SameBy Kind.unlimited r r' ∧
    ∀ q k o m, kindAt r' q = some (.resource k o m) → Least (fun i => ∃ x ∈ done ++ l, LimitBy t x.2 q i) m := by
  induction l with
  | nil =>
    intro r r' done hg hs hinv h
    simp only [List.foldlM_nil, pure, Except.pure, Except.ok.injEq] at h
    subst h
    exact ⟨hg, .refl _, by simpa using hinv⟩
  | cons e l ih =>
    intro r r' done hg hs hinv h
    simp only [List.foldlM_cons] at h
    obtain ⟨r1, h1, h⟩ := bind_ok h
    obtain ⟨a1, a2, a3⟩ := limitResource_spec hl (hd e (by simp)) hg hs hinv h1
    obtain ⟨b1, b2, b3⟩ := ih (fun x hx => hd x (by simp [hx])) a1 (hs.trans a2) a3 h
    refine ⟨b1, a2.trans b2, ?_⟩
    intro q k o m hk
    have := b3 q k o m hk
    rwa [List.append_assoc, List.singleton_append] at this

theorem computeMaxSizes_spec {t t' : Tree} (hl : Lk t) (h0 : ∀ q k o m, kindAt t q = some (.resource k o m) → m = none)
    (h : computeMaxSizes t = .ok t') : Good t' ∧ SameBy Kind.unlimited t t' ∧
    ∀ q k o m, kindAt t' q = some (.resource k o m) → Least (Limit t q) m := by
  have hm : ∀ {p n}, (p, n) ∈ t.nodesLike (fun k => k = .explicitReference) ↔ t.descend p = some n ∧ n.kind = .explicitReference := by
    intro p n; rw [mem_nodesLike hl.good]; simp
  obtain ⟨a1, a2, a3⟩ := foldlM_limit hl (l := t.nodesLike fun k => k = .explicitReference) (done := [])
    (fun e he => (hm.mp he).1) hl.good (.refl _) (fun q k o m hk => by rw [h0 q k o m hk]; rintro n ⟨x, hx, _⟩; cases hx) h
  refine ⟨a1, a2, fun q k o m hk => least_congr ?_ (a3 q k o m hk)⟩
  intro l
  simp only [List.nil_append, Limit, Prod.exists]
  constructor
  · rintro ⟨p, n, h1, h2⟩; exact ⟨p, n, (hm.mp h1).1, (hm.mp h1).2, h2⟩
  · rintro ⟨p, n, h1, h2, h3⟩; exact ⟨p, n, hm.mpr ⟨h1, h2⟩, h3⟩

end Gen
