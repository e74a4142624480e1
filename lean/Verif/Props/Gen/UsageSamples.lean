import Verif.Props.Gen.Usage
import Verif.Props.Gen.PythonSamples
import Verif.Props.Gen.DeclaredSamples

/-!
# C67: a concrete archive
-/

namespace Props
open Gen Spec Model

/-- The archive of the sample schema. -/
def archiveNodeA : Tree := ((treeOf blocksA).descend (pathOf "n.R")).getD (.mk [] .root [])

def fieldsA : List FieldDecl := [⟨"f", 5, false⟩, ⟨"g", 1, false⟩]

/-- What can be seen of a resource. -/
def resourceView (r : Tree) : Text × Kind × List Path := (r.name, r.kind, (childrenOf r (.ref .structure)).map Tree.targetPath)

theorem archiveNodeA_ok : ((treeOf blocksA).descend (pathOf "n.R")).isSome = true ∧ archiveNodeA.kind = .archive ∧
    (resourcesOf archiveNodeA).map resourceView = [("v".toList, .resource .vector false (some 32), [["n".toList, "S".toList]]),
      ("w".toList, .resource (.multivector 33) true none, [["n".toList, "S".toList]])] ∧
    ((treeOf blocksA).descend ["n".toList, "S".toList]).map (fun n => (n.kind, n.children.filterMap declaredField)) = some (.structure (some 6), fieldsA) := by decide +kernel

theorem builtinA : ∀ b ∈ blocksA, "_builtin".toList ∉ splitDot b.name := by decide +kernel

/-- A vector of two elements and a multivector with an empty bucket, in that order. -/
def vectorA : List Dict := [[("f", 31), ("g", 1)], [("g", 0), ("f", 7)]]
def bucketsA : List (List Obj) := [[⟨"n_S", [("f", 3), ("g", 1)]⟩], []]
def historyA : List Call := [.set "w" (.buckets bucketsA), .set "v" (.list vectorA), .finish]

theorem singleton_of_map {α β : Type _} {g : α → β} {l : List α} {b : β} (h : l.map g = [b]) : ∃ a, l = [a] ∧ g a = b := by
  cases l with
  | nil => cases h
  | cons a l =>
    simp only [List.map_cons, List.cons.injEq, List.map_eq_nil_iff] at h
    exact ⟨a, by rw [h.2], h.1⟩

theorem usage_sample {t n : Tree} {source : Text} {blocks : List PBlock} (hs : parseSource source = .ok blocks)
    (a5 : ∀ b ∈ blocks, "_builtin".toList ∉ splitDot b.name) (h1 : Compile source (.ok t)) (h2 : Flat t) (h3 : NoBuiltin t) (h4 : Importable t) (hn : t.descend (pathOf "n.R") = some n)
    (a2 : n.kind = .archive)
    (a3 : (resourcesOf n).map resourceView = [("v".toList, .resource .vector false (some 32), [["n".toList, "S".toList]]),
      ("w".toList, .resource (.multivector 33) true none, [["n".toList, "S".toList]])])
    (a4 : (t.descend ["n".toList, "S".toList]).map (fun n => (n.kind, n.children.filterMap declaredField)) = some (.structure (some 6), fieldsA)) : ∃ stmts env A loaded v w, PyModule t (.ok stmts) ∧ execModule [] stmts = some env ∧ ArchiveAt t (pathOf "n.R") A ∧
    env.lookup "n_R".toList = some (.archive A) ∧ env.lookup "n_RBuilder".toList = some (.builder A) ∧
    openArchive A .files (Node.ofFiles (replay noFiles (runCalls A "dir" historyA (newBuilder A "dir")).ops)) = .ok loaded ∧
    loaded.lookup "v" = some (.vector v) ∧ v.len = .ok 2 ∧
    loaded.lookup "w" = some w ∧ w ≠ .absent := by
  have hres : ∀ r ∈ resourcesOf n, resourceView r = ("v".toList, .resource .vector false (some 32), [["n".toList, "S".toList]]) ∨
      resourceView r = ("w".toList, .resource (.multivector 33) true none, [["n".toList, "S".toList]]) := by
    intro r hr
    have := List.mem_map_of_mem (f := resourceView) hr
    rw [a3] at this
    simpa using this
  have hex : ∀ x ∈ (resourcesOf n).map resourceView, ∃ r ∈ resourcesOf n, resourceView r = x := by
    intro x hx; simpa using List.mem_map.mp hx
  obtain ⟨ns, hns, hns'⟩ := Option.map_eq_some_iff.mp a4
  simp only [Prod.mk.injEq] at hns'
  have hfields : FieldsAt t ["n".toList, "S".toList] fieldsA := ⟨ns, _, hns, hns'.1, hns'.2.symm⟩
  have hwf : ∀ f ∈ fieldsA, f.width ≠ 0 := by decide
  have fits : ∀ d : Dict, (∀ f ∈ fieldsA, (d.lookup f.name).isSome = true) → (∀ p ∈ d, p.1 ∈ fieldsA.map (·.name)) → DictFits fieldsA d :=
    fun d x y => ⟨fun f hf => Option.isSome_iff_exists.mp (x f hf), y⟩
  have sv : ∀ r, resourceView r = ("v".toList, .resource .vector false (some 32), [["n".toList, "S".toList]]) → Suits t r (.list vectorA) := by
    intro r hr
    simp only [resourceView, Prod.mk.injEq] at hr
    obtain ⟨ref, e1, e2⟩ := singleton_of_map hr.2.2
    refine .vector hr.2.1 e1 (e2 ▸ hfields) hwf ?_ (by decide)
    intro d hd
    simp only [vectorA, List.mem_cons, List.not_mem_nil, or_false] at hd
    rcases hd with rfl | rfl <;> exact fits _ (by decide) (by decide)
  have sw : ∀ r, resourceView r = ("w".toList, .resource (.multivector 33) true none, [["n".toList, "S".toList]]) → Suits t r (.buckets bucketsA) := by
    intro r hr
    simp only [resourceView, Prod.mk.injEq] at hr
    obtain ⟨ref, e1, e2⟩ := singleton_of_map hr.2.2
    have hty : TypesAt t (childrenOf r (.ref .structure)) [("n_S", fieldsA)] := by
      rw [e1]
      have : String.ofList (pythonName ref.targetPath) = "n_S" := by rw [e2]; decide
      rw [← this]
      exact .cons (e2 ▸ hfields) .nil
    refine .multivector hr.2.1 (by decide) hty (by decide) ?_ ?_ (by decide) (by decide)
    · intro p hp
      simp only [List.mem_singleton] at hp
      subst hp; exact hwf
    · intro b hb obj hobj
      simp only [bucketsA, List.mem_cons, List.not_mem_nil, or_false] at hb
      rcases hb with rfl | rfl
      · simp only [List.mem_cons, List.not_mem_nil, or_false] at hobj
        subst hobj
        exact ⟨fieldsA, by simp, fits _ (by decide) (by decide)⟩
      · cases hobj
  obtain ⟨stmts, env, A, b1, b2, b2', b3, b4, b5⟩ := C67_generated_roundtrip hs h1 h2 h3 h4 a5 hn a2 (by
    intro r hr w o m hk r' hr' he
    have q1 := hres r hr
    have q2 := hres r' hr'
    simp only [resourceView, Prod.mk.injEq] at q1 q2
    have : r'.name.length ≤ 1 := by rcases q2 with q2 | q2 <;> rw [q2.1] <;> decide
    rw [he] at this
    simp at this)
  have hcv : ∀ r, resourceView r = ("v".toList, .resource .vector false (some 32), [["n".toList, "S".toList]]) →
      historyA = [.set "w" (.buckets bucketsA)] ++ .set (String.ofList r.name) (.list vectorA) :: [.finish] := by
    intro r hr
    simp only [resourceView, Prod.mk.injEq] at hr
    rw [hr.1]; rfl
  have hcw : ∀ r, resourceView r = ("w".toList, .resource (.multivector 33) true none, [["n".toList, "S".toList]]) →
      historyA = [] ++ .set (String.ofList r.name) (.buckets bucketsA) :: [.set "v" (.list vectorA), .finish] := by
    intro r hr
    simp only [resourceView, Prod.mk.injEq] at hr
    rw [hr.1]; rfl
  have nv : ∀ r, resourceView r = ("v".toList, .resource .vector false (some 32), [["n".toList, "S".toList]]) →
      NotYetSet A "dir" [.set "w" (.buckets bucketsA)] (String.ofList r.name) := by
    intro r hr
    simp only [resourceView, Prod.mk.injEq] at hr
    rw [hr.1]
    exact notYetSet_of_no_set (by simp)
  have nw : ∀ r : Tree, NotYetSet A "dir" [] (String.ofList r.name) := fun r => notYetSet_of_no_set (by simp)
  obtain ⟨loaded, c1, c2⟩ := b5 "dir" historyA .files (Node.ofFiles (replay noFiles (runCalls A "dir" historyA (newBuilder A "dir")).ops)) (by decide) (by
    intro r hr
    rcases hres r hr with hr | hr
    · exact .set (hcv r hr) (nv r hr) (sv r hr)
    · exact .set (hcw r hr) (nw r) (sw r hr)) (fun e _ _ file _ => rfl)
  obtain ⟨rv, d1, d2⟩ := hex _ (by rw [a3]; exact List.mem_cons_self ..)
  obtain ⟨rw', e1, e2⟩ := hex _ (by rw [a3]; exact List.mem_cons_of_mem _ (List.mem_cons_self ..))
  obtain ⟨_, sig, x, f1, f2, f3⟩ := (c2 rv d1).1 _ _ _ (hcv rv d2) (nv rv d2) (sv rv d2)
  obtain ⟨_, sig', x', g1, g2, g3⟩ := (c2 rw' e1).1 _ _ _ (hcw rw' e2) (nw rw') (sw rw' e2)
  simp only [resourceView, Prod.mk.injEq] at d2 e2
  rw [d2.1] at f2
  rw [e2.1] at g2
  generalize hval : Value.list vectorA = val at f3
  cases f3 with
  | vector hne hlen _ =>
    cases hval
    refine ⟨stmts, env, A, loaded, _, x', b1, b2, b2', b3, b4, c1, f2, hlen, g2, ?_⟩
    rintro rfl
    generalize hval : Value.buckets bucketsA = val at g3
    cases g3 <;> cases hval
  | «instance» | multivector | rawData | noElements | noBuckets | noBytes => cases hval

attribute [local irreducible] Compile in
/-- The archive of the sample schema is generated, written and read back. -/
theorem C67_witness : ∃ stmts env A loaded v w, PyModule (treeOf blocksA) (.ok stmts) ∧ execModule [] stmts = some env ∧ ArchiveAt (treeOf blocksA) (pathOf "n.R") A ∧
    env.lookup "n_R".toList = some (.archive A) ∧ env.lookup "n_RBuilder".toList = some (.builder A) ∧
    openArchive A .files (Node.ofFiles (replay noFiles (runCalls A "dir" historyA (newBuilder A "dir")).ops)) = .ok loaded ∧
    loaded.lookup "v" = some (.vector v) ∧ v.len = .ok 2 ∧
    loaded.lookup "w" = some w ∧ w ≠ .absent := by
  obtain ⟨h1, h2, h3, h4⟩ := C60_witness
  obtain ⟨a1, a2, a3, a4⟩ := archiveNodeA_ok
  obtain ⟨n0, hn0⟩ := Option.isSome_iff_exists.mp a1
  have hn : (treeOf blocksA).descend (pathOf "n.R") = some archiveNodeA := by unfold archiveNodeA; rw [hn0]; rfl
  exact usage_sample (parses_blocks sourceA_parses) builtinA h1 h2 h3 h4 hn a2 a3 a4

end Props
