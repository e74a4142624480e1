import Mathlib.Tactic.IntervalCases
import Verif.Props.Gen.Documentation

/-!
# C102: samples, and comments that do not stay comments
-/

namespace Props
open Gen

/-- A comment of several lines. -/
def docSample : Text := "/**\n * Size, in \"bytes\"\n *\n * x // y\n */".toList

theorem docSample_text : Spec.DocText docSample := by
  refine (Spec.DocText.block (body := "*\n * Size, in \"bytes\"\n *\n * x // y\n ".toList) ?_ : _)
  decide +kernel

/-- What becomes of it. -/
example : toPythonDoc docSample = "# \n#  Size, in \"bytes\"\n# \n#  x  y\n#  ".toList ∧
    toGoDoc docSample = "// /**\n//  * Size, in \"bytes\"\n//  *\n//  * x // y\n//  */".toList ∧
    rustDoc docSample = "/// Size, in \"bytes\"\n///\n/// x // y".toList := by decide +kernel

example : goFieldDoc "// a\x0cb".toList = "        // // a\n        // b".toList := by decide +kernel

/-- The hypotheses of `C102_cpp` are met. -/
example (rest : Text) : Spec.CSkips (Spec.cppSplice (cppDoc docSample ++ '\n' :: rest)) (Spec.cppSplice rest) :=
  C102_cpp docSample_text (fun _ => by unfold Spec.NoSplice; decide +kernel) rest

/-- The lines of a comment, each with an asterisk or a slash, or empty. -/
def starredSample : Text := "/* a\n\t* b\n\n // c\n */".toList

example : rustDoc starredSample = "/// a\n/// b\n\n// c".toList := by decide +kernel

/-- The hypotheses of `C102_rust_usual` are met. -/
theorem usualSample (rest : Text) :
    Spec.RustDocs (rustDoc "/**\n * a b\n * \n * // c\n */".toList ++ '\n' :: rest) [" a b".toList, [], " // c".toList] rest := by
  refine C102_rust_usual (lines := ["a b".toList, [], "// c".toList]) ?_ rest
  intro l hl
  simp only [List.mem_cons, List.not_mem_nil, or_false] at hl
  rcases hl with rfl | rfl | rfl <;> refine ⟨by decide, by decide, by decide, ?_⟩ <;> simp <;> decide

theorem starred_sample : Spec.DocText starredSample ∧ Spec.Starred starredSample ∧ '\r' ∉ starredSample := by
  refine ⟨.block (body := " a\n\t* b\n\n // c\n ".toList) (by decide +kernel), ?_, by decide⟩
  intro a b h
  have hg : starredSample[a.length]? = some '\n' := by rw [h]; simp
  have hb : b = starredSample.drop (a.length + 1) := by rw [h]; simp
  have hl : a.length < 21 := by
    have := congrArg List.length h
    rw [show starredSample.length = 20 from by decide +kernel] at this
    simp at this
    omega
  subst hb
  clear h
  generalize a.length = n at *
  refine ⟨_, _, (List.takeWhile_append_dropWhile (p := fun c => c = ' ' || c = '\t')).symm, ?_, ?_⟩
  · intro c hc
    have := (List.all_eq_true.1 List.all_takeWhile) c hc
    simpa using this
  · interval_cases n <;> first
      | exact absurd hg (by decide)
      | exact Or.inl (Or.inr ⟨_, rfl⟩)
      | exact Or.inr (Or.inl ⟨_, rfl⟩)
      | exact Or.inr (Or.inr (Or.inl ⟨_, rfl⟩))
      | exact Or.inr (Or.inr (Or.inr ⟨_, rfl, by decide⟩))

/-- The hypotheses of `C102_rust` are met. -/
example (rest : Text) : ∃ docs, Spec.RustDocs (rustDoc starredSample ++ '\n' :: rest) docs rest :=
  C102_rust starred_sample.1 (by rintro ⟨u, h⟩; exact absurd (congrArg (·[1]?) h) (by simp; decide)) starred_sample.2.1 starred_sample.2.2 rest

/-! ## Comments that do not stay comments -/

/-- **C102, finding.** Rust: a line of a `/* … */` comment that does not begin with an asterisk is put into the source as code. -/
theorem C102_rust_unstarred : rustDoc "/**\nb */".toList = "b */".toList ∧
    ∀ rest docs, ¬ Spec.RustDocs (rustDoc "/**\nb */".toList ++ '\n' :: rest) docs rest := by
  have e : rustDoc "/**\nb */".toList = ['b', ' ', '*', '/'] := by decide +kernel
  refine ⟨by rw [e]; decide +kernel, ?_⟩
  intro rest docs h
  rw [e] at h
  generalize hs : ['b', ' ', '*', '/'] ++ '\n' :: rest = s at h
  cases h with
  | none => exact absurd (congrArg List.length hs) (by simp; omega)
  | blank hc _ => injection hs with hs _; subst hs; simp at hc
  | line => injection hs with hs _; exact absurd hs (by decide)
  | doc => injection hs with hs _; exact absurd hs (by decide)

/-- **C102, finding.** Rust: a comment `//! …` of a declaration becomes an inner documentation comment, which is not allowed before
an item. -/
theorem C102_rust_inner : rustDoc "//! b".toList = "//! b".toList ∧
    ∀ rest docs, ¬ Spec.RustDocs (rustDoc "//! b".toList ++ '\n' :: rest) docs rest := by
  have e : rustDoc "//! b".toList = ['/', '/', '!', ' ', 'b'] := by decide +kernel
  refine ⟨by rw [e]; decide +kernel, ?_⟩
  intro rest docs h
  rw [e] at h
  generalize hs : ['/', '/', '!', ' ', 'b'] ++ '\n' :: rest = s at h
  cases h with
  | none => exact absurd (congrArg List.length hs) (by simp; omega)
  | blank hc _ => injection hs with hs _; subst hs; simp at hc
  | @line body s _ _ h1 h2 h3 he _ =>
    have hs : '!' :: ([' ', 'b'] ++ '\n' :: rest) = body ++ s := by injection hs with _ hs; injection hs
    cases body with
    | nil =>
      rcases he with rfl | ⟨r, rfl⟩
      · simp at hs
      · simp at hs
    | cons c body => injection hs with hs _; subst hs; simp at h2
  | doc => injection hs with _ hs; injection hs with _ hs; injection hs with hs _; exact absurd hs (by decide)

/-- **C102, finding.** C++: a backslash at the end of a line of a `/* … */` comment can end the comment early: the C++ compiler joins
the two lines, the schema parser does not. -/
theorem C102_cpp_spliced : Spec.DocText "/* a *\\\n/ b */".toList ∧
    ∀ rest, ¬ Spec.CSkips (Spec.cppSplice (cppDoc "/* a *\\\n/ b */".toList ++ '\n' :: rest)) (Spec.cppSplice rest) := by
  refine ⟨.block (body := " a *\\\n/ b ".toList) (by decide +kernel), ?_⟩
  intro rest h
  have e : Spec.cppSplice (cppDoc "/* a *\\\n/ b */".toList ++ '\n' :: rest) = ['/', '*', ' ', 'a', ' ', '*', '/', ' ', 'b', ' ', '*', '/'] ++ '\n' :: Spec.cppSplice rest := by
    rw [show "/* a *\\\n/ b */".toList = ['/', '*', ' ', 'a', ' ', '*', '\\', '\n', '/', ' ', 'b', ' ', '*', '/'] from by decide +kernel]
    simp [cppDoc, Spec.cppSplice]
  rw [e] at h
  generalize Spec.cppSplice rest = r at h
  generalize hs : ['/', '*', ' ', 'a', ' ', '*', '/', ' ', 'b', ' ', '*', '/'] ++ '\n' :: r = s at h
  cases h with
  | none => exact absurd (congrArg List.length hs) (by simp; omega)
  | blank hc _ => injection hs with hs _; subst hs; simp at hc
  | line => injection hs with _ hs; injection hs with hs _; exact absurd hs (by decide)
  | @block body s _ hb h =>
    have hs : [' ', 'a', ' '] ++ '*' :: '/' :: ([' ', 'b', ' ', '*', '/'] ++ '\n' :: r) = body ++ '*' :: '/' :: s := by
      injection hs with _ hs; injection hs
    have h1 := blockEnd_found (body := [' ', 'a', ' ']) (by decide +kernel) ([' ', 'b', ' ', '*', '/'] ++ '\n' :: r)
    rw [hs, blockEnd_found hb s] at h1
    injection h1 with _ h1
    subst h1
    generalize hs' : [' ', 'b', ' ', '*', '/'] ++ '\n' :: r = s' at h
    cases h with
    | none => exact absurd (congrArg List.length hs') (by simp; omega)
    | @blank c s _ hc h =>
      have hs'' : ['b', ' ', '*', '/'] ++ '\n' :: r = s := by injection hs'
      cases h with
      | none => exact absurd (congrArg List.length hs'') (by simp; omega)
      | blank hc _ => injection hs'' with hs'' _; subst hs''; simp at hc
      | line => injection hs'' with hs'' _; exact absurd hs'' (by decide)
      | block => injection hs'' with hs'' _; exact absurd hs'' (by decide)
    | line => injection hs' with hs' _; exact absurd hs' (by decide)
    | block => injection hs' with hs' _; exact absurd hs' (by decide)

end Props
