import Verif.Model.Gen.Resolve
import Verif.Spec.Tree

/-!
# What name resolution means

`p` is the path of the definition in which the reference occurs (the field, resource or explicit reference it belongs to).
-/

namespace Spec
open Gen

/-- The node at a path is a namespace. -/
def NamespaceAt (root : Tree) (p : Path) : Prop := ∃ n, root.descend p = some n ∧ n.kind = .namespace

/-- `s` is a definition that encloses `p`: it lies above `p`, and there is no namespace from `s` down to above `p`. -/
def EnclosingDefinition (root : Tree) (p s : Path) : Prop :=
  s <+: p ∧ s ≠ p ∧ ∀ r, s <+: r → r <+: p → r ≠ p → ¬ NamespaceAt root r

/-- `s` is the innermost namespace around `p`. -/
def EnclosingNamespace (root : Tree) (p s : Path) : Prop :=
  s <+: p ∧ NamespaceAt root s ∧ ∀ r, s <+: r → r <+: p → NamespaceAt root r → r = s

/-- There is a node of the given relative path below `s`. -/
def Contains (root : Tree) (s : Path) (keys : List Text) : Prop := ∃ n, root.descend (s ++ keys) = some n

/-- The text `target`, written in the definition at `p`, means the node at `q`. -/
inductive Means (root : Tree) (p : Path) : Text → Path → Prop
  /-- With a leading dot: the absolute path. -/
  | absolute {q : Path} (h : ∃ n, root.descend q = some n) (hq : q ≠ []) : Means root p (pathText q) q
  /-- The innermost enclosing definition that contains it. -/
  | inDefinition {target : Text} {s : Path} (hrel : target.head? ≠ some '.') (hs : EnclosingDefinition root p s)
      (hc : Contains root s (splitDot target))
      (hinner : ∀ s', EnclosingDefinition root p s' → Contains root s' (splitDot target) → s' <+: s) :
      Means root p target (s ++ splitDot target)
  /-- Otherwise the enclosing namespace. -/
  | inNamespace {target : Text} {s : Path} (hrel : target.head? ≠ some '.')
      (hno : ∀ s', EnclosingDefinition root p s' → ¬ Contains root s' (splitDot target))
      (hs : EnclosingNamespace root p s) (hc : Contains root s (splitDot target)) :
      Means root p target (s ++ splitDot target)

/-- The node kinds a reference of a given class may point to. -/
def KindFits : RefKind → Kind → Prop
  | .structure, k => ∃ s, k = .structure s
  | .builtinStructure, k => ∃ s, k = .structure s
  | .archive, k => k = .archive
  | .resource, k => ∃ r o m, k = .resource r o m
  | .vector, k => ∃ o m, k = .resource .vector o m
  | .field, k => ∃ t r o, k = .field t r o
  | .constantValue, k => ∃ t v, k = .constant t v
  | .invalidValue, k => ∃ t v, k = .constant t v
  | .enumeration _, k => ∃ t, k = .enumeration t

/-- References are leaves whose names start with `@`; no other name contains `@`. -/
inductive WellNamed : Tree → Prop
  | ref {body k} : WellNamed (.mk ('@' :: body) (.ref k) [])
  | node {n k cs} : '@' ∉ n → (∀ r, k ≠ .ref r) → (∀ c ∈ cs, WellNamed c) → WellNamed (.mk n k cs)

/-- The same tree up to the names of references. -/
inductive Renamed : Tree → Tree → Prop
  | mk {n n' k cs cs'} : (n' = n ∨ (∃ r, k = .ref r) ∧ n.head? = some '@' ∧ n'.head? = some '@') →
      cs.length = cs'.length → (∀ (i : Nat) c c', cs[i]? = some c → cs'[i]? = some c' → Renamed c c') →
      Renamed (.mk n k cs) (.mk n' k cs')

/-- No identifier of the definitions contains `@` (the grammar has no such identifiers; see grammar.py:16-17). -/
def PlainNames (b : PBlock) : Prop :=
  '@' ∉ b.name ∧ (∀ c ∈ b.constants, '@' ∉ c.name) ∧
  (∀ s ∈ b.structures, '@' ∉ s.name ∧ ∀ f ∈ s.fields, '@' ∉ f.name) ∧
  (∀ e ∈ b.enumerations, '@' ∉ e.name ∧ ∀ v ∈ e.values, '@' ∉ v.1) ∧
  ∀ a ∈ b.archives, '@' ∉ a.name ∧ (∀ g ∈ a.bounds, '@' ∉ g.1) ∧
    ∀ r ∈ a.resources, '@' ∉ r.name ∧ ∀ s f d, .explicitReference s f d ∈ r.decorations → '@' ∉ s ∧ '@' ∉ f ∧ '@' ∉ d

end Spec
