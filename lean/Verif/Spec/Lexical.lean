import Verif.Model.Gen.Parsed

/-!
# What names the grammar allows
-/

namespace Spec
open Gen

/-- A letter or an underscore. -/
def IdStart (c : Char) : Prop := (97 ≤ c.toNat ∧ c.toNat ≤ 122) ∨ (65 ≤ c.toNat ∧ c.toNat ≤ 90) ∨ c = '_'

/-- A letter, a digit or an underscore. -/
def IdChar (c : Char) : Prop := IdStart c ∨ (48 ≤ c.toNat ∧ c.toNat ≤ 57)

instance (c : Char) : Decidable (IdStart c) := by unfold IdStart; infer_instance
instance (c : Char) : Decidable (IdChar c) := by unfold IdChar; infer_instance

/-- Identifiers. -/
def Ident (n : Text) : Prop := (∃ c ∈ n.head?, IdStart c) ∧ ∀ c ∈ n, IdChar c

instance (n : Text) : Decidable (Ident n) := by
  unfold Ident
  have : Decidable (∃ c ∈ n.head?, IdStart c) := match n with
    | [] => .isFalse (by simp)
    | c :: _ => decidable_of_iff (IdStart c) (by simp)
  infer_instance

/-- Identifiers with dots at any place. -/
def Dotted (n : Text) : Prop := (∃ c ∈ n.head?, IdStart c ∨ c = '.') ∧ ∀ c ∈ n, IdChar c ∨ c = '.'

def LexicalField (f : PField) : Prop :=
  Ident f.name ∧ Dotted f.type ∧ ∀ d ∈ f.decorations, match d with
    | .range n => Ident n
    | .constRef n => Dotted n
    | .invalidValue n => Dotted n

def LexicalType : PResType → Prop
  | .vector t => Dotted t
  | .multivector _ ts => ts ≠ [] ∧ ∀ t ∈ ts, Dotted t
  | .object t => Dotted t
  | .rawData => True
  | .archive n => Dotted n

def LexicalResource (r : PResource) : Prop :=
  Ident r.name ∧ LexicalType r.type ∧ ∀ d ∈ r.decorations, match d with
    | .explicitReference s f n => Dotted s ∧ Ident f ∧ Dotted n
    | .optional => True

/-- Names are identifiers, references are identifiers with dots, structures have fields, enumerations have values,
multivectors have types, and bound groups have members. -/
structure Lexical (b : PBlock) : Prop where
  name : Dotted b.name
  constants : ∀ c ∈ b.constants, Ident c.name
  enumerations : ∀ e ∈ b.enumerations, Ident e.name ∧ e.values ≠ [] ∧ ∀ v ∈ e.values, Ident v.1
  structures : ∀ s ∈ b.structures, Ident s.name ∧ s.fields ≠ [] ∧ ∀ f ∈ s.fields, LexicalField f
  archives : ∀ a ∈ b.archives, Ident a.name ∧ (∀ g ∈ a.bounds, Ident g.1 ∧ g.2 ≠ [] ∧ ∀ r ∈ g.2, Dotted r) ∧
    ∀ r ∈ a.resources, LexicalResource r

end Spec
