import Verif.Spec.Meaning
import Verif.Spec.Graph
import Verif.Model.Gen.Passes
import Verif.Model.Gen.Build

/-!
# Which schemas can be compiled from what is stored next to an archive
-/

namespace Spec
open Gen

/-- The only child of a class that has one. -/
def theChild (e : Tree) (k : Kind) : Tree := (childrenOf e k).headD .root

/-- The name an explicit reference gets if it is written with full paths. -/
def fullExplicitName (e : Tree) : Text :=
  "er_".toList ++ dotsToUnderscores (theChild e (.ref .field)).target ++ '_' :: dotsToUnderscores (theChild e (.ref .resource)).target

/-- Explicit references of a resource that would get the same name are the same. -/
def ExplicitApart (r : Tree) : Prop := ∀ a ∈ r.children, ∀ b ∈ r.children, a.kind = .explicitReference → b.kind = .explicitReference →
  fullExplicitName a = fullExplicitName b → a = b

/-- The resources to which reachable explicit references and groups of resources refer are in reachable archives. -/
def ResourcesWithin (t : Tree) (q : Path) : Prop :=
  ∀ p m r, Reachable (depChildren t) q p → t.descend p = some m → r ∈ m.children → r.kind.isResourceReference = true →
    Reachable (depChildren t) q r.targetPath.dropLast

/-- The constant that means "no value" (`@optional`) comes after the other constants of the field (`@const`). -/
def InvalidLast (f : Tree) : Prop := f.children.Pairwise fun x y => ¬ (x.kind = .ref .invalidValue ∧ y.kind = .ref .constantValue)

/-- The constants an archive lists. -/
def constantsListed (m : Tree) : List Path := (childrenOf m (.ref .constantValue)).map Tree.targetPath

/-- What comes first in one list does not come last in the other. -/
def SameOrder {V : Type} (l l' : List V) : Prop := ∀ a b, [a, b].Sublist l → ¬ [b, a].Sublist l'

/-- What is needed so that schemas do not change when `t'` is compiled from what was stored of `t`. -/
structure Settled (t t' : Tree) : Prop where
  /-- No field has `@optional` before `@const` (see `C106_unstable_decorations`). -/
  decorations : ∀ p m sz, t.descend p = some m → m.kind = .structure sz → ∀ f ∈ m.children, InvalidLast f
  /-- Archives list constants in the same order (see `C106_unstable_constants`; there is nothing to show if there is only one constant). -/
  constants : ∀ p m m', t.descend p = some m → t'.descend p = some m' → m.kind = .archive → SameOrder (constantsListed m) (constantsListed m')

end Spec
