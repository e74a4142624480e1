import Verif.Model.Gen.Enumeration

/-!
# Model of `tree/traversal.py`

The traversals only use `_Traversal.children` (traversal.py:12-15), a function from nodes to lists of nodes. It is a
parameter here; `Gen.depChildren` (Model/Gen/Passes.lean) is the one of syntax trees.

Generators are modelled by the list of all items they yield. Loops are iterated steps: `none` means that the loop has
not finished within the given number of steps.
-/

namespace Gen

variable {V : Type} [DecidableEq V]

/-! ## Breadth first -/

/-- The local variables of `BfsTraversal.iterate`: `queue`, `processed`, and what has been yielded. -/
structure Bfs (V : Type) where
  queue : List (V × Nat)
  processed : List V
  yielded : List (V × Nat)

/-- traversal.py:26 the initial state. -/
def Bfs.init (root : V) : Bfs V := ⟨[(root, 0)], [], []⟩

/-- traversal.py:28-38, one iteration of the loop, for a non-empty queue with the given first entry. -/
def Bfs.step (children : V → List V) (s : Bfs V) (node : V) (distance : Nat) (rest : List (V × Nat)) : Bfs V :=
  if node ∈ s.processed then { s with queue := rest }
  else
    { queue := rest ++ ((children node).filter (· ∉ s.processed)).map (·, distance + 1)
      processed := s.processed ++ [node]
      yielded := s.yielded ++ [(node, distance)] }

/-- traversal.py:28-38, at most `n` iterations. -/
def Bfs.run (children : V → List V) : Nat → Bfs V → Option (List (V × Nat))
  | 0, _ => none
  | n + 1, s =>
    match s.queue with
    | [] => some s.yielded
    | (node, distance) :: rest => Bfs.run children n (s.step children node distance rest)

/-- traversal.py:22-38 `BfsTraversal.iterate` finishes after yielding these nodes with these distances. -/
def BfsYields (children : V → List V) (root : V) (out : List (V × Nat)) : Prop :=
  ∃ n, Bfs.run children n (Bfs.init root) = some out

/-! ## Depth first -/

/-- traversal.py:42-43. -/
inductive DfsEvent where
  | early
  | late
  deriving DecidableEq, Repr

/-- The local variables of `DfsTraversal._iterate`: `stack` (top first), `discovered`, `processed`, and what has been
yielded. -/
structure Dfs (V : Type) where
  stack : List (V × Bool)
  discovered : List V
  processed : List V
  yielded : List (DfsEvent × V)

/-- traversal.py:48-50 the initial state. -/
def Dfs.init (root : V) : Dfs V := ⟨[(root, false)], [], [], []⟩

/-- traversal.py:62-68, the loop over the children, in the order given (the caller passes them reversed). -/
def pushChildren (discovered processed : List V) : List V → List (V × Bool) → M (List (V × Bool))
  | [], stack => pure stack
  | c :: cs, stack =>
    if c ∉ discovered ∧ c ∉ processed then pushChildren discovered processed cs ((c, false) :: stack)
    else if c ∉ processed then throw .circularReferencing
    else pushChildren discovered processed cs stack

/-- traversal.py:52-71, one iteration of the loop, for a stack with the given top. -/
def Dfs.step (children : V → List V) (s : Dfs V) (node : V) (isProcessed : Bool) (rest : List (V × Bool)) :
    M (Dfs V) :=
  if isProcessed = false then
    if node ∈ s.processed then pure { s with stack := rest }
    else do
      let discovered := s.discovered ++ [node]
      let stack ← pushChildren discovered s.processed (children node).reverse ((node, true) :: rest)
      pure { stack := stack, discovered := discovered, processed := s.processed,
             yielded := s.yielded ++ [(.early, node)] }
  else
    pure { s with stack := rest, processed := s.processed ++ [node], yielded := s.yielded ++ [(.late, node)] }

/-- traversal.py:52-71, at most `n` iterations. -/
def Dfs.run (children : V → List V) : Nat → Dfs V → Option (M (List (DfsEvent × V)))
  | 0, _ => none
  | n + 1, s =>
    match s.stack with
    | [] => some (pure s.yielded)
    | (node, isProcessed) :: rest =>
      match s.step children node isProcessed rest with
      | .error e => some (.error e)
      | .ok s => Dfs.run children n s

/-- traversal.py:45-71 `DfsTraversal._iterate` ends: it has yielded these events, or it raises. -/
def DfsYields (children : V → List V) (root : V) (out : M (List (DfsEvent × V))) : Prop :=
  ∃ n, Dfs.run children n (Dfs.init root) = some out

/-- traversal.py:78-81 `dependency_order`. -/
def dependencyOrder (events : List (DfsEvent × V)) : List V :=
  (events.filter fun e => e.1 = .late).map (·.2)

/-- traversal.py:73-76 `iterate`. -/
def discoveryOrder (events : List (DfsEvent × V)) : List V :=
  (events.filter fun e => e.1 = .early).map (·.2)

end Gen
