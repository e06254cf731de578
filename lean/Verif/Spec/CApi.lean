import Verif.Model.Solver
import Verif.Spec.InputCover

/-! The vocabulary for the properties of the C function and the Python function. -/

namespace Mtsp

/-- the values the C types can carry; weights are non-negative, or the dependency flag -1 -/
structure CArgs.Typed (a : CArgs) : Prop where
  agents : a.A < 2 ^ 64
  nodes : a.N < 2 ^ 64
  wts : ∀ W, a.weights = some W → ∀ i, -1 ≤ W i ∧ W i < 2 ^ 31

/-- the arguments pass the checks at the top of the C function -/
structure CArgs.Accepted (a : CArgs) : Prop where
  agents : a.A ≠ 0
  nodes : 2 ≤ a.N
  half : (a.A * 2) % 2 ^ 64 ≤ a.N
  pointers : a.starts ≠ none ∧ a.ends ≠ none ∧ a.weights ≠ none ∧ a.lowerNull = false ∧ a.upperNull = false ∧ a.pathsNull = false ∧ a.offsetsNull = false
  mode01 : a.mode = 0 ∨ a.mode = 1

/-- all start and end positions are nodes -/
def CArgs.InRange (a : CArgs) : Prop := (∀ s ∈ a.startList, s < a.N) ∧ ∀ e ∈ a.endList, e < a.N

/-- the dependencies of the input -/
def CArgs.Dep (a : CArgs) : Nat → Nat → Prop := InputDep a.N a.weight

/-- what a user expects to see of the paths `P`: of an agent that returns to where it started the last node is left out -/
def shown (starts ends : List Nat) (P : List (List Nat)) : List (List Nat) :=
  P.mapIdx fun a p => if starts[a]? = ends[a]? then p.dropLast else p

/-- The paths `W` lie in the output one after the other, and the offsets tell where each begins; nothing else is written. -/
structure Layout (W : List (List Nat)) (o : COut) : Prop where
  nodes : ∀ i, o.paths i = W.flatten[i]?
  offs : ∀ a, o.offsets a = if a < W.length then some (W.take a).flatten.length else none

/-- The depots: each agent's start and end; once if they are the same.  A node is repeated in this list if two agents use it. -/
def depotUses : List Nat → List Nat → List Nat
  | s :: ss, e :: es => (if s = e then [s] else [s, e]) ++ depotUses ss es
  | _, _ => []

end Mtsp
