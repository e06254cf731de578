import Verif.Model.Graph

/-! Model of tsplp/src/DependencyHelpers.cpp.  A weight matrix is a function `row → column → ℚ` together
with its size; `weights(v, u) == -1` is the dependency flag "`u` before `v`". -/

namespace Mtsp

abbrev Weights := Nat → Nat → ℚ

/-- assignment `weights(i, j) = x` -/
def setAt (w : Weights) (i j : Nat) (x : ℚ) : Weights := fun a b => if a = i ∧ b = j then x else w a b

/-- DependencyHelpers.cpp:15-16: `for ([v, u] : argwhere(weights == -1)) add_edge(u, v)`, row-major. -/
def depArcs (n : Nat) (w : Weights) : Arcs :=
  (List.range n).flatMap fun v => (List.range n).filterMap fun u => if w v u = -1 then some (u, v) else none

/-- DependencyHelpers.cpp:12-28, `CreateTransitiveDependencies`. -/
def createTransitiveDependencies (n : Nat) (w : Weights) : Except Err Weights :=
  let g := depArcs n w
  if hasCycle n g then .error .cyclic
  else .ok ((transClosure g).foldl (fun w e => setAt w e.2 e.1 (-1)) w)

/-- tsplp/include/DependencyHelpers.hpp:13-21, members of `DependencyGraph`. -/
structure DepGraph where
  n : Nat
  w : Weights
  outgoing : List Nat
  outSpans : List (Nat × Nat)
  incoming : List Nat
  inSpans : List (Nat × Nat)
  arcs : Arcs

/-- one pass of DependencyHelpers.cpp:38-50 (`p v = (weights(v, u) == -1)`) resp. 52-67
(`p v = (weights(u, v) == -1)`): append the selected nodes to the flat vector and remember the range. -/
def spanStep (n : Nat) (p : Nat → Nat → Bool) (acc : List Nat × List (Nat × Nat)) (u : Nat) :
    List Nat × List (Nat × Nat) :=
  let flat := (List.range n).foldl (fun f v => if p u v then f ++ [v] else f) acc.1
  (flat, acc.2 ++ [(acc.1.length, flat.length)])

/-- DependencyHelpers.cpp:30-68, constructor of `DependencyGraph`. -/
def DepGraph.make (n : Nat) (w : Weights) : DepGraph :=
  let out := (List.range n).foldl (spanStep n fun u v => decide (w v u = -1)) ([], [])
  let inc := (List.range n).foldl (spanStep n fun u v => decide (w u v = -1)) ([], [])
  let arcs := (List.range n).foldl (fun l u => (List.range n).foldl
    (fun l v => if w u v = -1 then l ++ [(v, u)] else l) l) []
  { n := n, w := w, outgoing := out.1, outSpans := out.2, incoming := inc.1, inSpans := inc.2, arcs := arcs }

/-- DependencyHelpers.cpp:70-82: the part of the flat vector between the two stored positions. -/
def getSpan (flat : List Nat) (spans : List (Nat × Nat)) (u : Nat) : Except Err (List Nat) :=
  match spans[u]? with
  | none => .error (.ub "span map out of range")
  | some (s, t) => .ok ((flat.drop s).take (t - s))

def DepGraph.getOutgoingSpan (g : DepGraph) (u : Nat) : Except Err (List Nat) := getSpan g.outgoing g.outSpans u
def DepGraph.getIncomingSpan (g : DepGraph) (u : Nat) : Except Err (List Nat) := getSpan g.incoming g.inSpans u

/-- tsplp/include/DependencyHelpers.hpp:30 -/
def DepGraph.hasArc (g : DepGraph) (u v : Nat) : Bool := decide (g.w v u = -1)

/-- tsplp/include/DependencyHelpers.hpp:31 -/
def DepGraph.isEmpty (g : DepGraph) : Bool := g.arcs.isEmpty

end Mtsp
