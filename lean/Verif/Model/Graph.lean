import Verif.Basic

/-!
The Boost graph algorithms the code calls, on a graph given by its vertex count `n` and its list of arcs
(in insertion order).  The recursion of Boost's depth-first search (`boost::depth_first_search`, used by
graph-algos/include/HasCycle.hpp:12-43 and by `boost::topological_sort`, Heuristics.cpp:75, 183) is
modelled exactly: roots in vertex order, out-edges in insertion order, an edge into a vertex that is on
the current search path is a back edge and aborts the search, finished vertices are output.
Fuel only bounds the recursion depth; it is proved never to run out.
-/

namespace Mtsp

abbrev Arcs := List (Nat × Nat)

/-- out-edges of `u` in insertion order (`boost::out_edges` of `adjacency_list<vecS, vecS, directedS>`) -/
def adjOf (arcs : Arcs) (u : Nat) : List Nat := (arcs.filter fun e => e.1 = u).map (·.2)

/-- `boost::depth_first_visit`: `gray` is the current search path, `done` the vertices finished so far in
finish order; the result is the new finish order. -/
def dfsVisit (adj : Nat → List Nat) : Nat → List Nat → List Nat → Nat → Except Err (List Nat)
  | 0, _, _, _ => .error (.ub "fuel")
  | fuel + 1, gray, done, u =>
    match (adj u).foldlM (fun d v =>
        if v ∈ u :: gray then .error .notADag
        else if v ∈ d then .ok d
        else dfsVisit adj fuel (u :: gray) d v) done with
    | .error e => .error e
    | .ok d => .ok (d ++ [u])

/-- `boost::depth_first_search`: visit every vertex that is not finished yet. -/
def dfsAll (n : Nat) (adj : Nat → List Nat) : Except Err (List Nat) :=
  (List.range n).foldlM (fun d v => if v ∈ d then .ok d else dfsVisit adj (n + 1) [] d v) []

/-- graph-algos/include/HasCycle.hpp:12-43 (directed case). -/
def hasCycle (n : Nat) (arcs : Arcs) : Bool :=
  match dfsAll n (adjOf arcs) with
  | .error _ => true
  | .ok _ => false

/-- `boost::topological_sort(graph, back_inserter(reverseOrder))`: the vertices in finish order; throws
`not_a_dag` at a back edge. -/
def topologicalSort (n : Nat) (arcs : Arcs) : Except Err (List Nat) := dfsAll n (adjOf arcs)

/-- `boost::transitive_closure` for an acyclic graph.  Simplification: Boost computes it per strongly
connected component; here arcs are added one by one, each connecting everything that reaches its tail with
everything its head reaches.  The result is the set of pairs connected by one or more arcs (theorem
`mem_transClosure`). -/
def closeStep (T : Arcs) (e : Nat × Nat) : Arcs :=
  let tails := e.1 :: (T.filter fun p => p.2 = e.1).map (·.1)
  let heads := e.2 :: (T.filter fun p => p.1 = e.2).map (·.2)
  T ++ tails.flatMap fun a => heads.map fun b => (a, b)

def transClosure (arcs : Arcs) : Arcs := arcs.foldl closeStep []

/-- `boost::connected_components` on the undirected graph: two vertices get the same id iff they are
connected (theorem `components_iff`).  Simplification: Boost numbers the components 0, 1, …; the code
only uses the ids as keys, here the id of a component is one of its vertices. -/
def componentIds (arcs : Arcs) : Nat → Nat :=
  arcs.foldl (fun c e => fun x => if c x = c e.2 then c e.1 else c x) id

end Mtsp
