import Verif.Model.Cuts
import Verif.Model.Graph

/-!
Model of graph-algos/src/GomoryHuTree.cpp and graph-algos/src/PartiallyContractedGraph.hpp.
`boost::boykov_kolmogorov_max_flow` is a parameter (`MaxFlow`), as is the order in which `std::partition`
leaves the elements (`Partition`): the C++ standard does not fix it.
-/

namespace Mtsp

/-! ### PartiallyContractedGraph -/

/-- PartiallyContractedGraph.hpp:59-69, `N2Edge` -/
def n2Edge (N i : Nat) : Nat × Nat :=
  let u := i / (N - 1)
  let v := i % (N - 1)
  (u, v + if v ≥ u then 1 else 0)

/-- PartiallyContractedGraph.hpp:146, `num_edges` -/
def pcgNumEdges (N : Nat) : Nat := N * (N - 1)

/-- PartiallyContractedGraph.hpp:148-153, `edges`: the sequence the iterators run through -/
def pcgEdges (N : Nat) : List (Nat × Nat) := (List.range (pcgNumEdges N)).map (n2Edge N)

/-- PartiallyContractedGraph.hpp:34-51, 113-125, `out_edges` -/
def pcgOutEdges (N u : Nat) : List (Nat × Nat) := ((List.range N).filter fun v => decide (u ≠ v)).map fun v => (u, v)

/-- PartiallyContractedGraph.hpp:127-131, `out_degree` -/
def pcgOutDegree (N : Nat) : Nat := N - 1

/-- PartiallyContractedGraph.hpp:166-175, `get(edge_index)` -/
def pcgIndex (N : Nat) (e : Nat × Nat) : Nat := N * e.1 + e.2

/-- PartiallyContractedGraph.hpp:188-194, `get(edge_reverse)` -/
def pcgReverse (e : Nat × Nat) : Nat × Nat := (e.2, e.1)

/-! ### CreateGomoryHuTree -/

/-- `std::partition`: the elements that satisfy the predicate, followed by the others -/
abbrev Partition := (Nat → Bool) → List Nat → List Nat × List Nat

/-- GomoryHuTree.cpp:36-54: the local variables that survive an iteration.  `bags` is
`gomoryHuTreeContractedVertices` for the vertices of the tree (simplification: the spans partition one
array, here every span is a list of its own; Model/CheckedCuts.lean works on the array, C91), `edges` the edges of `gomoryHuTree` with their weights, `stack` is
`treeNodesToBeSplit` with the last element first, `storage` is `inputGraphVertexStorage`, `pos` is
`inputVertex2partiallyContractedMap`. -/
structure GHState where
  bags : List (List Nat)
  edges : List (Nat × Nat × ℚ)
  stack : List Nat
  storage : List Nat
  pos : Nat → Nat

/-- the arguments of one invocation of `newEdgeCallback` -/
structure GHCall where
  u : Nat
  v : Nat
  size : ℚ
  compU : List Nat
  compV : List Nat
  deriving DecidableEq

/-- GomoryHuTree.cpp:36-55 -/
def ghInit (N : Nat) : GHState := ⟨[List.range N], [], [0], List.range N, fun _ => 0⟩

/-- the edges of the tree that remain when the vertex `X` is filtered out -/
def forestArcs (edges : List (Nat × Nat × ℚ)) (X : Nat) : Arcs :=
  (edges.filter fun e => decide (e.1 ≠ X) && decide (e.2.1 ≠ X)).map fun e => (e.1, e.2.1)

/-- one vertex for each component of the forest, in the order of discovery -/
def forestReps (k : Nat) (edges : List (Nat × Nat × ℚ)) (X : Nat) : List Nat :=
  (((List.range k).filter fun v => decide (v ≠ X)).map (componentIds (forestArcs edges X))).eraseDups

/-- GomoryHuTree.cpp:62-70, `connected_components` of the tree without the vertex `X`: the component of a vertex,
numbered 0, 1, … in the order of their first vertices -/
def forestId (k : Nat) (edges : List (Nat × Nat × ℚ)) (X v : Nat) : Nat :=
  (forestReps k edges X).idxOf (componentIds (forestArcs edges X) v)

/-- writing `val` to all positions `vs` of an array -/
def writeAll (f : Nat → Nat) (vs : List Nat) (val : Nat) : Nat → Nat :=
  vs.foldl (fun f v => Function.update f v val) f

/-- writing `val, val + 1, …` to the positions `vs` of an array -/
def writeSeq (f : Nat → Nat) (vs : List Nat) (val : Nat) : Nat → Nat :=
  (vs.foldl (fun (s : (Nat → Nat) × Nat) v => (Function.update s.1 v s.2, s.2 + 1)) (f, val)).1

/-- GomoryHuTree.cpp:75-96: contracted nodes first, then the nodes of the split vertex -/
def ghPos (s : GHState) (X : Nat) : Nat → Nat :=
  let k := s.bags.length
  let p := ((List.range k).filter fun v => decide (v ≠ X)).foldl
    (fun p f => writeAll p (s.bags.getD f []) (forestId k s.edges X f)) s.pos
  writeSeq p (s.bags.getD X []) (forestReps k s.edges X).length

/-- the pairs of the loops GomoryHuTree.cpp:100-102 -/
def ghPairs (N : Nat) : List (Nat × Nat) := (List.range' 1 (N - 1)).flatMap fun u => (List.range u).map fun v => (u, v)

/-- GomoryHuTree.cpp:100-114 with PartiallyContractedGraph.hpp:82-87: the table of capacities -/
def ghCaps (N : Nat) (weights : List ℚ) (pos : Nat → Nat) (n : Nat) : Nat → ℚ :=
  (ghPairs N).foldl (fun c e =>
    if pos e.1 = pos e.2 then c
    else
      let wt := tableWeight weights e.1 e.2
      let c1 := Function.update c (pos e.1 * n + pos e.2) (c (pos e.1 * n + pos e.2) + wt)
      Function.update c1 (pos e.2 * n + pos e.1) (c1 (pos e.2 * n + pos e.1) + wt)) fun _ => 0

/-- the other end of an edge at `X` -/
def otherEnd (X : Nat) (e : Nat × Nat × ℚ) : Nat := if e.1 = X then e.2.1 else e.1

/-- GomoryHuTree.cpp:147-168: whether an edge of the tree is moved to the new vertex -/
def ghMoves (bags : List (List Nat)) (X : Nat) (black : Nat → Bool) (e : Nat × Nat × ℚ) : Bool :=
  (decide (e.1 = X) || decide (e.2.1 = X)) && black ((bags.getD (otherEnd X e) []).headD 0)

/-- GomoryHuTree.cpp:59-197, one iteration of the loop: the state afterwards and the arguments of the callback -/
def ghStep (mf : MaxFlow) (pt : Partition) (N : Nat) (weights : List ℚ) (s : GHState) : Option (GHState × GHCall) :=
  match s.stack with
  | [] => none
  | X :: rest =>
    let bag := s.bags.getD X []
    let n := (forestReps s.bags.length s.edges X).length + bag.length
    let pos := ghPos s X
    let caps := ghCaps N weights pos n
    let src := bag.headD 0
    let snk := bag.getLastD 0
    let r := mf n (fun _ => true) (fun u v => caps (pcgIndex n (u, v))) (pos src) (pos snk)
    let black := fun v => r.2 (pos v)
    let parts := pt black bag
    let new := s.bags.length
    let moved := s.edges.filter (ghMoves s.bags X black)
    let stay := s.edges.filter fun e => !ghMoves s.bags X black e
    let edges := stay ++ moved.map (fun e => (new, otherEnd X e, e.2.2)) ++ [(new, X, r.1)]
    let comps := pt black s.storage
    let st1 := if parts.2.length > 1 then X :: rest else rest
    let st2 := if parts.1.length > 1 then new :: st1 else st1
    some (⟨s.bags.set X parts.2 ++ [parts.1], edges, st2, comps.1 ++ comps.2, pos⟩, ⟨src, snk, r.1, comps.1, comps.2⟩)

/-- GomoryHuTree.cpp:57-198: the loop, for at most `fuel` iterations; `stop` is the answer of the callback, which
may depend on all calls so far (the last one first).  Result: the calls in their order, and whether the loop ended
(by itself or because it was told to stop) -/
def ghLoop (mf : MaxFlow) (pt : Partition) (N : Nat) (weights : List ℚ) (stop : List GHCall → Bool) :
    Nat → GHState → List GHCall → List GHCall × Bool
  | 0, s, calls => (calls.reverse, s.stack.isEmpty)
  | fuel + 1, s, calls =>
    match ghStep mf pt N weights s with
    | none => (calls.reverse, true)
    | some (s', c) => if stop (c :: calls) then ((c :: calls).reverse, true) else ghLoop mf pt N weights stop fuel s' (c :: calls)

/-- GomoryHuTree.cpp:28-199, `CreateGomoryHuTree`: the invocations of the callback, and whether the function returns
within the given number of iterations -/
def createGomoryHuTree (mf : MaxFlow) (pt : Partition) (N : Nat) (weights : List ℚ) (stop : List GHCall → Bool) (fuel : Nat) :
    List GHCall × Bool :=
  if N ≤ 1 then ([], true) else ghLoop mf pt N weights stop fuel (ghInit N) []

/-- SeparationAlgorithms.cpp:206-221: the table `edge2CapacityMap`, for capacities `cap` -/
def capTable (N : Nat) (cap : Nat → Nat → ℚ) : List ℚ :=
  (List.range N).flatMap fun u => (List.range u).map fun v => cap u v

/-- the stream of cuts `TwoMatching` sees (its callback always answers "continue") -/
def ghStream (mf : MaxFlow) (pt : Partition) : CutStream := fun N cap =>
  (createGomoryHuTree mf pt N (capTable N cap) (fun _ => false) N).1.map fun c => (c.size, c.compU, c.compV)

end Mtsp
