import Verif.Model.GomoryHu

/-!
The separation algorithms (tsplp/src/SeparationAlgorithms.cpp, tsplp/src/SupportGraphs.cpp,
graph-algos/src/GomoryHuTree.cpp) once more, with every operation on `double`s rounded by `fl`, also in constants such as
`1 - 1e-10`.  Comparisons, `std::min` and `std::max` do not round.  The coefficients of the constraints are sums of ones and
are not rounded (integers below 2^53).  Control flow as in Model/Cuts.lean and Model/GomoryHu.lean.
-/

namespace Mtsp

section
variable (fl : ℚ → ℚ)

/-- the constant `k - 1e-10` -/
def limitF (k : ℚ) : ℚ := fl (k - fl (1 / 10 ^ 10))

/-- SeparationAlgorithms.cpp:52-54, 212-214 -/
def undirWeightF (A N : Nat) (x : Nat → ℚ) (u v : Nat) : ℚ :=
  (List.range A).foldl (fun s a => fl (s + fl (x (varId N a u v) + x (varId N a v u)))) 0

/-- SeparationAlgorithms.cpp:40-81, `Ucut` -/
def ucutF (sw : GlobalCut) (A N : Nat) (x : Nat → ℚ) : Option LinCon :=
  if (sw N (undirWeightF fl A N x)).1 ≥ limitF fl 2 then none
  else some (.ge (sumVars (ucutIds A N (sw N (undirWeightF fl A N x)).2)) (.ofConst 2))

/-- SupportGraphs.cpp:61-72 -/
def arcCapacityF (A N : Nat) (x : Nat → ℚ) (u v : Nat) : ℚ :=
  (List.range A).foldl (fun s a => fl (s + x (varId N a u v))) 0

/-- SupportGraphs.cpp:33-111, `FindMinCut` -/
def findMinCutF (mf : MaxFlow) (A N : Nat) (g : DepGraph) (x : Nat → ℚ) (s t : Nat) (k : CutKind) : ℚ × List (Nat × Nat) :=
  let r := mf N (keepVertex g k s t) (arcCapacityF fl A N x) s t
  if r.1 ≥ limitF fl 1 then (r.1, []) else (r.1, cutEdges N (keepVertex g k s t) r.2)

/-- SeparationAlgorithms.cpp:101-119, 144-160, 176-193 -/
def tryCutF (mf : MaxFlow) (A N : Nat) (g : DepGraph) (x : Nat → ℚ) (s t : Nat) (k : CutKind) : Option LinCon :=
  let r := findMinCutF fl mf A N g x s t k
  if r.1 < limitF fl 1 then some (cutConstraint A N r.2) else none

/-- SeparationAlgorithms.cpp:83-124, `Pi` -/
def piCutF (mf : MaxFlow) (N : Nat) (starts ends : List Nat) (g : DepGraph) (x : Nat → ℚ) : Option LinCon :=
  if g.arcs.isEmpty then none
  else (List.range N).findSome? fun n =>
    match g.getIncomingSpan n with
    | .error _ => none
    | .ok l => if l.isEmpty then none else ends.findSome? fun e =>
        if n = e then none else tryCutF fl mf starts.length N g x n e .pi

/-- SeparationAlgorithms.cpp:126-165, `Sigma` -/
def sigmaCutF (mf : MaxFlow) (N : Nat) (starts : List Nat) (g : DepGraph) (x : Nat → ℚ) : Option LinCon :=
  if g.arcs.isEmpty then none
  else (List.range N).findSome? fun n =>
    match g.getOutgoingSpan n with
    | .error _ => none
    | .ok l => if l.isEmpty then none else starts.findSome? fun s =>
        if n = s then none else tryCutF fl mf starts.length N g x s n .sigma

/-- SeparationAlgorithms.cpp:167-197, `PiSigma` -/
def piSigmaCutF (mf : MaxFlow) (N : Nat) (starts : List Nat) (g : DepGraph) (x : Nat → ℚ) : Option LinCon :=
  if g.arcs.isEmpty then none
  else g.arcs.findSome? fun st => tryCutF fl mf starts.length N g x st.1 st.2 .piSigma

/-! ### 2-matching -/

/-- SeparationAlgorithms.cpp:206-221: the table `edge2WeightMap` -/
def weightTableF (A N : Nat) (x : Nat → ℚ) : List ℚ :=
  (List.range N).flatMap fun u => (List.range u).map fun v => clampWeight (undirWeightF fl A N x u v)

/-- SeparationAlgorithms.cpp:217-219: the table `edge2CapacityMap` -/
def capacityTableF (tab : List ℚ) : List ℚ := tab.map fun w => min w (fl (1 - w))

/-- GomoryHuTree.cpp:100-114 with PartiallyContractedGraph.hpp:82-87 -/
def ghCapsF (N : Nat) (weights : List ℚ) (pos : Nat → Nat) (n : Nat) : Nat → ℚ :=
  (ghPairs N).foldl (fun c e =>
    if pos e.1 = pos e.2 then c
    else
      let wt := tableWeight weights e.1 e.2
      let c1 := Function.update c (pos e.1 * n + pos e.2) (fl (c (pos e.1 * n + pos e.2) + wt))
      Function.update c1 (pos e.2 * n + pos e.1) (fl (c1 (pos e.2 * n + pos e.1) + wt))) fun _ => 0

/-- GomoryHuTree.cpp:59-197, one iteration -/
def ghStepF (mf : MaxFlow) (pt : Partition) (N : Nat) (weights : List ℚ) (s : GHState) : Option (GHState × GHCall) :=
  match s.stack with
  | [] => none
  | X :: rest =>
    let bag := s.bags.getD X []
    let n := (forestReps s.bags.length s.edges X).length + bag.length
    let pos := ghPos s X
    let caps := ghCapsF fl N weights pos n
    let src := bag.headD 0
    let snk := bag.getLastD 0
    let r := mf n (fun _ => true) (fun u v => caps (pcgIndex n (u, v))) (pos src) (pos snk)
    let black := fun v => r.2 (pos v)
    let parts := pt black bag
    let new := s.bags.length
    let moved := s.edges.filter (ghMoves s.bags X black)
    let stay := s.edges.filter fun e => !ghMoves s.bags X black e
    let edges := stay ++ moved.map (fun e => (new, otherEnd X e, e.2.2)) ++ [(new, X, r.1)]
    let comps := pt black s.storage
    let st1 := if parts.2.length > 1 then X :: rest else rest
    let st2 := if parts.1.length > 1 then new :: st1 else st1
    some (⟨s.bags.set X parts.2 ++ [parts.1], edges, st2, comps.1 ++ comps.2, pos⟩, ⟨src, snk, r.1, comps.1, comps.2⟩)

/-- GomoryHuTree.cpp:57-198: the loop, for at most `fuel` iterations (the callback of `TwoMatching` never asks to stop):
the calls in their order, and whether the loop ended -/
def ghLoopF (mf : MaxFlow) (pt : Partition) (N : Nat) (weights : List ℚ) : Nat → GHState → List GHCall → List GHCall × Bool
  | 0, s, calls => (calls.reverse, s.stack.isEmpty)
  | fuel + 1, s, calls =>
    match ghStepF fl mf pt N weights s with
    | none => (calls.reverse, true)
    | some (s', c) => ghLoopF mf pt N weights fuel s' (c :: calls)

/-- GomoryHuTree.cpp:28-199, `CreateGomoryHuTree` -/
def createGomoryHuTreeF (mf : MaxFlow) (pt : Partition) (N : Nat) (weights : List ℚ) (fuel : Nat) : List GHCall × Bool :=
  if N ≤ 1 then ([], true) else ghLoopF fl mf pt N weights fuel (ghInit N) []

/-- SeparationAlgorithms.cpp:238-342: the callback for one cut -/
def combForF (A N : Nat) (tab : List ℚ) (cutSize : ℚ) (compU compV : List Nat) : Option LinCon :=
  if cutSize ≥ limitF fl 1 then none
  else
    let pairs := cutPairs compU compV
    if compU.foldl (fun b v => xor b (oddAt tab N v)) false then
      some (combConstraint A N pairs fun e => decide (tableWeight tab e.1 e.2 > 1 / 2))
    else
      match scanPairs tab pairs with
      | (w1, w2, e1, e2) =>
        if fl (cutSize + min (fl (fl (2 * w1) - 1)) (fl (1 - fl (2 * w2)))) < limitF fl 1 then
          some (combConstraint A N pairs fun e =>
            (decide (w1 < fl (1 - w2)) && decide (tableWeight tab e.1 e.2 > 1 / 2) && decide (e ≠ e1)) ||
            (decide (w1 ≥ fl (1 - w2)) && (decide (tableWeight tab e.1 e.2 > 1 / 2) || decide (e = e2))))
        else none

/-- SeparationAlgorithms.cpp:199-345, `TwoMatching`.  (The Gomory-Hu construction ends within `N` iterations, C85.) -/
def twoMatchingF (mf : MaxFlow) (pt : Partition) (A N : Nat) (x : Nat → ℚ) : List LinCon :=
  let tab := weightTableF fl A N x
  (createGomoryHuTreeF fl mf pt N (capacityTableF fl tab) N).1.filterMap fun c => combForF fl A N tab c.size c.compU c.compV

/-- the same for an arbitrary sequence of callbacks of the Gomory-Hu construction -/
def twoMatchingGF (gh : CutStream) (A N : Nat) (x : Nat → ℚ) : List LinCon :=
  let tab := weightTableF fl A N x
  let cap := fun u v => if v < u then min (tableWeight tab u v) (fl (1 - tableWeight tab u v))
    else min (tableWeight tab v u) (fl (1 - tableWeight tab v u))
  (gh N cap).filterMap fun c => combForF fl A N tab c.1 c.2.1 c.2.2

/-- the sequence that the code produces -/
def ghStreamF (mf : MaxFlow) (pt : Partition) : CutStream := fun N cap =>
  (createGomoryHuTreeF fl mf pt N (capTable N cap) N).1.map fun c => (c.size, c.compU, c.compV)

end

end Mtsp
