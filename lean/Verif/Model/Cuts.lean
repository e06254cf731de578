import Verif.Model.LP
import Verif.Model.Dependency

/-!
Model of tsplp/src/SeparationAlgorithms.cpp and tsplp/src/SupportGraphs.cpp.  The minimum cut algorithms
of Boost (`stoer_wagner_min_cut`, `boykov_kolmogorov_max_flow`) are parameters: functions from the graph to
a value and one side of the cut.  The cuts reported by the Gomory-Hu construction (graph-algos) are a
parameter of `twoMatching`, too.
-/

namespace Mtsp

/-- the graph `stoer_wagner_min_cut` is called with (number of nodes, symmetric weights) to its result:
the size of the cut and the parity map -/
abbrev GlobalCut := Nat → (Nat → Nat → ℚ) → ℚ × (Nat → Bool)

/-- the filtered graph, capacities, source and target that `boykov_kolmogorov_max_flow` is called with,
to its result: the flow value and which nodes are on the source side afterwards.  The callers read the colours
differently: SupportGraphs.cpp:100-108 takes the black nodes (the source tree), GomoryHuTree.cpp the nodes that
are not white (everything but the sink tree).  Both are minimum cuts; all that is assumed of the result is that. -/
abbrev MaxFlow := Nat → (Nat → Bool) → (Nat → Nat → ℚ) → Nat → Nat → ℚ × (Nat → Bool)

/-- SeparationAlgorithms.cpp:52-54, 212-214: `weight += values(a, u, v) + values(a, v, u)` -/
def undirWeight (A N : Nat) (x : Nat → ℚ) (u v : Nat) : ℚ :=
  (List.range A).foldl (fun s a => s + (x (varId N a u v) + x (varId N a v u))) 0

/-- SeparationAlgorithms.cpp:67-78: the variables of the cut -/
def ucutIds (A N : Nat) (par : Nat → Bool) : List Nat :=
  (List.range N).flatMap fun u => (List.range N).flatMap fun v =>
    if par u ≠ par v then (List.range A).map fun a => varId N a u v else []

/-- SeparationAlgorithms.cpp:40-81, `Ucut` -/
def ucut (sw : GlobalCut) (A N : Nat) (x : Nat → ℚ) : Option LinCon :=
  if (sw N (undirWeight A N x)).1 ≥ 2 - 1 / 10 ^ 10 then none
  else some (.ge (sumVars (ucutIds A N (sw N (undirWeight A N x)).2)) (.ofConst 2))

/-- SupportGraphs.hpp: `ConstraintType` -/
inductive CutKind where
  | pi | sigma | piSigma
  deriving DecidableEq, Repr

/-- SupportGraphs.cpp:36-59: which vertices stay in the graph -/
def keepVertex (g : DepGraph) (k : CutKind) (s t v : Nat) : Bool :=
  match k with
  | .pi => !g.hasArc v s
  | .sigma => !g.hasArc t v
  | .piSigma => !g.hasArc v s && !g.hasArc t v

/-- SupportGraphs.cpp:61-72: capacity of an arc -/
def arcCapacity (A N : Nat) (x : Nat → ℚ) (u v : Nat) : ℚ :=
  (List.range A).foldl (fun s a => s + x (varId N a u v)) 0

/-- SupportGraphs.cpp:100-108: the arcs of the filtered graph from black to other nodes -/
def cutEdges (N : Nat) (keep black : Nat → Bool) : List (Nat × Nat) :=
  (List.range N).flatMap fun u => ((List.range N).filter fun v =>
    decide (u ≠ v) && keep u && keep v && black u && !black v).map fun v => (u, v)

/-- SupportGraphs.cpp:33-111, `FindMinCut` -/
def findMinCut (mf : MaxFlow) (A N : Nat) (g : DepGraph) (x : Nat → ℚ) (s t : Nat) (k : CutKind) : ℚ × List (Nat × Nat) :=
  let r := mf N (keepVertex g k s t) (arcCapacity A N x) s t
  if r.1 ≥ 1 - 1 / 10 ^ 10 then (r.1, []) else (r.1, cutEdges N (keepVertex g k s t) r.2)

/-- SeparationAlgorithms.cpp:107-118, 149-159, 181-192: the constraint for a violated cut -/
def cutConstraint (A N : Nat) (edges : List (Nat × Nat)) : LinCon :=
  .ge (sumVars (edges.flatMap fun uv => (List.range A).map fun a => varId N a uv.1 uv.2)) (.ofConst 1)

/-- SeparationAlgorithms.cpp:101-119, 144-160, 176-193: the body of the loops, for one source and target -/
def tryCut (mf : MaxFlow) (A N : Nat) (g : DepGraph) (x : Nat → ℚ) (s t : Nat) (k : CutKind) : Option LinCon :=
  let r := findMinCut mf A N g x s t k
  if r.1 < 1 - 1 / 10 ^ 10 then some (cutConstraint A N r.2) else none

/-- SeparationAlgorithms.cpp:83-124, `Pi`: for every node with predecessors and every other end -/
def piCut (mf : MaxFlow) (N : Nat) (starts ends : List Nat) (g : DepGraph) (x : Nat → ℚ) : Option LinCon :=
  if g.arcs.isEmpty then none
  else (List.range N).findSome? fun n =>
    match g.getIncomingSpan n with
    | .error _ => none
    | .ok l => if l.isEmpty then none else ends.findSome? fun e =>
        if n = e then none else tryCut mf starts.length N g x n e .pi

/-- SeparationAlgorithms.cpp:126-165, `Sigma`: for every node with successors and every other start -/
def sigmaCut (mf : MaxFlow) (N : Nat) (starts : List Nat) (g : DepGraph) (x : Nat → ℚ) : Option LinCon :=
  if g.arcs.isEmpty then none
  else (List.range N).findSome? fun n =>
    match g.getOutgoingSpan n with
    | .error _ => none
    | .ok l => if l.isEmpty then none else starts.findSome? fun s =>
        if n = s then none else tryCut mf starts.length N g x s n .sigma

/-- SeparationAlgorithms.cpp:167-197, `PiSigma`: for every dependency -/
def piSigmaCut (mf : MaxFlow) (N : Nat) (starts : List Nat) (g : DepGraph) (x : Nat → ℚ) : Option LinCon :=
  if g.arcs.isEmpty then none
  else g.arcs.findSome? fun st => tryCut mf starts.length N g x st.1 st.2 .piSigma

/-! ### 2-matching -/

/-- SeparationAlgorithms.cpp:215, `std::max(0.0, std::min(1.0, weight))` -/
def clampWeight (w : ℚ) : ℚ := max 0 (min 1 w)

/-- SeparationAlgorithms.cpp:219, 228: position of the edge `{u, v}`, `v < u`, in the tables -/
def triIndex (u v : Nat) : Nat := u * (u - 1) / 2 + v

/-- SeparationAlgorithms.cpp:206-221: the table `edge2WeightMap`, written in increasing order of its index -/
def weightTable (A N : Nat) (x : Nat → ℚ) : List ℚ :=
  (List.range N).flatMap fun u => (List.range u).map fun v => clampWeight (undirWeight A N x u v)

/-- table lookup -/
def tableWeight (tab : List ℚ) (u v : Nat) : ℚ := tab.getD (triIndex u v) 0

/-- SeparationAlgorithms.cpp:223-232: number of heavy edges at `u` is odd -/
def oddAt (tab : List ℚ) (N u : Nat) : Bool :=
  let b1 := (List.range u).foldl (fun b v => xor b (decide (tableWeight tab u v > 1 / 2))) false
  (List.range' (u + 1) (N - (u + 1))).foldl (fun b v => xor b (decide (tableWeight tab v u > 1 / 2))) b1

/-- SeparationAlgorithms.cpp:246-255: all edges of the cut, bigger node first, in the order of the loops -/
def cutPairs (compU compV : List Nat) : List (Nat × Nat) :=
  compU.flatMap fun u => compV.map fun v => (max u v, min u v)

/-- SeparationAlgorithms.cpp:269-274, 316-321: `X(a, u, v) + X(a, v, u)` summed over the agents -/
def edgePart (A N u v : Nat) : LinComp :=
  (List.range A).foldl (fun c a => (c.addAssign (.ofVar (varId N a u v))).addAssign (.ofVar (varId N a v u))) .zero

/-- SeparationAlgorithms.cpp:263-285, 310-337: edges in `inF` go to the right hand side -/
def combConstraint (A N : Nat) (pairs : List (Nat × Nat)) (inF : Nat × Nat → Bool) : LinCon :=
  let sides := pairs.foldl (fun (s : LinComp × LinComp) e =>
    if inF e then (s.1, s.2.addAssign ((edgePart A N e.1 e.2).sub (.ofConst 1)))
    else (s.1.addAssign (edgePart A N e.1 e.2), s.2)) (LinComp.ofConst 0, LinComp.ofConst 1)
  .ge sides.1 sides.2

/-- SeparationAlgorithms.cpp:289-306: `w1, w2, e1, e2` after the loop -/
def scanPairs (tab : List ℚ) (pairs : List (Nat × Nat)) : ℚ × ℚ × (Nat × Nat) × (Nat × Nat) :=
  pairs.foldl (fun s e =>
    if tableWeight tab e.1 e.2 > 1 / 2 then (min s.1 (tableWeight tab e.1 e.2), s.2.1, e, s.2.2.2)
    else (s.1, max s.2.1 (tableWeight tab e.1 e.2), s.2.2.1, e)) (1, 0, (0, 0), (0, 0))

/-- SeparationAlgorithms.cpp:238-342: the callback for one cut -/
def combFor (A N : Nat) (tab : List ℚ) (cutSize : ℚ) (compU compV : List Nat) : Option LinCon :=
  if cutSize ≥ 1 - 1 / 10 ^ 10 then none
  else
    let pairs := cutPairs compU compV
    if compU.foldl (fun b v => xor b (oddAt tab N v)) false then
      some (combConstraint A N pairs fun e => decide (tableWeight tab e.1 e.2 > 1 / 2))
    else
      match scanPairs tab pairs with
      | (w1, w2, e1, e2) =>
        if cutSize + min (2 * w1 - 1) (1 - 2 * w2) < 1 - 1 / 10 ^ 10 then
          some (combConstraint A N pairs fun e =>
            (decide (w1 < 1 - w2) && decide (tableWeight tab e.1 e.2 > 1 / 2) && decide (e ≠ e1)) ||
            (decide (w1 ≥ 1 - w2) && (decide (tableWeight tab e.1 e.2 > 1 / 2) || decide (e = e2))))
        else none

/-- the sequence of cuts (size, the two components) for which `CreateGomoryHuTree` invokes its callback, as
a function of the number of nodes and the capacities -/
abbrev CutStream := Nat → (Nat → Nat → ℚ) → List (ℚ × List Nat × List Nat)

/-- SeparationAlgorithms.cpp:199-345, `TwoMatching`; `gh`: the sequence of callbacks of the Gomory-Hu
construction for the capacities `min(weight, 1 - weight)` -/
def twoMatching (gh : CutStream) (A N : Nat) (x : Nat → ℚ) : List LinCon :=
  let tab := weightTable A N x
  let cap := fun u v => if v < u then min (tableWeight tab u v) (1 - tableWeight tab u v)
    else min (tableWeight tab v u) (1 - tableWeight tab v u)
  (gh N cap).filterMap fun c => combFor A N tab c.1 c.2.1 c.2.2

end Mtsp
