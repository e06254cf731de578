import Verif.Model.Checked
import Verif.Model.CutsRounded

/-!
The 2-matching separation (tsplp/src/SeparationAlgorithms.cpp:199-345) and the Gomory-Hu construction
(graph-algos/src/GomoryHuTree.cpp) once more, on the arrays the code works on, with every access checked: an access outside of an array
is the error `ub`.  In contrast to Model/GomoryHu.lean the bags of the tree vertices are spans of one array that is partitioned in
place, and the tables keep what earlier iterations wrote to them.
-/

namespace Mtsp

/-- the elements of a span `(offset, size)` of the array `l` -/
def rdSpan (l : List Nat) (sp : Nat × Nat) : Except Err (List Nat) := (List.range sp.2).mapM fun k => rd l (sp.1 + k)

/-- write `xs` to the positions `off, off + 1, …` of the array `l` -/
def wrSpan (l : List Nat) (off : Nat) (xs : List Nat) : Except Err (List Nat) :=
  (List.range xs.length).foldlM (fun l k => do wr l (off + k) (← rd xs k)) l

/-- GomoryHuTree.cpp:36-55, PartiallyContractedGraph.hpp:73-80: the arrays.  `map`: `inputVertex2partiallyContractedMap`, `comp`:
`gomoryHuForestVertex2ComponentIdMap`, `spans`: `gomoryHuTreeContractedVertices` as spans of `cstore`:
`gomoryHuTreeContractedVerticesStorage`, `nv`: the number of vertices of `gomoryHuTree`, `edges`: its edges, `stack`:
`treeNodesToBeSplit`, last element first, `storage`: `inputGraphVertexStorage`, `caps` and `colors`: `EdgeCapacities` and `VertexColors`
(`true`: not white). -/
structure GHMem where
  map : List Nat
  comp : List Nat
  spans : List (Nat × Nat)
  nv : Nat
  edges : List (Nat × Nat × ℚ)
  stack : List Nat
  storage : List Nat
  cstore : List Nat
  caps : List ℚ
  colors : List Bool

/-- GomoryHuTree.cpp:36-55 -/
def ghInitM (N : Nat) : Except Err GHMem := do
  let spans ← wr (List.replicate N (0, 0)) 0 (0, N)
  return { map := List.replicate N 0, comp := List.replicate N 0, spans := spans, nv := 1, edges := [], stack := [0],
           storage := List.range N, cstore := List.range N, caps := List.replicate (N * N) 0, colors := List.replicate N false }

/-- GomoryHuTree.cpp:77: the vertices of the filtered graph -/
def forestVertices (k X : Nat) : List Nat := (List.range k).filter fun v => decide (v ≠ X)

section
variable (fl : ℚ → ℚ)

/-- GomoryHuTree.cpp:77-96: the positions of all nodes in the contracted graph -/
def ghMapM (m : GHMem) (comp : List Nat) (X first : Nat) (bag : List Nat) : Except Err (List Nat) := do
  let map ← (forestVertices m.nv X).foldlM (fun mp f => do
    let id ← rd comp f
    let vs ← rdSpan m.cstore (← rd m.spans f)
    vs.foldlM (fun mp v => wr mp v id) mp) m.map
  let r ← bag.foldlM (fun (s : List Nat × Nat) v => do return (← wr s.1 v s.2, s.2 + 1)) (map, first)
  return r.1

/-- GomoryHuTree.cpp:73, 100-114, PartiallyContractedGraph.hpp:82-87: `Reset(n)`, then the sums of the weights -/
def ghCapsM (N : Nat) (weights : List ℚ) (map : List Nat) (n : Nat) (caps : List ℚ) : Except Err (List ℚ) := do
  let caps ← (List.range (n * n)).foldlM (fun c i => wr c i 0) caps
  (ghPairs N).foldlM (fun c e => do
    let u ← rd map e.1
    let v ← rd map e.2
    if u = v then return c
    let wt ← rd weights (triIndex e.1 e.2)
    let c1 ← wr c (u * n + v) (fl ((← rd c (u * n + v)) + wt))
    wr c1 (v * n + u) (fl ((← rd c1 (v * n + u)) + wt))) caps

/-- what `boykov_kolmogorov_max_flow` can read of the capacities: the entries below `n * n` -/
def capsView (n : Nat) (caps : List ℚ) (u v : Nat) : ℚ := if pcgIndex n (u, v) < n * n then caps.getD (pcgIndex n (u, v)) 0 else 0

/-- GomoryHuTree.cpp:59-197, one iteration.  `boykov_kolmogorov_max_flow` needs source and target in the graph, and writes the
colours of all vertices (its other arrays, `VertexPredecessors`, `VertexDistances` and `EdgeResidualCapacities`, have the sizes of
`VertexColors` and `EdgeCapacities`).  The neighbours of the split vertex are visited in the order of the list of edges. -/
def ghStepM (mf : MaxFlow) (pt : Partition) (N : Nat) (weights : List ℚ) (m : GHMem) : Except Err (Option (GHMem × GHCall)) :=
  match m.stack with
  | [] => .ok none
  | X :: rest => do
    let comp ← (forestVertices m.nv X).foldlM (fun c v => wr c v (forestId m.nv m.edges X v)) m.comp
    let first := (forestReps m.nv m.edges X).length
    let sp ← rd m.spans X
    let n := first + sp.2
    let bag ← rdSpan m.cstore sp
    let map ← ghMapM m comp X first bag
    let caps ← ghCapsM fl N weights map n m.caps
    let src ← rd bag 0
    let snk ← rd bag (← pred bag.length)
    let source ← rd map src
    let sink ← rd map snk
    if n ≤ source ∨ n ≤ sink ∨ source = sink then throw (.ub "max flow")
    let r := mf n (fun _ => true) (capsView n caps) source sink
    let colors ← (List.range n).foldlM (fun c v => wr c v (r.2 v)) m.colors
    let notWhite := fun v => do rd colors (← rd map v)
    let _ ← bag.mapM notWhite
    let black := fun v => colors.getD (map.getD v 0) false
    let parts := pt black bag
    let cstore ← wrSpan m.cstore sp.1 (parts.1 ++ parts.2)
    let spans ← wr m.spans m.nv (sp.1, parts.1.length)
    let moves ← m.edges.mapM fun e => do
      if e.1 = X ∨ e.2.1 = X then
        let t ← rdSpan cstore (← rd spans (otherEnd X e))
        notWhite (← rd t 0)
      else return false
    let marked := m.edges.zip moves
    let moved := (marked.filter fun e => e.2).map fun e => (m.nv, otherEnd X e.1, e.1.2.2)
    let stay := (marked.filter fun e => !e.2).map fun e => e.1
    let spans ← wr spans X (sp.1 + parts.1.length, sp.2 - parts.1.length)
    let _ ← m.storage.mapM notWhite
    let comps := pt black m.storage
    let szX := (← rd spans X).2
    let szNew := (← rd spans m.nv).2
    let st1 := if szX > 1 then X :: rest else rest
    let st2 := if szNew > 1 then m.nv :: st1 else st1
    return some ({ map := map, comp := comp, spans := spans, nv := m.nv + 1, edges := stay ++ moved ++ [(m.nv, X, r.1)], stack := st2,
                   storage := comps.1 ++ comps.2, cstore := cstore, caps := caps, colors := colors },
                 ⟨src, snk, r.1, comps.1, comps.2⟩)

/-- GomoryHuTree.cpp:57-198: the loop, for at most `fuel` iterations -/
def ghLoopM (mf : MaxFlow) (pt : Partition) (N : Nat) (weights : List ℚ) : Nat → GHMem → List GHCall → Except Err (List GHCall × Bool)
  | 0, m, calls => .ok (calls.reverse, m.stack.isEmpty)
  | fuel + 1, m, calls => do
    match ← ghStepM fl mf pt N weights m with
    | none => return (calls.reverse, true)
    | some (m', c) => ghLoopM mf pt N weights fuel m' (c :: calls)

/-- GomoryHuTree.cpp:28-199, `CreateGomoryHuTree` -/
def createGomoryHuTreeM (mf : MaxFlow) (pt : Partition) (N : Nat) (weights : List ℚ) (fuel : Nat) : Except Err (List GHCall × Bool) :=
  if N ≤ 1 then .ok ([], true) else do ghLoopM fl mf pt N weights fuel (← ghInitM N) []

/-! ### TwoMatching -/

/-- `values(a, u, v)` of an array of shape `A` × `N` × `N` -/
def valM (A N : Nat) (x : Nat → ℚ) (a u v : Nat) : Except Err ℚ :=
  if a < A ∧ u < N ∧ v < N then .ok (x (varId N a u v)) else .error (.ub "value outside")

/-- SeparationAlgorithms.cpp:206-221: the tables `edge2WeightMap` and `edge2CapacityMap` -/
def tablesM (A N : Nat) (x : Nat → ℚ) : Except Err (List ℚ × List ℚ) :=
  (List.range N).foldlM (fun t u => (List.range u).foldlM (fun (t : List ℚ × List ℚ) v => do
    let weight ← (List.range A).foldlM (fun s a => do return fl (s + fl ((← valM A N x a u v) + (← valM A N x a v u)))) 0
    let weight := clampWeight weight
    let caps ← wr t.2 (triIndex u v) (min weight (fl (1 - weight)))
    return (← wr t.1 (triIndex u v) weight, caps)) t) (List.replicate (N * (N - 1) / 2) 0, List.replicate (N * (N - 1) / 2) 0)

/-- SeparationAlgorithms.cpp:223-232: the table `odd` -/
def oddM (tab : List ℚ) (N : Nat) : Except Err (List Bool) :=
  (List.range N).foldlM (fun odd u => do
    let b1 ← (List.range u).foldlM (fun b v => do return xor b (decide ((← rd tab (triIndex u v)) > 1 / 2))) false
    let b2 ← (List.range' (u + 1) (N - (u + 1))).foldlM (fun b v => do return xor b (decide ((← rd tab (triIndex v u)) > 1 / 2))) b1
    wr odd u b2) (List.replicate N false)

/-- SeparationAlgorithms.cpp:263-285, 310-337: `inF` reads the table -/
def combConstraintM (A N : Nat) (pairs : List (Nat × Nat)) (inF : Nat × Nat → Except Err Bool) : Except Err LinCon := do
  let sides ← pairs.foldlM (fun (s : LinComp × LinComp) e => do
    if N ≤ e.1 ∨ N ≤ e.2 then throw (.ub "variable outside")
    if ← inF e then return (s.1, s.2.addAssign ((edgePart A N e.1 e.2).sub (.ofConst 1)))
    else return (s.1.addAssign (edgePart A N e.1 e.2), s.2)) (LinComp.ofConst 0, LinComp.ofConst 1)
  return .ge sides.1 sides.2

/-- SeparationAlgorithms.cpp:289-306 -/
def scanPairsM (tab : List ℚ) (pairs : List (Nat × Nat)) : Except Err (ℚ × ℚ × (Nat × Nat) × (Nat × Nat)) :=
  pairs.foldlM (fun s e => do
    let w ← rd tab (triIndex e.1 e.2)
    return if w > 1 / 2 then (min s.1 w, s.2.1, e, s.2.2.2) else (s.1, max s.2.1 w, s.2.2.1, e)) (1, 0, (0, 0), (0, 0))

/-- SeparationAlgorithms.cpp:238-342: the callback for one cut -/
def combForM (A N : Nat) (tab : List ℚ) (odd : List Bool) (cutSize : ℚ) (compU compV : List Nat) : Except Err (Option LinCon) :=
  if cutSize ≥ limitF fl 1 then .ok none
  else do
    let pairs := cutPairs compU compV
    if ← compU.foldlM (fun b v => do return xor b (← rd odd v)) false then
      return some (← combConstraintM A N pairs fun e => do return decide ((← rd tab (triIndex e.1 e.2)) > 1 / 2))
    else
      match ← scanPairsM tab pairs with
      | (w1, w2, e1, e2) =>
        if fl (cutSize + min (fl (fl (2 * w1) - 1)) (fl (1 - fl (2 * w2)))) < limitF fl 1 then
          return some (← combConstraintM A N pairs fun e => do
            let w ← rd tab (triIndex e.1 e.2)
            return (decide (w1 < fl (1 - w2)) && decide (w > 1 / 2) && decide (e ≠ e1)) ||
              (decide (w1 ≥ fl (1 - w2)) && (decide (w > 1 / 2) || decide (e = e2))))
        else return none

/-- SeparationAlgorithms.cpp:199-345, `TwoMatching` -/
def twoMatchingM (mf : MaxFlow) (pt : Partition) (A N : Nat) (x : Nat → ℚ) : Except Err (List LinCon) := do
  let t ← tablesM fl A N x
  let odd ← oddM t.1 N
  let r ← createGomoryHuTreeM fl mf pt N t.2 N
  let l ← r.1.mapM fun c => combForM fl A N t.1 odd c.size c.compU c.compV
  return l.filterMap id

end

end Mtsp
