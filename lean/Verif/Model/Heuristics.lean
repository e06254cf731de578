import Verif.Model.WeightManager
import Verif.Model.Result

/-!
Model of tsplp/src/Heuristics.cpp, first part: `NearestInsertionSum`, `NearestInsertionMax`,
`CalculatePathLength`, `CalculateObjective`.  `W a` are the weights of agent `a`; two-dimensional weights
are repeated for every agent (Heuristics.cpp:45-46, 152-153), that is `W a = w`.
The clock: `ticks` is the number of deadline checks `now() < endTime` that still succeed.
-/

namespace Mtsp

/-- Heuristics.cpp:510-525, `CalculatePathLength`. -/
def calcPathLength (p : List Nat) (w : Weights) : ℚ :=
  (List.range' 1 (p.length - 1)).foldl (fun acc i => acc + w (p.getD (i - 1) 0) (p.getD i 0)) 0

/-- Heuristics.cpp:527-553, `CalculateObjective`. -/
def calcObjective (mode : Mode) (P : Paths) (W : Nat → Weights) : ℚ :=
  (List.range P.length).foldl (fun obj a =>
    let len := calcPathLength (P.getD a []) (W a)
    match mode with
    | .sum => obj + len
    | .max => max len obj) 0

/-- `std::vector::insert(begin() + i, x)` -/
def insertAt (l : List Nat) (i x : Nat) : List Nat := l.take i ++ x :: l.drop i

/-- The loop state shared by both variants: `paths`, `component2AgentMap`, `lastInsertPositionOfComponent`
(the vectors indexed by component are functions). -/
structure NICore where
  paths : Paths
  c2a : Nat → Nat
  last : Nat → Nat

/-- Heuristics.cpp:113-119, 226-232: the pairs `(a, i)` in the order in which the loops visit them. -/
def niCandidates (A : Nat) (c : NICore) (comp : Nat) : List (Nat × Nat) :=
  let lo := if c.c2a comp = A then 0 else c.c2a comp
  let hi := if c.c2a comp = A then A else c.c2a comp + 1
  (List.range' lo (hi - lo)).flatMap fun a =>
    (List.range' (1 + c.last comp) ((c.paths.getD a []).length - (1 + c.last comp))).map fun i => (a, i)

/-- Heuristics.cpp:121-122: `newCost - oldCost` of inserting `n` before position `i` of path `p`. -/
def niDelta (w : Weights) (p : List Nat) (i n : Nat) : ℚ :=
  (w (p.getD (i - 1) 0) n + w n (p.getD i 0)) - w (p.getD (i - 1) 0) (p.getD i 0)

/-- Heuristics.cpp:133-138, 282-289: insert and update the bookkeeping. -/
def NICore.insert (c : NICore) (comp a i n : Nat) : NICore where
  paths := c.paths.modify a fun p => insertAt p i n
  c2a := fun x => if x = comp then a else c.c2a x
  last := fun x => if x = comp then i else c.last x

structure NISum where
  core : NICore
  objective : ℚ

/-- Heuristics.cpp:107-138: insertion of one node, Sum variant. -/
def niSumStep (A : Nat) (W : Nat → Weights) (comp : Nat → Nat) (s : NISum) (n : Nat) : Except Err NISum :=
  let best := (niCandidates A s.core (comp n)).foldl (fun (b : ℚ × Option (Nat × Nat)) ai =>
    let d := niDelta (W ai.1) (s.core.paths.getD ai.1 []) ai.2 n
    if d < b.1 then (d, some ai) else b) (dblMax, none)
  match best.2 with
  | none => .error (.ub "paths[SIZE_MAX]")
  | some (a, i) => .ok { core := s.core.insert (comp n) a i n, objective := s.objective + best.1 }

structure NIMax where
  core : NICore
  lens : List ℚ
  longest : Nat

/-- Heuristics.cpp:242-254: the longest path if the currently longest one gets length `pot`. -/
def niPotential (A : Nat) (lens : List ℚ) (longest : Nat) (pot : ℚ) : ℚ × Nat :=
  (List.range A).foldl (fun b aa =>
    if aa = longest then b
    else if lens.getD aa 0 > b.1 then (lens.getD aa 0, aa) else b) (pot, longest)

/-- Heuristics.cpp:234-278: what inserting `n` before position `i` of agent `a` would give:
(costIncrease, potentialPathLength, new longest agent). -/
def niMaxCand (A : Nat) (W : Nat → Weights) (s : NIMax) (n : Nat) (ai : Nat × Nat) : ℚ × ℚ × Nat :=
  let p := s.core.paths.getD ai.1 []
  let oldCost := W ai.1 (p.getD (ai.2 - 1) 0) (p.getD ai.2 0)
  let newCost := W ai.1 (p.getD (ai.2 - 1) 0) n + W ai.1 n (p.getD ai.2 0)
  let pot := newCost - oldCost + s.lens.getD ai.1 0
  if ai.1 = s.longest ∧ newCost < oldCost then
    let r := niPotential A s.lens s.longest pot
    (r.1 - s.lens.getD s.longest 0, pot, r.2)
  else
    let inc := max (pot - s.lens.getD s.longest 0) 0
    (inc, pot, if inc > 0 then ai.1 else s.longest)

/-- Heuristics.cpp:218-289: insertion of one node, Max variant. -/
def niMaxStep (A : Nat) (W : Nat → Weights) (comp : Nat → Nat) (s : NIMax) (n : Nat) : Except Err NIMax :=
  let best := (niCandidates A s.core (comp n)).foldl (fun (b : ℚ × Option ((Nat × Nat) × ℚ × Nat)) ai =>
    let c := niMaxCand A W s n ai
    if c.1 < b.1 then (c.1, some (ai, c.2)) else b) (dblMax, none)
  match best.2 with
  | none => .error (.ub "paths[SIZE_MAX]")
  | some (ai, len, lng) =>
    .ok { core := s.core.insert (comp n) ai.1 ai.2 n, lens := s.lens.set ai.1 len, longest := lng }

/-- Heuristics.cpp:98-105, 209-216: the loop over the nodes; `none` when the deadline is hit. -/
def niLoop {σ : Type} (starts ends : List Nat) (step : σ → Nat → Except Err σ) :
    List Nat → Nat → σ → Except Err (Option σ × Nat)
  | [], ticks, s => .ok (some s, ticks)
  | _ :: _, 0, _ => .ok (none, 0)
  | n :: ns, ticks + 1, s =>
    if n ∈ starts ∨ n ∈ ends then niLoop starts ends step ns ticks s
    else match step s n with
      | .error e => .error e
      | .ok s' => niLoop starts ends step ns ticks s'

/-- Heuristics.cpp:53-66, 160-173: the arcs of the dependency graph, then start → end for every agent. -/
def niArcs (starts ends : List Nat) (deps : DepGraph) : Arcs := deps.arcs ++ starts.zip ends

/-- Heuristics.cpp:81-95, 190-206: one agent: its path starts as `[start, end]`; two agents in the same
component are incompatible. -/
def niInitStep (A : Nat) (starts ends : List Nat) (comp : Nat → Nat) (c : NICore) (a : Nat) : Except Err NICore :=
  if c.c2a (comp (starts.getD a 0)) ≠ A then .error .incompatible
  else .ok { c with paths := c.paths ++ [[starts.getD a 0, ends.getD a 0]],
                    c2a := fun x => if x = comp (starts.getD a 0) then a else c.c2a x }

/-- Heuristics.cpp:77-96, 185-207: the loop over the agents. -/
def niInitCore (A : Nat) (starts ends : List Nat) (comp : Nat → Nat) : Except Err NICore :=
  (List.range A).foldlM (niInitStep A starts ends comp) { paths := [], c2a := fun _ => A, last := fun _ => 0 }

/-- Heuristics.cpp:37-142, `NearestInsertionSum`.  Also returns the remaining ticks. -/
def nearestInsertionSum (W : Nat → Weights) (N : Nat) (starts ends : List Nat) (deps : DepGraph) (ticks : Nat) :
    Except Err ((Paths × ℚ) × Nat) :=
  let A := starts.length
  let comp := componentIds (niArcs starts ends deps)
  match topologicalSort N (niArcs starts ends deps) with
  | .error e => .error e
  | .ok reverseOrder =>
    match niInitCore A starts ends comp with
    | .error e => .error e
    | .ok core =>
      let obj := (List.range A).foldl (fun o a => o + W a (starts.getD a 0) (ends.getD a 0)) 0
      match niLoop starts ends (niSumStep A W comp) reverseOrder.reverse ticks { core := core, objective := obj } with
      | .error e => .error e
      | .ok (none, t) => .ok (([], 0), t)
      | .ok (some s, t) => .ok ((s.core.paths, s.objective), t)

/-- Heuristics.cpp:188-199: the initial lengths and the first longest path.  (The vector
`pathLengths(A)` starts with zeros, and entries not yet set are not looked at.) -/
def niInitLens (A : Nat) (W : Nat → Weights) (starts ends : List Nat) : List ℚ × Nat :=
  (List.range A).foldl (fun (b : List ℚ × Nat) a =>
    let lens := b.1.set a (W a (starts.getD a 0) (ends.getD a 0))
    (lens, if lens.getD a 0 > lens.getD b.2 0 then a else b.2)) (List.replicate A 0, 0)

/-- Heuristics.cpp:144-293, `NearestInsertionMax`. -/
def nearestInsertionMax (W : Nat → Weights) (N : Nat) (starts ends : List Nat) (deps : DepGraph) (ticks : Nat) :
    Except Err ((Paths × ℚ) × Nat) :=
  let A := starts.length
  let comp := componentIds (niArcs starts ends deps)
  match topologicalSort N (niArcs starts ends deps) with
  | .error e => .error e
  | .ok reverseOrder =>
    match niInitCore A starts ends comp with
    | .error e => .error e
    | .ok core =>
      let init := niInitLens A W starts ends
      match niLoop starts ends (niMaxStep A W comp) reverseOrder.reverse ticks
          { core := core, lens := init.1, longest := init.2 } with
      | .error e => .error e
      | .ok (none, t) => .ok (([], 0), t)
      | .ok (some s, t) => .ok ((s.core.paths, s.lens.getD s.longest 0), t)

/-- Heuristics.cpp:295-309, `NearestInsertion`. -/
def nearestInsertion (mode : Mode) (W : Nat → Weights) (N : Nat) (starts ends : List Nat) (deps : DepGraph)
    (ticks : Nat) : Except Err ((Paths × ℚ) × Nat) :=
  match mode with
  | .max => nearestInsertionMax W N starts ends deps ticks
  | .sum => nearestInsertionSum W N starts ends deps ticks

/-- Heuristics.cpp:18-35, `ExploitFractionalSolution`: construction with the weights
`(1 - x) * w`; only the paths are used. -/
def exploitFractionalSolution (mode : Mode) (x : Tensor3) (w : Weights) (N : Nat) (starts ends : List Nat)
    (deps : DepGraph) (ticks : Nat) : Except Err (Paths × Nat) :=
  match nearestInsertion mode (fun a i j => (1 - x a i j) * w i j) N starts ends deps ticks with
  | .error e => .error e
  | .ok ((p, _), t) => .ok (p, t)

end Mtsp
