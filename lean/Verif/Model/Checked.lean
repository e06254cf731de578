import Verif.Model.TwoOpt

/-!
The heuristics (tsplp/src/Heuristics.cpp) once more, with every access to an array checked: a read or write outside the array, which is
undefined behaviour in C++, is the error `ub`.  Everything else is as in Model/Heuristics.lean and Model/TwoOpt.lean.
Not checked: vectors indexed by a component (`component2AgentMap`, `lastInsertPositionOfComponent`; `boost::connected_components`
guarantees ids below the number of components).
-/

namespace Mtsp

/-- `l[i]` -/
def rd {α : Type} (l : List α) (i : Nat) : Except Err α :=
  match l[i]? with
  | some x => .ok x
  | none => .error (.ub "read outside")

/-- `paths[a][i]` -/
def rd2 (P : Paths) (a i : Nat) : Except Err Nat := do rd (← rd P a) i

/-- `l[i] = x` -/
def wr {α : Type} (l : List α) (i : Nat) (x : α) : Except Err (List α) :=
  if i < l.length then .ok (l.set i x) else .error (.ub "write outside")

/-- `weights(u, v)` of an `n` × `n` matrix -/
def wt (n : Nat) (w : Weights) (u v : Nat) : Except Err ℚ := if u < n ∧ v < n then .ok (w u v) else .error (.ub "weight outside")

/-- `size() - 1`, a huge number for an empty vector -/
def pred (k : Nat) : Except Err Nat := if k = 0 then .error (.ub "size() - 1 wraps") else .ok (k - 1)

/-- Heuristics.cpp:510-525, `CalculatePathLength`. -/
def calcPathLengthC (n : Nat) (p : List Nat) (w : Weights) : Except Err ℚ :=
  (List.range' 1 (p.length - 1)).foldlM (fun acc i => do
    let u ← rd p (i - 1)
    let v ← rd p i
    return acc + (← wt n w u v)) 0

/-- Heuristics.cpp:527-553, `CalculateObjective` (two-dimensional weights). -/
def calcObjectiveC (n : Nat) (mode : Mode) (P : Paths) (w : Weights) : Except Err ℚ :=
  (List.range P.length).foldlM (fun obj a => do
    let len ← calcPathLengthC n (← rd P a) w
    return match mode with
      | .sum => obj + len
      | .max => max len obj) 0

/-! ### TwoOptPaths -/

/-- Heuristics.cpp:318-335, constructor of `PathsInfo`. -/
def pathsInfoInitC (n : Nat) (mode : Mode) (P : Paths) (w : Weights) : Except Err (List ℚ × Nat) :=
  match mode with
  | .sum => .ok (List.replicate P.length 0, 0)
  | .max => (List.range P.length).foldlM (fun (b : List ℚ × Nat) a => do
      let lens ← wr b.1 a (← calcPathLengthC n (← rd P a) w)
      let x ← rd lens a
      let y ← rd lens b.2
      return (lens, if x > y then a else b.2)) (List.replicate P.length 0, 0)

/-- Heuristics.cpp:355-376, `CalculateOverallImprovement`. -/
def overallImprovementC (mode : Mode) (lens : List ℚ) (longest a1 : Nat) (imp1 : ℚ) (a2 : Nat) (imp2 : ℚ) : Except Err ℚ :=
  match mode with
  | .sum => .ok (imp1 + imp2)
  | .max => do
    let old ← rd lens longest
    let new ← (List.range lens.length).foldlM (fun o a => do
      let l ← rd lens a
      let l := l - (if a = a1 then imp1 else 0) - (if a = a2 then imp2 else 0)
      return if l > o then l else o) 0
    return old - new

/-- Heuristics.cpp:378-391, `ApplyImprovement`. -/
def applyImprovementC (mode : Mode) (lens : List ℚ) (longest a1 : Nat) (imp1 : ℚ) (a2 : Nat) (imp2 : ℚ) : Except Err (List ℚ × Nat) :=
  match mode with
  | .sum => .ok (lens, longest)
  | .max => do
    let lens1 ← wr lens a1 ((← rd lens a1) - imp1)
    let lens2 ← wr lens1 a2 ((← rd lens1 a2) - imp2)
    let lng ← (List.range' 1 (lens2.length - 1)).foldlM (fun l a => do
      let x ← rd lens2 a
      let y ← rd lens2 l
      return if x > y then a else l) 0
    return (lens2, lng)

/-- Heuristics.cpp:458-487 -/
def swapGainC (n : Nat) (w : Weights) (P : Paths) (a1 i a2 j : Nat) : Except Err (ℚ × ℚ) :=
  if a1 = a2 ∧ j = i + 1 then do
    let x ← rd2 P a1 (i - 1)
    let u ← rd2 P a1 i
    let v ← rd2 P a1 (i + 1)
    let y ← rd2 P a1 (i + 2)
    return ((← wt n w x u) + (← wt n w u v) + (← wt n w v y) - (← wt n w x v) - (← wt n w v u) - (← wt n w u y), 0)
  else do
    let x ← rd2 P a1 (i - 1)
    let u ← rd2 P a1 i
    let y ← rd2 P a1 (i + 1)
    let x' ← rd2 P a2 (j - 1)
    let v ← rd2 P a2 j
    let y' ← rd2 P a2 (j + 1)
    return ((← wt n w x u) + (← wt n w u y) - (← wt n w x v) - (← wt n w v y),
      (← wt n w x' v) + (← wt n w v y') - (← wt n w x' u) - (← wt n w u y'))

/-- Heuristics.cpp:421-423, 435-437; the span map is checked in `getSpan` already -/
def hasDepsC (deps : DepGraph) (u : Nat) : Except Err Bool := do
  let i ← deps.getIncomingSpan u
  if !i.isEmpty then return true
  let o ← deps.getOutgoingSpan u
  return !o.isEmpty

/-- tsplp/include/DependencyHelpers.hpp:30, `HasArc` -/
def hasArcC (deps : DepGraph) (u v : Nat) : Except Err Bool :=
  if u < deps.n ∧ v < deps.n then .ok (deps.hasArc u v) else .error (.ub "arc outside")

/-- Heuristics.cpp:442-454 -/
def wouldBreakC (deps : DepGraph) (P : Paths) (a1 u v i j : Nat) : Except Err Bool :=
  (List.range' i (j - i)).anyM fun k => do
    if ← hasArcC deps u (← rd2 P a1 (k + 1)) then return true
    hasArcC deps (← rd2 P a1 k) v

/-- Heuristics.cpp:433-456 -/
def skipJC (deps : DepGraph) (P : Paths) (a1 a2 u v i j : Nat) : Except Err Bool :=
  if deps.isEmpty then .ok false
  else if a1 ≠ a2 then hasDepsC deps v
  else wouldBreakC deps P a1 u v i j

/-- Heuristics.cpp:497 `std::swap(paths[a1][i], paths[a2][j])` -/
def swapNodesC (P : Paths) (a1 i a2 j : Nat) : Except Err Paths := do
  let u ← rd2 P a1 i
  let v ← rd2 P a2 j
  let P1 ← wr P a1 (← wr (← rd P a1) i v)
  wr P1 a2 (← wr (← rd P1 a2) j u)

/-- Heuristics.cpp:429-501: body of the loop over `j` -/
def toStepJC (n : Nat) (mode : Mode) (w : Weights) (deps : DepGraph) (a1 a2 i u : Nat) (s : TOState) (j : Nat) : Except Err TOState := do
  let v ← rd2 s.paths a2 j
  if ← skipJC deps s.paths a1 a2 u v i j then return s
  let g ← swapGainC n w s.paths a1 i a2 j
  let improvement ← overallImprovementC mode s.lens s.longest a1 g.1 a2 g.2
  if improvement > 0 then
    let paths ← swapNodesC s.paths a1 i a2 j
    let info ← applyImprovementC mode s.lens s.longest a1 g.1 a2 g.2
    return { paths := paths, lens := info.1, longest := info.2, impSum := s.impSum + improvement, improved := true }
  else return s

/-- Heuristics.cpp:418-502: body of the loop over `i` -/
def toStepIC (n : Nat) (mode : Mode) (w : Weights) (deps : DepGraph) (a1 a2 : Nat) (s : TOState) (i : Nat) : Except Err TOState := do
  let u ← rd2 s.paths a1 i
  if ← (if a1 ≠ a2 then hasDepsC deps u else .ok false) then return s
  let jStart := if a1 = a2 then i + 1 else 1
  let e ← pred (← rd s.paths a2).length
  (List.range' jStart (e - jStart)).foldlM (toStepJC n mode w deps a1 a2 i u) s

/-- Heuristics.cpp:416-503: body of the loop over `a2` -/
def toStepA2C (n : Nat) (mode : Mode) (w : Weights) (deps : DepGraph) (a1 : Nat) (s : TOState) (a2 : Nat) : Except Err TOState := do
  let e ← pred (← rd s.paths a1).length
  (List.range' 1 (e - 1)).foldlM (toStepIC n mode w deps a1 a2) s

/-- Heuristics.cpp:413-504: body of the loop over `a1` -/
def toStepA1C (n : Nat) (mode : Mode) (w : Weights) (deps : DepGraph) (s : TOState) (a1 : Nat) : Except Err TOState :=
  let r := getA2Range mode s.lens s.longest a1
  (List.range' r.1 (r.2 - r.1)).foldlM (toStepA2C n mode w deps a1) s

/-- Heuristics.cpp:410-505 -/
def toRoundC (n : Nat) (mode : Mode) (w : Weights) (deps : DepGraph) (A : Nat) (s : TOState) : Except Err TOState :=
  (List.range A).foldlM (toStepA1C n mode w deps) { s with improved := false }

/-- Heuristics.cpp:409 -/
def toLoopC (n : Nat) (mode : Mode) (w : Weights) (deps : DepGraph) (A : Nat) : Nat → TOState → Except Err (TOState × Nat)
  | 0, s => .ok (s, 0)
  | t + 1, s =>
    if s.improved then do toLoopC n mode w deps A t (← toRoundC n mode w deps A s)
    else .ok (s, t + 1)

/-- Heuristics.cpp:394-508, `TwoOptPaths`. -/
def twoOptC (n : Nat) (mode : Mode) (P : Paths) (w : Weights) (deps : DepGraph) (t : Nat) : Except Err ((Paths × ℚ) × Nat) := do
  let info ← pathsInfoInitC n mode P w
  let r ← toLoopC n mode w deps P.length t
    { paths := P, lens := info.1, longest := info.2, impSum := 0, improved := true }
  return ((r.1.paths, r.1.impSum), r.2)

/-! ### NearestInsertion -/

/-- `weights(a, u, v)` of an array of `A` matrices -/
def wt3 (A n : Nat) (W : Nat → Weights) (a u v : Nat) : Except Err ℚ :=
  if a < A then wt n (W a) u v else .error (.ub "weight outside")

/-- `componentIds[v]`, a vector of length `n` -/
def compC (n : Nat) (comp : Nat → Nat) (v : Nat) : Except Err Nat := if v < n then .ok (comp v) else .error (.ub "component outside")

/-- Heuristics.cpp:113-119, 226-232 -/
def niCandidatesC (A : Nat) (c : NICore) (comp : Nat) : Except Err (List (Nat × Nat)) := do
  let lo := if c.c2a comp = A then 0 else c.c2a comp
  let hi := if c.c2a comp = A then A else c.c2a comp + 1
  let l ← (List.range' lo (hi - lo)).mapM fun a => do
    let p ← rd c.paths a
    return (List.range' (1 + c.last comp) (p.length - (1 + c.last comp))).map fun i => (a, i)
  return l.flatten

/-- Heuristics.cpp:133-138, 282-289: `insert(begin() + i, n)` needs `i ≤ size()` -/
def NICore.insertC (c : NICore) (comp a i n : Nat) : Except Err NICore := do
  let p ← rd c.paths a
  if p.length < i then throw (.ub "insert outside")
  return c.insert comp a i n

/-- Heuristics.cpp:107-138 -/
def niSumStepC (A N : Nat) (W : Nat → Weights) (comp : Nat → Nat) (s : NISum) (n : Nat) : Except Err NISum := do
  let cn ← compC N comp n
  let best ← (← niCandidatesC A s.core cn).foldlM (fun (b : ℚ × Option (Nat × Nat)) ai => do
    let p ← rd s.core.paths ai.1
    let x ← rd p (ai.2 - 1)
    let y ← rd p ai.2
    let d := ((← wt3 A N W ai.1 x n) + (← wt3 A N W ai.1 n y)) - (← wt3 A N W ai.1 x y)
    return if d < b.1 then (d, some ai) else b) (dblMax, none)
  match best.2 with
  | none => .error (.ub "paths[SIZE_MAX]")
  | some (a, i) => do return { core := ← s.core.insertC cn a i n, objective := s.objective + best.1 }

/-- Heuristics.cpp:242-254 -/
def niPotentialC (A : Nat) (lens : List ℚ) (longest : Nat) (pot : ℚ) : Except Err (ℚ × Nat) :=
  (List.range A).foldlM (fun b aa =>
    if aa = longest then .ok b
    else do
      let l ← rd lens aa
      return if l > b.1 then (l, aa) else b) (pot, longest)

/-- Heuristics.cpp:234-278 -/
def niMaxCandC (A N : Nat) (W : Nat → Weights) (s : NIMax) (n : Nat) (ai : Nat × Nat) : Except Err (ℚ × ℚ × Nat) := do
  let p ← rd s.core.paths ai.1
  let x ← rd p (ai.2 - 1)
  let y ← rd p ai.2
  let oldCost ← wt3 A N W ai.1 x y
  let newCost := (← wt3 A N W ai.1 x n) + (← wt3 A N W ai.1 n y)
  let pot := newCost - oldCost + (← rd s.lens ai.1)
  if ai.1 = s.longest ∧ newCost < oldCost then
    let r ← niPotentialC A s.lens s.longest pot
    return (r.1 - (← rd s.lens s.longest), pot, r.2)
  else
    let inc := max (pot - (← rd s.lens s.longest)) 0
    return (inc, pot, if inc > 0 then ai.1 else s.longest)

/-- Heuristics.cpp:218-289 -/
def niMaxStepC (A N : Nat) (W : Nat → Weights) (comp : Nat → Nat) (s : NIMax) (n : Nat) : Except Err NIMax := do
  let cn ← compC N comp n
  let best ← (← niCandidatesC A s.core cn).foldlM (fun (b : ℚ × Option ((Nat × Nat) × ℚ × Nat)) ai => do
    let c ← niMaxCandC A N W s n ai
    return if c.1 < b.1 then (c.1, some (ai, c.2)) else b) (dblMax, none)
  match best.2 with
  | none => .error (.ub "paths[SIZE_MAX]")
  | some (ai, len, lng) => do
    return { core := ← s.core.insertC cn ai.1 ai.2 n, lens := ← wr s.lens ai.1 len, longest := lng }

/-- Heuristics.cpp:81-95, 190-206 -/
def niInitStepC (A N : Nat) (starts ends : List Nat) (comp : Nat → Nat) (c : NICore) (a : Nat) : Except Err NICore := do
  let s ← rd starts a
  let e ← rd ends a
  let cs ← compC N comp s
  if c.c2a cs ≠ A then throw .incompatible
  return { c with paths := c.paths ++ [[s, e]], c2a := fun x => if x = cs then a else c.c2a x }

/-- Heuristics.cpp:77-96, 185-207 -/
def niInitCoreC (A N : Nat) (starts ends : List Nat) (comp : Nat → Nat) : Except Err NICore :=
  (List.range A).foldlM (niInitStepC A N starts ends comp) { paths := [], c2a := fun _ => A, last := fun _ => 0 }

/-- Heuristics.cpp:37-142, `NearestInsertionSum`. -/
def nearestInsertionSumC (W : Nat → Weights) (N : Nat) (starts ends : List Nat) (deps : DepGraph) (ticks : Nat) :
    Except Err ((Paths × ℚ) × Nat) := do
  let A := starts.length
  let comp := componentIds (niArcs starts ends deps)
  let reverseOrder ← topologicalSort N (niArcs starts ends deps)
  let core ← niInitCoreC A N starts ends comp
  let obj ← (List.range A).foldlM (fun o a => do
    let s ← rd starts a
    let e ← rd ends a
    return o + (← wt3 A N W a s e)) 0
  match ← niLoop starts ends (niSumStepC A N W comp) reverseOrder.reverse ticks { core := core, objective := obj } with
  | (none, t) => return (([], 0), t)
  | (some s, t) => return ((s.core.paths, s.objective), t)

/-- Heuristics.cpp:188-199 -/
def niInitLensC (A N : Nat) (W : Nat → Weights) (starts ends : List Nat) : Except Err (List ℚ × Nat) :=
  (List.range A).foldlM (fun (b : List ℚ × Nat) a => do
    let s ← rd starts a
    let e ← rd ends a
    let lens ← wr b.1 a (← wt3 A N W a s e)
    let x ← rd lens a
    let y ← rd lens b.2
    return (lens, if x > y then a else b.2)) (List.replicate A 0, 0)

/-- Heuristics.cpp:144-293, `NearestInsertionMax`. -/
def nearestInsertionMaxC (W : Nat → Weights) (N : Nat) (starts ends : List Nat) (deps : DepGraph) (ticks : Nat) :
    Except Err ((Paths × ℚ) × Nat) := do
  let A := starts.length
  let comp := componentIds (niArcs starts ends deps)
  let reverseOrder ← topologicalSort N (niArcs starts ends deps)
  let core ← niInitCoreC A N starts ends comp
  let init ← niInitLensC A N W starts ends
  match ← niLoop starts ends (niMaxStepC A N W comp) reverseOrder.reverse ticks { core := core, lens := init.1, longest := init.2 } with
  | (none, t) => return (([], 0), t)
  | (some s, t) => return ((s.core.paths, ← rd s.lens s.longest), t)

/-- Heuristics.cpp:295-309, `NearestInsertion`. -/
def nearestInsertionC (mode : Mode) (W : Nat → Weights) (N : Nat) (starts ends : List Nat) (deps : DepGraph)
    (ticks : Nat) : Except Err ((Paths × ℚ) × Nat) :=
  match mode with
  | .max => nearestInsertionMaxC W N starts ends deps ticks
  | .sum => nearestInsertionSumC W N starts ends deps ticks

end Mtsp
