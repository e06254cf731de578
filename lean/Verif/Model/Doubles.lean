import Verif.Model.InitialResult
import Mathlib.Data.Int.Log
import Mathlib.Data.Rat.Floor

/-!
The heuristics of tsplp/src/Heuristics.cpp once more, with every addition, subtraction and multiplication of
`double`s rounded by `fl`.  (Model/Heuristics.lean and Model/TwoOpt.lean compute with exact numbers.)  Decisions,
bookkeeping and control flow are those of the exact model; comparisons and `std::max` do not round.
-/

namespace Mtsp

/-- Nearest integer, ties to even. -/
def roundEven (x : ℚ) : ℤ :=
  if x - ⌊x⌋ < 1 / 2 then ⌊x⌋ else if 1 / 2 < x - ⌊x⌋ then ⌊x⌋ + 1 else if ⌊x⌋ % 2 = 0 then ⌊x⌋ else ⌊x⌋ + 1

/-- rounding of a positive number to 53 significant bits -/
def doublePos (q : ℚ) : ℚ := roundEven (q / 2 ^ (Int.log 2 q - 52)) * 2 ^ (Int.log 2 q - 52)

/-- Rounding to the nearest IEEE 754 double, ties to even.  Simplification: the exponent is not bounded (no overflow, no
subnormal numbers). -/
def roundDouble (q : ℚ) : ℚ := if q = 0 then 0 else if q < 0 then -doublePos (-q) else doublePos q

section
variable (fl : ℚ → ℚ)

/-- Heuristics.cpp:510-525, `CalculatePathLength` -/
def calcPathLengthF (p : List Nat) (w : Weights) : ℚ :=
  (List.range' 1 (p.length - 1)).foldl (fun acc i => fl (acc + w (p.getD (i - 1) 0) (p.getD i 0))) 0

/-- Heuristics.cpp:527-553, `CalculateObjective` -/
def calcObjectiveF (mode : Mode) (P : Paths) (W : Nat → Weights) : ℚ :=
  (List.range P.length).foldl (fun obj a =>
    let len := calcPathLengthF fl (P.getD a []) (W a)
    match mode with
    | .sum => fl (obj + len)
    | .max => max len obj) 0

/-- Heuristics.cpp:120-122 -/
def niDeltaF (w : Weights) (p : List Nat) (i n : Nat) : ℚ :=
  fl (fl (w (p.getD (i - 1) 0) n + w n (p.getD i 0)) - w (p.getD (i - 1) 0) (p.getD i 0))

/-- Heuristics.cpp:107-138 -/
def niSumStepF (A : Nat) (W : Nat → Weights) (comp : Nat → Nat) (s : NISum) (n : Nat) : Except Err NISum :=
  let best := (niCandidates A s.core (comp n)).foldl (fun (b : ℚ × Option (Nat × Nat)) ai =>
    let d := niDeltaF fl (W ai.1) (s.core.paths.getD ai.1 []) ai.2 n
    if d < b.1 then (d, some ai) else b) (dblMax, none)
  match best.2 with
  | none => .error (.ub "paths[SIZE_MAX]")
  | some (a, i) => .ok { core := s.core.insert (comp n) a i n, objective := fl (s.objective + best.1) }

/-- Heuristics.cpp:234-278 -/
def niMaxCandF (A : Nat) (W : Nat → Weights) (s : NIMax) (n : Nat) (ai : Nat × Nat) : ℚ × ℚ × Nat :=
  let p := s.core.paths.getD ai.1 []
  let oldCost := W ai.1 (p.getD (ai.2 - 1) 0) (p.getD ai.2 0)
  let newCost := fl (W ai.1 (p.getD (ai.2 - 1) 0) n + W ai.1 n (p.getD ai.2 0))
  let pot := fl (fl (newCost - oldCost) + s.lens.getD ai.1 0)
  if ai.1 = s.longest ∧ newCost < oldCost then
    let r := niPotential A s.lens s.longest pot
    (fl (r.1 - s.lens.getD s.longest 0), pot, r.2)
  else
    let inc := max (fl (pot - s.lens.getD s.longest 0)) 0
    (inc, pot, if inc > 0 then ai.1 else s.longest)

/-- Heuristics.cpp:218-289 -/
def niMaxStepF (A : Nat) (W : Nat → Weights) (comp : Nat → Nat) (s : NIMax) (n : Nat) : Except Err NIMax :=
  let best := (niCandidates A s.core (comp n)).foldl (fun (b : ℚ × Option ((Nat × Nat) × ℚ × Nat)) ai =>
    let c := niMaxCandF fl A W s n ai
    if c.1 < b.1 then (c.1, some (ai, c.2)) else b) (dblMax, none)
  match best.2 with
  | none => .error (.ub "paths[SIZE_MAX]")
  | some (ai, len, lng) =>
    .ok { core := s.core.insert (comp n) ai.1 ai.2 n, lens := s.lens.set ai.1 len, longest := lng }

/-- Heuristics.cpp:37-142, `NearestInsertionSum` -/
def nearestInsertionSumF (W : Nat → Weights) (N : Nat) (starts ends : List Nat) (deps : DepGraph) (ticks : Nat) :
    Except Err ((Paths × ℚ) × Nat) :=
  let A := starts.length
  let comp := componentIds (niArcs starts ends deps)
  match topologicalSort N (niArcs starts ends deps) with
  | .error e => .error e
  | .ok reverseOrder =>
    match niInitCore A starts ends comp with
    | .error e => .error e
    | .ok core =>
      let obj := (List.range A).foldl (fun o a => fl (o + W a (starts.getD a 0) (ends.getD a 0))) 0
      match niLoop starts ends (niSumStepF fl A W comp) reverseOrder.reverse ticks { core := core, objective := obj } with
      | .error e => .error e
      | .ok (none, t) => .ok (([], 0), t)
      | .ok (some s, t) => .ok ((s.core.paths, s.objective), t)

/-- Heuristics.cpp:144-293, `NearestInsertionMax` (the initial lengths are single weights, nothing is rounded) -/
def nearestInsertionMaxF (W : Nat → Weights) (N : Nat) (starts ends : List Nat) (deps : DepGraph) (ticks : Nat) :
    Except Err ((Paths × ℚ) × Nat) :=
  let A := starts.length
  let comp := componentIds (niArcs starts ends deps)
  match topologicalSort N (niArcs starts ends deps) with
  | .error e => .error e
  | .ok reverseOrder =>
    match niInitCore A starts ends comp with
    | .error e => .error e
    | .ok core =>
      let init := niInitLens A W starts ends
      match niLoop starts ends (niMaxStepF fl A W comp) reverseOrder.reverse ticks
          { core := core, lens := init.1, longest := init.2 } with
      | .error e => .error e
      | .ok (none, t) => .ok (([], 0), t)
      | .ok (some s, t) => .ok ((s.core.paths, s.lens.getD s.longest 0), t)

/-- Heuristics.cpp:295-309, `NearestInsertion` -/
def nearestInsertionF (mode : Mode) (W : Nat → Weights) (N : Nat) (starts ends : List Nat) (deps : DepGraph)
    (ticks : Nat) : Except Err ((Paths × ℚ) × Nat) :=
  match mode with
  | .max => nearestInsertionMaxF fl W N starts ends deps ticks
  | .sum => nearestInsertionSumF fl W N starts ends deps ticks

/-- Heuristics.cpp:18-35, `ExploitFractionalSolution`: the weights `(1.0 - fractionalSolution) * weights` -/
def exploitFractionalSolutionF (mode : Mode) (x : Tensor3) (w : Weights) (N : Nat) (starts ends : List Nat)
    (deps : DepGraph) (ticks : Nat) : Except Err (Paths × Nat) :=
  match nearestInsertionF fl mode (fun a i j => fl (fl (1 - x a i j) * w i j)) N starts ends deps ticks with
  | .error e => .error e
  | .ok ((p, _), t) => .ok (p, t)

/-- Heuristics.cpp:318-335, constructor of `PathsInfo` -/
def pathsInfoInitF (mode : Mode) (P : Paths) (w : Weights) : List ℚ × Nat :=
  match mode with
  | .sum => (List.replicate P.length 0, 0)
  | .max => (List.range P.length).foldl (fun (b : List ℚ × Nat) a =>
      let lens := b.1.set a (calcPathLengthF fl (P.getD a []) w)
      (lens, if lens.getD a 0 > lens.getD b.2 0 then a else b.2)) (List.replicate P.length 0, 0)

/-- Heuristics.cpp:364-368: the length of path `a` after the exchange -/
def newLengthF (l : ℚ) (a a1 : Nat) (imp1 : ℚ) (a2 : Nat) (imp2 : ℚ) : ℚ :=
  let l1 := if a = a1 then fl (l - imp1) else l
  if a = a2 then fl (l1 - imp2) else l1

/-- Heuristics.cpp:355-376, `CalculateOverallImprovement` -/
def overallImprovementF (mode : Mode) (lens : List ℚ) (longest a1 : Nat) (imp1 : ℚ) (a2 : Nat) (imp2 : ℚ) : ℚ :=
  match mode with
  | .sum => fl (imp1 + imp2)
  | .max =>
    let newObjective := (List.range lens.length).foldl (fun o a =>
      let l := newLengthF fl (lens.getD a 0) a a1 imp1 a2 imp2
      if l > o then l else o) 0
    fl (lens.getD longest 0 - newObjective)

/-- Heuristics.cpp:378-391, `ApplyImprovement` -/
def applyImprovementF (mode : Mode) (lens : List ℚ) (longest a1 : Nat) (imp1 : ℚ) (a2 : Nat) (imp2 : ℚ) : List ℚ × Nat :=
  match mode with
  | .sum => (lens, longest)
  | .max =>
    let lens1 := lens.set a1 (fl (lens.getD a1 0 - imp1))
    let lens2 := lens1.set a2 (fl (lens1.getD a2 0 - imp2))
    (lens2, (List.range' 1 (lens2.length - 1)).foldl (fun l a => if lens2.getD a 0 > lens2.getD l 0 then a else l) 0)

/-- Heuristics.cpp:458-487 -/
def swapGainF (w : Weights) (P : Paths) (a1 i a2 j : Nat) : ℚ × ℚ :=
  if a1 = a2 ∧ j = i + 1 then
    (fl (fl (fl (fl (fl (w (nodeAt P a1 (i - 1)) (nodeAt P a1 i) + w (nodeAt P a1 i) (nodeAt P a1 (i + 1))) +
      w (nodeAt P a1 (i + 1)) (nodeAt P a1 (i + 2))) - w (nodeAt P a1 (i - 1)) (nodeAt P a1 (i + 1))) -
      w (nodeAt P a1 (i + 1)) (nodeAt P a1 i)) - w (nodeAt P a1 i) (nodeAt P a1 (i + 2))), 0)
  else
    (fl (fl (fl (w (nodeAt P a1 (i - 1)) (nodeAt P a1 i) + w (nodeAt P a1 i) (nodeAt P a1 (i + 1))) -
      w (nodeAt P a1 (i - 1)) (nodeAt P a2 j)) - w (nodeAt P a2 j) (nodeAt P a1 (i + 1))),
     fl (fl (fl (w (nodeAt P a2 (j - 1)) (nodeAt P a2 j) + w (nodeAt P a2 j) (nodeAt P a2 (j + 1))) -
      w (nodeAt P a2 (j - 1)) (nodeAt P a1 i)) - w (nodeAt P a1 i) (nodeAt P a2 (j + 1))))

/-- Heuristics.cpp:429-501 -/
def toStepJF (mode : Mode) (w : Weights) (deps : DepGraph) (a1 a2 i u : Nat) (s : TOState) (j : Nat) : TOState :=
  let v := nodeAt s.paths a2 j
  if skipJ deps s.paths a1 a2 u v i j then s
  else
    let g := swapGainF fl w s.paths a1 i a2 j
    let improvement := overallImprovementF fl mode s.lens s.longest a1 g.1 a2 g.2
    if improvement > 0 then
      let info := applyImprovementF fl mode s.lens s.longest a1 g.1 a2 g.2
      { paths := swapNodes s.paths a1 i a2 j, lens := info.1, longest := info.2,
        impSum := fl (s.impSum + improvement), improved := true }
    else s

/-- Heuristics.cpp:418-502 -/
def toStepIF (mode : Mode) (w : Weights) (deps : DepGraph) (a1 a2 : Nat) (s : TOState) (i : Nat) : TOState :=
  let u := nodeAt s.paths a1 i
  if a1 ≠ a2 ∧ hasDeps deps u = true then s
  else
    let jStart := if a1 = a2 then i + 1 else 1
    (List.range' jStart ((s.paths.getD a2 []).length - 1 - jStart)).foldl (toStepJF fl mode w deps a1 a2 i u) s

/-- Heuristics.cpp:416-503 -/
def toStepA2F (mode : Mode) (w : Weights) (deps : DepGraph) (a1 : Nat) (s : TOState) (a2 : Nat) : TOState :=
  (List.range' 1 ((s.paths.getD a1 []).length - 1 - 1)).foldl (toStepIF fl mode w deps a1 a2) s

/-- Heuristics.cpp:413-504 -/
def toStepA1F (mode : Mode) (w : Weights) (deps : DepGraph) (s : TOState) (a1 : Nat) : TOState :=
  let r := getA2Range mode s.lens s.longest a1
  (List.range' r.1 (r.2 - r.1)).foldl (toStepA2F fl mode w deps a1) s

/-- Heuristics.cpp:410-505 -/
def toRoundF (mode : Mode) (w : Weights) (deps : DepGraph) (A : Nat) (s : TOState) : TOState :=
  (List.range A).foldl (toStepA1F fl mode w deps) { s with improved := false }

/-- Heuristics.cpp:409 -/
def toLoopF (mode : Mode) (w : Weights) (deps : DepGraph) (A : Nat) : Nat → TOState → TOState × Nat
  | 0, s => (s, 0)
  | t + 1, s => if s.improved then toLoopF mode w deps A t (toRoundF fl mode w deps A s) else (s, t + 1)

/-- Heuristics.cpp:394-508, `TwoOptPaths` -/
def twoOptF (mode : Mode) (P : Paths) (w : Weights) (deps : DepGraph) (t : Nat) : (Paths × ℚ) × Nat :=
  let info := pathsInfoInitF fl mode P w
  let r := toLoopF fl mode w deps P.length t
    { paths := P, lens := info.1, longest := info.2, impSum := 0, improved := true }
  ((r.1.paths, r.1.impSum), r.2)

/-- MtspModel.cpp:654-667, `CreateInitialResult` -/
def createInitialResultF (mode : Mode) (m : WM) (t : Nat) (s : ResState) : Except Err (ResState × Nat) :=
  match nearestInsertionF fl mode (fun _ => m.w) m.n m.starts m.ends m.deps t with
  | .error e => .error e
  | .ok ((p, obj), t1) =>
    let r := twoOptF fl mode p m.w m.deps t1
    match m.transformPathsBack r.1.1 with
    | .error e => .error e
    | .ok q => .ok ((s.updateUpperBound (fl (obj - r.1.2)) q).1, r.2)

/-- MtspModel.cpp:669-689, `ExploitFractionalSolution` -/
def exploitCandidateF (mode : Mode) (m : WM) (x : Tensor3) (t : Nat) : Except Err (Option (ℚ × Paths) × Nat) :=
  match exploitFractionalSolutionF fl mode x m.w m.n m.starts m.ends m.deps t with
  | .error e => .error e
  | .ok (p, t1) =>
    if p.isEmpty then .ok (none, t1)
    else
      let r := twoOptF fl mode p m.w m.deps t1
      match m.transformPathsBack r.1.1 with
      | .error e => .error e
      | .ok q => .ok (some (calcObjectiveF fl mode r.1.1 (fun _ => m.w), q), r.2)

/-- MtspModel.cpp:383-384: the bound of a node, the LP value minus `1e-10`, rounded up.  (`v` is the value of the objective; the
search itself is modelled with the exact difference, `ceilBound` in Model/BranchAndCut.lean.) -/
def ceilBoundF (v : ℚ) : ℤ := ⌈fl (v - fl (1 / 10 ^ 10))⌉

end

end Mtsp
