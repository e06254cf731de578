import Verif.Model.Heuristics

/-!
Model of tsplp/src/Heuristics.cpp, second part: `PathsInfo` and `TwoOptPaths`.
Path positions are read with a default; every position the loops look at is inside its path as long as
no path is empty: only `i`, `j` with `1 ≤ i`, `i + 1 < length` are visited (`Visit`, `round_inv` in
Proof/TwoOpt.lean).
-/

namespace Mtsp

/-- `paths[a][i]` -/
def nodeAt (P : Paths) (a i : Nat) : Nat := (P.getD a []).getD i 0

/-- `paths[a][i] = v` -/
def setNode (P : Paths) (a i v : Nat) : Paths := P.modify a fun p => p.set i v

/-- Heuristics.cpp:497 `std::swap(paths[a1][i], paths[a2][j])` -/
def swapNodes (P : Paths) (a1 i a2 j : Nat) : Paths :=
  setNode (setNode P a1 i (nodeAt P a2 j)) a2 j (nodeAt P a1 i)

/-- `PathsInfo` (Heuristics.cpp:311-392) together with the local variables of `TwoOptPaths`. -/
structure TOState where
  paths : Paths
  lens : List ℚ
  longest : Nat
  impSum : ℚ
  improved : Bool

/-- Heuristics.cpp:318-335, constructor of `PathsInfo`. -/
def pathsInfoInit (mode : Mode) (P : Paths) (w : Weights) : List ℚ × Nat :=
  match mode with
  | .sum => (List.replicate P.length 0, 0)
  | .max => (List.range P.length).foldl (fun (b : List ℚ × Nat) a =>
      let lens := b.1.set a (calcPathLength (P.getD a []) w)
      (lens, if lens.getD a 0 > lens.getD b.2 0 then a else b.2)) (List.replicate P.length 0, 0)

/-- Heuristics.cpp:337-353, `GetA2Range`. -/
def getA2Range (mode : Mode) (lens : List ℚ) (longest a1 : Nat) : Nat × Nat :=
  match mode with
  | .sum => (a1, lens.length)
  | .max => if a1 < longest then (longest, longest + 1) else if a1 = longest then (longest, lens.length) else (0, 0)

/-- Heuristics.cpp:355-376, `CalculateOverallImprovement`. -/
def overallImprovement (mode : Mode) (lens : List ℚ) (longest a1 : Nat) (imp1 : ℚ) (a2 : Nat) (imp2 : ℚ) : ℚ :=
  match mode with
  | .sum => imp1 + imp2
  | .max =>
    let newObjective := (List.range lens.length).foldl (fun o a =>
      let l := lens.getD a 0 - (if a = a1 then imp1 else 0) - (if a = a2 then imp2 else 0)
      if l > o then l else o) 0
    lens.getD longest 0 - newObjective

/-- Heuristics.cpp:378-391, `ApplyImprovement`. -/
def applyImprovement (mode : Mode) (lens : List ℚ) (longest a1 : Nat) (imp1 : ℚ) (a2 : Nat) (imp2 : ℚ) : List ℚ × Nat :=
  match mode with
  | .sum => (lens, longest)
  | .max =>
    let lens1 := lens.set a1 (lens.getD a1 0 - imp1)
    let lens2 := lens1.set a2 (lens1.getD a2 0 - imp2)
    (lens2, (List.range' 1 (lens2.length - 1)).foldl (fun l a => if lens2.getD a 0 > lens2.getD l 0 then a else l) 0)

/-- Heuristics.cpp:458-487: (improvementA1, improvementA2) of exchanging position `i` of path `a1` with
position `j` of path `a2`. -/
def swapGain (w : Weights) (P : Paths) (a1 i a2 j : Nat) : ℚ × ℚ :=
  if a1 = a2 ∧ j = i + 1 then
    (w (nodeAt P a1 (i - 1)) (nodeAt P a1 i) + w (nodeAt P a1 i) (nodeAt P a1 (i + 1)) +
      w (nodeAt P a1 (i + 1)) (nodeAt P a1 (i + 2)) - w (nodeAt P a1 (i - 1)) (nodeAt P a1 (i + 1)) -
      w (nodeAt P a1 (i + 1)) (nodeAt P a1 i) - w (nodeAt P a1 i) (nodeAt P a1 (i + 2)), 0)
  else
    (w (nodeAt P a1 (i - 1)) (nodeAt P a1 i) + w (nodeAt P a1 i) (nodeAt P a1 (i + 1)) -
      w (nodeAt P a1 (i - 1)) (nodeAt P a2 j) - w (nodeAt P a2 j) (nodeAt P a1 (i + 1)),
     w (nodeAt P a2 (j - 1)) (nodeAt P a2 j) + w (nodeAt P a2 j) (nodeAt P a2 (j + 1)) -
      w (nodeAt P a2 (j - 1)) (nodeAt P a1 i) - w (nodeAt P a1 i) (nodeAt P a2 (j + 1)))

/-- `!span.empty()`.  Simplification: a span of a node out of range (undefined in C++) counts as empty;
every node of a path is in range (`IsCover`). -/
def spanNonempty (s : Except Err (List Nat)) : Bool :=
  match s with
  | .ok l => !l.isEmpty
  | .error _ => false

/-- Heuristics.cpp:421-423, 435-437: the node takes part in some dependency -/
def hasDeps (deps : DepGraph) (u : Nat) : Bool :=
  spanNonempty (deps.getIncomingSpan u) || spanNonempty (deps.getOutgoingSpan u)

/-- Heuristics.cpp:442-454 -/
def wouldBreak (deps : DepGraph) (P : Paths) (a1 u v i j : Nat) : Bool :=
  (List.range' i (j - i)).any fun k => deps.hasArc u (nodeAt P a1 (k + 1)) || deps.hasArc (nodeAt P a1 k) v

/-- Heuristics.cpp:433-456: skip this `j`? -/
def skipJ (deps : DepGraph) (P : Paths) (a1 a2 u v i j : Nat) : Bool :=
  !deps.isEmpty && ((a1 ≠ a2 && hasDeps deps v) || (a1 = a2 && wouldBreak deps P a1 u v i j))

/-- Heuristics.cpp:429-501: body of the loop over `j`; `u` was read before this loop. -/
def toStepJ (mode : Mode) (w : Weights) (deps : DepGraph) (a1 a2 i u : Nat) (s : TOState) (j : Nat) : TOState :=
  let v := nodeAt s.paths a2 j
  if skipJ deps s.paths a1 a2 u v i j then s
  else
    let g := swapGain w s.paths a1 i a2 j
    let improvement := overallImprovement mode s.lens s.longest a1 g.1 a2 g.2
    if improvement > 0 then
      let info := applyImprovement mode s.lens s.longest a1 g.1 a2 g.2
      { paths := swapNodes s.paths a1 i a2 j, lens := info.1, longest := info.2,
        impSum := s.impSum + improvement, improved := true }
    else s

/-- Heuristics.cpp:418-502: body of the loop over `i` -/
def toStepI (mode : Mode) (w : Weights) (deps : DepGraph) (a1 a2 : Nat) (s : TOState) (i : Nat) : TOState :=
  let u := nodeAt s.paths a1 i
  if a1 ≠ a2 ∧ hasDeps deps u = true then s
  else
    let jStart := if a1 = a2 then i + 1 else 1
    (List.range' jStart ((s.paths.getD a2 []).length - 1 - jStart)).foldl (toStepJ mode w deps a1 a2 i u) s

/-- Heuristics.cpp:416-503: body of the loop over `a2` -/
def toStepA2 (mode : Mode) (w : Weights) (deps : DepGraph) (a1 : Nat) (s : TOState) (a2 : Nat) : TOState :=
  (List.range' 1 ((s.paths.getD a1 []).length - 1 - 1)).foldl (toStepI mode w deps a1 a2) s

/-- Heuristics.cpp:413-504: body of the loop over `a1` -/
def toStepA1 (mode : Mode) (w : Weights) (deps : DepGraph) (s : TOState) (a1 : Nat) : TOState :=
  let r := getA2Range mode s.lens s.longest a1
  (List.range' r.1 (r.2 - r.1)).foldl (toStepA2 mode w deps a1) s

/-- Heuristics.cpp:410-505: one round of the `while` loop -/
def toRound (mode : Mode) (w : Weights) (deps : DepGraph) (A : Nat) (s : TOState) : TOState :=
  (List.range A).foldl (toStepA1 mode w deps) { s with improved := false }

/-- Heuristics.cpp:409: `while (hasImproved && now() < endTime)`; also returns the remaining ticks. -/
def toLoop (mode : Mode) (w : Weights) (deps : DepGraph) (A : Nat) : Nat → TOState → TOState × Nat
  | 0, s => (s, 0)
  | t + 1, s => if s.improved then toLoop mode w deps A t (toRound mode w deps A s) else (s, t + 1)

/-- Heuristics.cpp:394-508, `TwoOptPaths`: (paths, improvement), remaining ticks. -/
def twoOpt (mode : Mode) (P : Paths) (w : Weights) (deps : DepGraph) (t : Nat) : (Paths × ℚ) × Nat :=
  let info := pathsInfoInit mode P w
  let r := toLoop mode w deps P.length t
    { paths := P, lens := info.1, longest := info.2, impSum := 0, improved := true }
  ((r.1.paths, r.1.impSum), r.2)

end Mtsp
