import Verif.Model.LP
import Verif.Model.Dependency

/-!
Model of `CalculateRecursivelyFixableVariables` (tsplp/src/MtspModel.cpp:553-652), of
`FindFractionalVariable` (35-55) and of the variables and columns of an LP (tsplp/src/Model.cpp:17-34,
124-133; tsplp/src/Variable.cpp:12-58).
-/

namespace Mtsp

/-- MtspModel.cpp:557-559: agent, from, to of a variable id -/
def decodeVar (N id : Nat) : Nat × Nat × Nat := (id / N / N, id / N % N, id % N)

/-- MtspModel.cpp:618-625, 638-645: variables of all arcs into and out of `d` for agent `aa` -/
def arcsAt (N aa d : Nat) : List Nat :=
  (List.range N).flatMap fun w => [varId N aa w d, varId N aa d w]

/-- MtspModel.cpp:571-649: one iteration of the loop over `aa`; `outV`, `inU`: the dependees of `v` and
dependers of `u` -/
def fixableFor (N : Nat) (starts ends : List Nat) (outV inU : List Nat) (a u v aa : Nat) : List Nat :=
  (if aa ≠ a then [varId N aa u v] else []) ++
  ((List.range N).filter (fun vv => decide (vv ≠ v))).map (fun vv => varId N aa u vv) ++
  ((List.range N).filter (fun uu => decide (uu ≠ u))).map (fun uu => varId N aa uu v) ++
  (if u ∉ starts ∧ aa ≠ a then (List.range N).map (fun w => varId N aa w u) else []) ++
  (if v ∉ ends ∧ aa ≠ a then (List.range N).map (fun w => varId N aa v w) else []) ++
  (if aa ≠ a then
    ((outV.filter fun d => decide (d ∉ ends)).flatMap (arcsAt N aa)) ++
    ((inU.filter fun d => decide (d ∉ starts)).flatMap (arcsAt N aa))
   else [])

/-- MtspModel.cpp:553-652 -/
def calcFixable (N : Nat) (starts ends : List Nat) (deps : DepGraph) (id : Nat) : Except Err (List Nat) :=
  match decodeVar N id with
  | (a, u, v) =>
    match deps.getOutgoingSpan v with
    | .error e => .error e
    | .ok outV =>
      match deps.getIncomingSpan u with
      | .error e => .error e
      | .ok inU => .ok ((List.range starts.length).flatMap (fixableFor N starts ends outV inU a u v))

/-- MtspModel.cpp:35-55: the loop, started with `minAbs = 1` and no candidate; the absolute value is
`|x - 1/2|`, the subtraction rounded by `fl`; `hi` is `1.0 - epsilon` -/
def findFracLoop (fl : ℚ → ℚ) (eps hi : ℚ) (x : Nat → ℚ) : List Nat → ℚ → Option Nat → Option Nat
  | [], _, closest => closest
  | v :: vs, minAbs, closest =>
    if eps ≤ x v ∧ x v ≤ hi then
      if |fl (x v - 1 / 2)| < minAbs then
        if |fl (x v - 1 / 2)| < eps then some v
        else findFracLoop fl eps hi x vs |fl (x v - 1 / 2)| (some v)
      else findFracLoop fl eps hi x vs minAbs closest
    else findFracLoop fl eps hi x vs minAbs closest

/-- MtspModel.cpp:35-55 with the default tolerance; `nBin` binary variables (Model.cpp:60-64) -/
def findFractional (fl : ℚ → ℚ) (nBin : Nat) (x : Nat → ℚ) : Option Nat :=
  findFracLoop fl (1 / 10 ^ 10) (1 - 1 / 10 ^ 10) x (List.range nBin) 1 none

/-! ### columns -/

/-- The part of `tsplp::Model` (tsplp/include/Model.hpp) that concerns variables: the column bounds of
the simplex model, the number of variables (variable `i` has id `i`) and of binary variables. -/
structure LPModel where
  lo : List ℚ
  up : List ℚ
  nVars : Nat
  nBin : Nat
  deriving DecidableEq, Repr

/-- Variable.cpp:12-22: lower and upper bound of a column, `none` if there is no such column -/
def LPModel.bounds (M : LPModel) (i : Nat) : Option ℚ × Option ℚ := (M.lo[i]?, M.up[i]?)

/-- Variable.cpp:24-32: setting the bounds of a column; out of range is undefined -/
def LPModel.setBounds (M : LPModel) (id : Nat) (l u : ℚ) : Except Err LPModel :=
  if id < M.lo.length ∧ id < M.up.length then .ok { M with lo := M.lo.set id l, up := M.up.set id u }
  else .error (.ub "column index")

/-- Model.cpp:124-133, `AddVariable`; a new column has bounds `[0, max]` -/
def LPModel.addVariable (M : LPModel) (l u : ℚ) : Except Err (Nat × LPModel) :=
  let id := M.nVars
  let M1 := { M with nVars := M.nVars + 1 }
  let M2 := if M1.nVars ≥ M1.lo.length then { M1 with lo := M1.lo ++ [0], up := M1.up ++ [dblMax] } else M1
  match M2.setBounds id l u with
  | .error e => .error e
  | .ok M3 => .ok (id, M3)

/-- Model.cpp:32-33: the loop of the constructor -/
def LPModel.addBinaries : Nat → LPModel → Except Err LPModel
  | 0, M => .ok M
  | k + 1, M =>
    match M.addVariable 0 1 with
    | .error e => .error e
    | .ok (_, M') => LPModel.addBinaries k M'

/-- Model.cpp:17-34, the constructor; the new columns have bounds `[0, max]` until they are set -/
def LPModel.make (n : Nat) : Except Err LPModel :=
  if n > 2147483647 then .error (.runtime "Too many variables")
  else LPModel.addBinaries n ⟨List.replicate n 0, List.replicate n dblMax, 0, n⟩

/-- Variable.cpp:48-52, `Fix`, for a list (MtspModel.cpp:23-27) -/
def LPModel.fixAll (value : ℚ) : List Nat → LPModel → Except Err LPModel
  | [], M => .ok M
  | v :: vs, M =>
    match M.setBounds v value value with
    | .error e => .error e
    | .ok M' => LPModel.fixAll value vs M'

/-- Variable.cpp:54-58, `Unfix`, for a list (MtspModel.cpp:29-33) -/
def LPModel.unfixAll : List Nat → LPModel → Except Err LPModel
  | [], M => .ok M
  | v :: vs, M =>
    match M.setBounds v 0 1 with
    | .error e => .error e
    | .ok M' => LPModel.unfixAll vs M'

/-- What a worker remembers between nodes: its LP and the variables fixed for the last node
(MtspModel.cpp:310-314). -/
structure FixState where
  model : LPModel
  fixed0 : List Nat
  fixed1 : List Nat
  deriving DecidableEq, Repr

/-- MtspModel.cpp:333-334, 358-362: unfix what was fixed before, then fix what the new node says.  Between
unfixing and fixing the node is popped; a result node (MtspModel.cpp:344-356) keeps the remembered
lists, see `FixState.skip`. -/
def FixState.load (s : FixState) (f0 f1 : List Nat) : Except Err FixState := do
  let M1 ← LPModel.unfixAll s.fixed0 s.model
  let M2 ← LPModel.unfixAll s.fixed1 M1
  let M3 ← LPModel.fixAll 0 f0 M2
  let M4 ← LPModel.fixAll 1 f1 M3
  return ⟨M4, f0, f1⟩

/-- MtspModel.cpp:333-334 and 344-356: a round in which the popped node is a result node -/
def FixState.skip (s : FixState) : Except Err FixState := do
  let M1 ← LPModel.unfixAll s.fixed0 s.model
  let M2 ← LPModel.unfixAll s.fixed1 M1
  return ⟨M2, s.fixed0, s.fixed1⟩

/-- MtspModel.cpp:414-438: reduced cost fixing only appends to the remembered lists, the LP is not
touched. -/
def FixState.remember (s : FixState) (e0 e1 : List Nat) : FixState :=
  { s with fixed0 := s.fixed0 ++ e0, fixed1 := s.fixed1 ++ e1 }

end Mtsp
