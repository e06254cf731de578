import Verif.Model.WeightManager
import Verif.Model.Linear
import Verif.Model.Result

/-!
Model of the LP that `MtspModel::MtspModel` builds (tsplp/src/MtspModel.cpp:80-280), of the objective
(691-738), and of reading paths off an LP point (524-551).  The deadline checks between the groups of
constraints are not part of this file: a constructor that is interrupted leaves an LP that is never
solved, because the clock is monotone (see Model/Solver.lean).
-/

namespace Mtsp

/-- MtspModel.cpp:81-83: the variables, in order, are viewed as a tensor of shape (A, N, N);
MtspModel.cpp:557-559 decodes the same numbering. -/
def varId (N a u v : Nat) : Nat := a * N * N + u * N + v

/-- `LinearVariableComposition sum; for (...) sum += X(...);` -/
def sumVars (ids : List Nat) : LinComp := ids.foldl (fun c i => c.addAssign (.ofVar i)) .zero

/-- variables of all arcs into `n`, MtspModel.cpp:114-118 -/
def idsIn (A N n : Nat) : List Nat := (List.range A).flatMap fun a => (List.range N).map fun m => varId N a m n

/-- variables of all arcs out of `n`, MtspModel.cpp:122-126 -/
def idsOut (A N n : Nat) : List Nat := (List.range A).flatMap fun a => (List.range N).map fun m => varId N a n m

/-- MtspModel.cpp:98-102: no self loops -/
def conDiag (A N : Nat) : List LinCon :=
  (List.range A).flatMap fun a => (List.range N).map fun n => .eq (.ofVar (varId N a n n)) (.ofConst 0)

/-- MtspModel.cpp:111-148: degree constraints -/
def conDegree (A N : Nat) (starts : List Nat) : List LinCon :=
  (List.range N).flatMap fun n =>
    LinCon.eq (sumVars (idsIn A N n)) (.ofConst 1) :: LinCon.eq (sumVars (idsOut A N n)) (.ofConst 1) ::
    (if n ∈ starts then []
     else (List.range A).map fun a =>
      LinCon.eq (sumVars ((List.range N).map fun m => varId N a m n)) (sumVars ((List.range N).map fun m => varId N a n m)))

/-- MtspModel.cpp:157-176: start and end nodes, artificial arcs -/
def conStartEnd (A N : Nat) (starts ends : List Nat) : List LinCon :=
  (List.range A).flatMap fun a =>
    [.eq (sumVars ((List.range N).map fun v => varId N a (starts.getD a 0) v)) (.ofConst 1),
     .eq (sumVars ((List.range N).map fun u => varId N a u (ends.getD a 0))) (.ofConst 1),
     .eq (.ofVar (varId N a (ends.getD a 0) (starts.getD ((a + 1) % A) 0))) (.ofConst 1)]

/-- MtspModel.cpp:178-249: constraints for the dependency of `v` on `u` -/
def conDep (A N : Nat) (starts ends : List Nat) (u v : Nat) : List LinCon :=
  (if A > 1 ∨ u ≠ starts.getD 0 0 ∨ v ≠ ends.getD 0 0 then
    [.eq (sumVars ((List.range A).map fun a => varId N a v u)) (.ofConst 0)] else []) ++
  (if A > 1 then (List.range A).map fun a =>
    LinCon.eq (sumVars ((List.range N).map fun n => varId N a u n)) (sumVars ((List.range N).map fun n => varId N a n v)) else []) ++
  ((starts.filter fun s => decide (s ≠ u)).map fun s =>
    LinCon.eq (sumVars ((List.range A).map fun a => varId N a s v)) (.ofConst 0)) ++
  ((ends.filter fun e => decide (e ≠ v)).map fun e =>
    LinCon.eq (sumVars ((List.range A).map fun a => varId N a u e)) (.ofConst 0))

/-- MtspModel.cpp:259-277: no cycles of length two -/
def conTwoCycles (A N : Nat) : List LinCon :=
  (List.range N).flatMap fun u => (List.range' (u + 1) (N - (u + 1))).map fun v =>
    LinCon.le (sumVars ((List.range A).flatMap fun a => [varId N a u v, varId N a v u])) (.ofConst 1)

/-- MtspModel.cpp:96-279: all rows except those of the objective -/
def buildConstraints (N : Nat) (starts ends : List Nat) (arcs : List (Nat × Nat)) : List LinCon :=
  conDiag starts.length N ++ conDegree starts.length N starts ++ conStartEnd starts.length N starts ends ++
    (arcs.flatMap fun uv => conDep starts.length N starts ends uv.1 uv.2) ++ conTwoCycles starts.length N

/-- `for u, for v: sum += weights(u, v) * variables(a, u, v)` (MtspModel.cpp:708-712, 729-733) -/
def addAgentCost (N : Nat) (w : Weights) (a : Nat) (c : LinComp) : LinComp :=
  (List.range N).foldl (fun c u => (List.range N).foldl (fun c v => c.addAssign (.smul (w u v) (.ofVar (varId N a u v)))) c) c

/-- MtspModel.cpp:699-715, `CreateSumObjective` -/
def createSumObjective (A N : Nat) (w : Weights) : LinComp :=
  (List.range A).foldl (fun c a => addAgentCost N w a c) .zero

/-- MtspModel.cpp:717-738, `CreateMaxObjective`: the objective and the additional rows -/
def createMaxObjective (A N : Nat) (w : Weights) (maxVar : Nat) : LinComp × List LinCon :=
  (.ofVar maxVar, (List.range A).map fun a => LinCon.ge (.ofVar maxVar) (addAgentCost N w a .zero))

/-- MtspModel.cpp:85-89, 691-697: the maximum variable is the next one after the `A * N * N` binaries
(Model.cpp:126: `m_variables.emplace_back(m_variables.size())`). -/
def createObjective (mode : Mode) (A N : Nat) (w : Weights) : LinComp × List LinCon :=
  match mode with
  | .sum => (createSumObjective A N w, [])
  | .max => createMaxObjective A N w (A * N * N)

/-- MtspModel.cpp:535-541: the first `n` whose variable is (almost) one; otherwise nothing is appended. -/
def followArc (N : Nat) (x : Nat → ℚ) (a : Nat) (p : List Nat) : List Nat :=
  match (List.range N).find? fun n => decide (x (varId N a (p.getLastD 0) n) > 1 - 1 / 10 ^ 10) with
  | some n => p ++ [n]
  | none => p

/-- MtspModel.cpp:533-546: `k` more rounds of the loop over `i` -/
def followPath (N : Nat) (x : Nat → ℚ) (a e : Nat) : Nat → List Nat → List Nat
  | 0, p => p
  | k + 1, p =>
    let p' := followArc N x a p
    if p'.getLastD 0 = e then p' else followPath N x a e k p'

/-- MtspModel.cpp:527-548: the paths before they are mapped back (line 550) -/
def readPaths (N : Nat) (starts ends : List Nat) (x : Nat → ℚ) : Paths :=
  (List.range starts.length).map fun a => followPath N x a (ends.getD a 0) (N - 1) [starts.getD a 0]

end Mtsp
