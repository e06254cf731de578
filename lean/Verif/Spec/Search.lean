import Verif.Model.BranchAndCut
import Verif.Spec.CutsNear
import Verif.Spec.Doubles
import Verif.Spec.Point
import Verif.Props.Dependency

/-! What a search starts from, and what a feasible solution costs. -/

namespace Mtsp

/-- the weights a caller of the C function can pass: integers that fit into 31 bits, negative only for the
dependency flag `-1` -/
def IntWeights (rows : Nat) (w : Weights) : Prop :=
  ∀ i < rows, ∀ j < rows, ∃ z : ℤ, w i j = z ∧ -1 ≤ z ∧ z < 2 ^ 31

/-- The environment of a search belongs to the given input: the instance is what preprocessing made of it
(`WM.make`), the columns are those the constructor creates, the library functions keep their contracts
(up to rounding errors), floating-point operations round like doubles. -/
structure BEnv.Good (e : BEnv) (rows : Nat) (w : Weights) (starts ends : List Nat) : Prop where
  make : WM.make rows rows w starts ends = .ok e.m
  weights : IntWeights rows w
  colsOk : makeCols e.mode e.m.starts.length e.m.n = .ok e.cols
  swOk : e.sw.Near
  mfOk : e.mf.Near
  ghOk : e.gh.Proper
  flOk : Rounding e.fl
  precise : Precise e.fl

/-- the feasible solutions of the preprocessed instance -/
def BEnv.Feasible (e : BEnv) (P : Paths) : Prop :=
  Mtsp.Feasible e.m.n e.m.starts e.m.ends (DepIn e.m.n e.m.w) P

end Mtsp
