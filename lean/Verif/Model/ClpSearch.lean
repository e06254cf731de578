import Verif.Model.Clp
import Verif.Model.BranchAndCut

/-! Which calls a worker of `BranchAndCutSolve` makes to its own copy of the LP (tsplp/src/MtspModel.cpp:310-366). -/

namespace Mtsp

/-- The calls to the worker's LP in one step.  MtspModel.cpp:333-334: unfixing what is remembered; 359-362: fixing what the popped
node says; 364 (ConstraintDeque.cpp:24): adding the new cuts.  No other step touches rows, objective or bounds.
While a worker waits in `Pop` it has unfixed already; here this happens when `Pop` returns a node, which makes no difference. -/
def BState.lpCalls (e : BEnv) (s : BState) (t : Nat) : List ClpOp :=
  match (s.wk t).pc with
  | .pop =>
    match s.q.pop e.H t with
    | (.ok (.node d), _) =>
      if d.isResult then [.unfix (s.wk t).fix.fixed0, .unfix (s.wk t).fix.fixed1]
      else [.unfix (s.wk t).fix.fixed0, .unfix (s.wk t).fix.fixed1, .fix 0 d.fixed0, .fix 1 d.fixed1]
    | _ => []
  | .read _ =>
    match s.deque.step (.read t) with
    | (.ok cs, _) => [.add cs]
    | _ => []
  | _ => []

/-- All executions of the workers, together with the calls worker `u` has made to its LP. -/
inductive LPHistory (e : BEnv) (r : ResState) (u : Nat) : List (Nat × Inp) → BState → List ClpOp → Prop
  | start (s : BState) : BState.start e r = .ok s → LPHistory e r u [] s []
  | step (tr : List (Nat × Inp)) (s : BState) (ops : List ClpOp) (t : Nat) (i : Inp) : LPHistory e r u tr s ops → t < e.threads →
      i.Ok e s t → LPHistory e r u (tr ++ [(t, i)]) (s.step e t i) (ops ++ if t = u then s.lpCalls e t else [])

end Mtsp
