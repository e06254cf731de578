import Verif.Model.TwoOpt

/-! Model of `MtspModel::CreateInitialResult` and `MtspModel::ExploitFractionalSolution`
(tsplp/src/MtspModel.cpp:654-689). -/

namespace Mtsp

/-- MtspModel.cpp:654-667, `CreateInitialResult`: construction, improvement, mapping back, storing.
Also returns the remaining ticks. -/
def createInitialResult (mode : Mode) (m : WM) (t : Nat) (s : ResState) : Except Err (ResState × Nat) :=
  match nearestInsertion mode (fun _ => m.w) m.n m.starts m.ends m.deps t with
  | .error e => .error e
  | .ok ((p, obj), t1) =>
    let r := twoOpt mode p m.w m.deps t1
    match m.transformPathsBack r.1.1 with
    | .error e => .error e
    | .ok q => .ok ((s.updateUpperBound (obj - r.1.2) q).1, r.2)

/-- MtspModel.cpp:669-689, `ExploitFractionalSolution`: the upper bound to submit and the paths, `none`
if the construction hit the deadline.  (The submission itself, `UpdateUpperBound`, is a separate atomic
step.) -/
def exploitCandidate (mode : Mode) (m : WM) (x : Tensor3) (t : Nat) : Except Err (Option (ℚ × Paths) × Nat) :=
  match exploitFractionalSolution mode x m.w m.n m.starts m.ends m.deps t with
  | .error e => .error e
  | .ok (p, t1) =>
    if p.isEmpty then .ok (none, t1)
    else
      let r := twoOpt mode p m.w m.deps t1
      match m.transformPathsBack r.1.1 with
      | .error e => .error e
      | .ok q => .ok (some (calcObjective mode r.1.1 (fun _ => m.w), q), r.2)

end Mtsp
