import Verif.Model.BranchAndCut

/-! Model of the fractional callback (tsplp/src/MtspModel.cpp:390-404, mtsp-vrp-c/src/mtsp-vrp-c.cpp:59-64). -/

namespace Mtsp

/-- MtspModel.cpp:392-399: what the caller's callback is given when worker `t` moves on: after its bounds have been updated
(391), the values of the variables, in terms of input nodes.  `none`: no call in this step.  The function has no access to the
search, and the calls of different workers exclude each other (401); the C function passes the entries on unchanged, in the
order agent, from, to. -/
def BState.callbackArg (e : BEnv) (s : BState) (t : Nat) : Option Tensor3 :=
  match (s.wk t).pc with
  | .updLB _ _ y _ => some (e.m.transformTensorBack fun a u v => y (varId e.m.n a u v))
  | _ => none

end Mtsp
