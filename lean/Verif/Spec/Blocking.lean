import Verif.Model.Blocking
import Verif.Model.QueueOnce
import Verif.Spec.Termination

/-! Endless executions with sleeping workers. -/

namespace Mtsp

/-- An execution that goes on forever, with workers that sleep.  None of them is passed over forever; a worker that is chosen
while it sleeps sleeps on (or wakes up spuriously, which may never happen). -/
structure BlockRun (e : BEnv) (r : ResState) (who : Nat → Nat) (inp : Nat → Inp) (st : Nat → KState) : Prop where
  start : BState.start e r = .ok (st 0).s
  awake : ∀ t, (st 0).sl t = .awake
  step : ∀ n, KStep e (who n) (inp n) (st n) (st (n + 1))
  worker : ∀ n, who n < e.threads
  ok : ∀ n, (inp n).Ok e (st n).s (who n)
  fair : ∀ t < e.threads, ∀ n, ∃ k, n ≤ k ∧ who k = t

/-- What a worker of the search looks like to the queue: `sl` and `pc` are its state in the search (Model/Blocking.lean), `c` its
state in the protocol of the condition variable (Model/QueueConc.lean). -/
def Shows (sl : Slp) (pc : Pc) (c : WPc) : Prop :=
  match sl with
  | .asleep => c = .waiting
  | .notify k => c = .notifyOne k
  | .notifyAll => (pc = .left ∧ c = .notifyAll true) ∨ (pc = .head ∧ c = .notifyAll false)
  | .awake =>
    match pc with
    | .head | .headUpd _ | .clear => c = .running
    | .pop => c = .running ∨ c = .woken
    | .left => c = .left
    | _ => c = .holding

end Mtsp
