import Verif.Model.Queue
import Mathlib.Logic.Function.Basic

/-!
The condition variable of `BranchAndCutQueue` and the workers' use of it, as a transition system.

A worker (MtspModel.cpp:308-499) is, with respect to the queue, in one of the states below.  Critical
sections are single steps; notifications are sent *after* the mutex has been released
(BranchAndCutQueue.cpp:52, 87-88, 112-113, 151-155, 172-173), so other workers may run between the two: the
sender is then in a `notify…` state.  `notify_one` wakes an arbitrary waiting worker; spurious wake-ups
are allowed at any time.
-/

namespace Mtsp

inductive WPc where
  /-- outside the queue, without a node (loop head, MtspModel.cpp:316-336) -/
  | running
  /-- blocked in `m_cv.wait` (BranchAndCutQueue.cpp:29) -/
  | waiting
  /-- woken up, will re-evaluate the loop condition (BranchAndCutQueue.cpp:28) -/
  | woken
  /-- owns a node (MtspModel.cpp:342-498) -/
  | holding
  /-- about to call `notify_one` `k` more times, still owning its node -/
  | notifyOne (k : Nat)
  /-- about to call `notify_all`; afterwards it leaves the loop (after `ClearAll`) or goes on -/
  | notifyAll (thenLeave : Bool)
  /-- has left its loop -/
  | left
  deriving DecidableEq, Repr

structure CState where
  q : QState
  pc : Nat → WPc

/-- The three kinds of push and how many nodes (and notifications) they produce:
BranchAndCutQueue.cpp:88 (one), 113 (one), 153-154 (two). -/
def pushCount : QOp → Nat
  | .pushResult _ => 1
  | .push _ _ _ => 1
  | .pushBranch _ _ _ _ _ => 2
  | _ => 0

/-- What happens in a step (for counting). -/
inductive CLabel where
  | pop | push (k : Nat) | update | done | clear | wakeOne | wakeAll | spurious
  deriving DecidableEq, Repr

/-- pc after a push: BranchAndCutQueue.cpp:81, 105, 131: `needsNotify = m_heap.empty() &&
m_workedOnCount > 0` (before the insertion; a cleared queue returns earlier). -/
def pcAfterPush (q : QState) (op : QOp) : WPc :=
  if !q.cleared && q.heap.isEmpty && decide (q.count > 0) then .notifyOne (pushCount op) else .holding

/-- pc after `NotifyNodeDone`: BranchAndCutQueue.cpp:169, in the state after the decrement. -/
def pcAfterDone (q' : QState) : WPc :=
  if decide (q'.count = 0) && !q'.cleared && q'.heap.isEmpty then .notifyAll false else .running

def pcAfterWakeOne (k : Nat) : WPc := if k = 0 then .holding else .notifyOne k

/-- One step of worker `t` (of `n`). -/
inductive CStep (H : HeapImpl) (n : Nat) : CLabel → CState → CState → Prop
  /-- `Pop` finds nothing but others still work: wait (BranchAndCutQueue.cpp:28-29). -/
  | popWait (c : CState) (t : Nat) (q' : QState) : t < n → (c.pc t = .running ∨ c.pc t = .woken) →
      c.q.pop H t = (.ok .blocked, q') → CStep H n .pop c ⟨q', Function.update c.pc t .waiting⟩
  /-- `Pop` returns `nullopt`: leave the loop (MtspModel.cpp:337-340). -/
  | popNothing (c : CState) (t : Nat) (q' : QState) : t < n → (c.pc t = .running ∨ c.pc t = .woken) →
      c.q.pop H t = (.ok .nothing, q') → CStep H n .pop c ⟨q', Function.update c.pc t .left⟩
  /-- `Pop` returns a node. -/
  | popNode (c : CState) (t : Nat) (q' : QState) (d : SData) : t < n →
      (c.pc t = .running ∨ c.pc t = .woken) →
      c.q.pop H t = (.ok (.node d), q') → CStep H n .pop c ⟨q', Function.update c.pc t .holding⟩
  /-- a successful push by a worker that owns a node -/
  | push (c : CState) (t : Nat) (op : QOp) (q' : QState) : t < n → c.pc t = .holding →
      0 < pushCount op → c.q.Legal op → c.q.step H op = (.ok .unit, q') →
      CStep H n (.push (pushCount op)) c ⟨q', Function.update c.pc t (pcAfterPush c.q op)⟩
  /-- `UpdateCurrentLowerBound` -/
  | update (c : CState) (t : Nat) (v : ℚ) (q' : QState) : t < n → c.pc t = .holding →
      c.q.Legal (.updateCurrentLowerBound t v) →
      c.q.step H (.updateCurrentLowerBound t v) = (.ok .unit, q') → CStep H n .update c ⟨q', c.pc⟩
  /-- the notifier is destroyed at the end of the loop body -/
  | done (c : CState) (t : Nat) (q' : QState) : t < n → c.pc t = .holding →
      c.q.notifyDone t = (.ok .unit, q') →
      CStep H n .done c ⟨q', Function.update c.pc t (pcAfterDone q')⟩
  /-- loop head: bounds closed or timeout (MtspModel.cpp:320-330): `ClearAll`, then leave -/
  | clear (c : CState) (t : Nat) : t < n → c.pc t = .running →
      CStep H n .clear c ⟨c.q.clearAll, Function.update c.pc t (.notifyAll true)⟩
  /-- `notify_one` wakes some waiting worker -/
  | wakeOne (c : CState) (t w k : Nat) : t < n → w < n → c.pc t = .notifyOne (k + 1) → c.pc w = .waiting →
      CStep H n .wakeOne c ⟨c.q, Function.update (Function.update c.pc w .woken) t (pcAfterWakeOne k)⟩
  /-- `notify_one` without a waiting worker has no effect -/
  | wakeNone (c : CState) (t k : Nat) : t < n → c.pc t = .notifyOne (k + 1) → (∀ w, w < n → c.pc w ≠ .waiting) →
      CStep H n .wakeOne c ⟨c.q, Function.update c.pc t (pcAfterWakeOne k)⟩
  /-- `notify_all` -/
  | wakeAll (c : CState) (t : Nat) (b : Bool) : t < n → c.pc t = .notifyAll b →
      CStep H n .wakeAll c ⟨c.q, Function.update (fun w => if c.pc w = .waiting then .woken else c.pc w) t
        (if b then .left else .running)⟩
  /-- spurious wake-up -/
  | spurious (c : CState) (w : Nat) : w < n → c.pc w = .waiting →
      CStep H n .spurious c ⟨c.q, Function.update c.pc w .woken⟩

/-- All executions: sequences of labelled steps from the start of `BranchAndCutSolve`
(MtspModel.cpp:304-305: fresh queue, one node pushed, all workers at their loop head). -/
inductive CRun (H : HeapImpl) (n : Nat) : List CLabel → CState → Prop
  | init (q q1 : QState) : QState.new n = .ok q → q.step H (.push 0 [] []) = (.ok .unit, q1) →
      CRun H n [] ⟨q1, fun _ => .running⟩
  | step (ls : List CLabel) (c c' : CState) (l : CLabel) : CRun H n ls c → CStep H n l c c' →
      CRun H n (ls ++ [l]) c'

end Mtsp
