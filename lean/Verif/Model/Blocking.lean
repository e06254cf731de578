import Verif.Model.BranchAndCut
import Verif.Model.QueueConc

/-!
The search with its condition variable: the workers of Model/BranchAndCut.lean (MtspModel.cpp:308-499) really sleep in `Pop`
(BranchAndCutQueue.cpp:28-29) and run again only when somebody has notified them, or spuriously.

As in Model/QueueConc.lean, critical sections are single steps and notifications are sent after the mutex has been released
(BranchAndCutQueue.cpp:52, 87-88, 112-113, 151-155, 172-173): in between, the sender owes them.
-/

namespace Mtsp

/-- What a worker is doing besides its program. -/
inductive Slp where
  /-- it runs its program -/
  | awake
  /-- it is blocked in `m_cv.wait` (BranchAndCutQueue.cpp:29) -/
  | asleep
  /-- it is about to call `notify_one` `k` more times (BranchAndCutQueue.cpp:88, 113, 153-154) -/
  | notify (k : Nat)
  /-- it is about to call `notify_all` (BranchAndCutQueue.cpp:52, 173) -/
  | notifyAll
  deriving DecidableEq, Repr

/-- The state of the search and of the condition variable. -/
structure KState where
  s : BState
  sl : Nat → Slp

/-- what is left to do when `k` calls of `notify_one` remain (BranchAndCutQueue.cpp:153-155) -/
def slpNotify (k : Nat) : Slp := if k = 0 then .awake else .notify k

/-- What worker `t` owes after its next critical section: BranchAndCutQueue.cpp:45-53 (`ClearAll`), 81-88, 105-113, 131-155 (the
three pushes: `needsNotify` is computed before the insertion, a cleared queue returns earlier), 158-174 (`NotifyNodeDone`:
`needsNotify` is computed after the decrement). An exception leaves the function before the notification. -/
def slpAfter (e : BEnv) (s : BState) (t : Nat) : Slp :=
  match (s.wk t).pc with
  | .clear => .notifyAll
  | .push op =>
    match s.q.step e.H op with
    | (.error _, _) => .awake
    | (.ok _, _) => if !s.q.cleared && s.q.heap.isEmpty && decide (s.q.count > 0) then slpNotify (pushCount op) else .awake
  | .done =>
    match s.q.notifyDone t with
    | (.error _, _) => .awake
    | (.ok _, q) => if decide (q.count = 0) && !q.cleared && q.heap.isEmpty then .notifyAll else .awake
  | _ => .awake

/-- worker `t` would have to wait (BranchAndCutQueue.cpp:28) -/
def BState.waits (e : BEnv) (s : BState) (t : Nat) : Prop :=
  (s.wk t).pc = .pop ∧ (s.q.pop e.H t).1 = .ok .blocked

/-- One step of worker `t`. -/
inductive KStep (e : BEnv) (t : Nat) (i : Inp) (k : KState) : KState → Prop
  /-- it goes to sleep (BranchAndCutQueue.cpp:28-29) -/
  | sleep : k.sl t = .awake → k.s.waits e t → KStep e t i k ⟨k.s, Function.update k.sl t .asleep⟩
  /-- it goes on with its program (MtspModel.cpp:316-499) -/
  | work : k.sl t = .awake → ¬ k.s.waits e t → KStep e t i k ⟨k.s.step e t i, Function.update k.sl t (slpAfter e k.s t)⟩
  /-- it sleeps on (BranchAndCutQueue.cpp:29) -/
  | dream : k.sl t = .asleep → KStep e t i k k
  /-- it wakes up without having been notified (BranchAndCutQueue.cpp:28-29: the condition is tested again) -/
  | spurious : k.sl t = .asleep → KStep e t i k ⟨k.s, Function.update k.sl t .awake⟩
  /-- its `notify_one` wakes some sleeping worker (BranchAndCutQueue.cpp:88, 113, 153-154) -/
  | wakeOne (w j : Nat) : k.sl t = .notify (j + 1) → w < e.threads → k.sl w = .asleep →
      KStep e t i k ⟨k.s, Function.update (Function.update k.sl w .awake) t (slpNotify j)⟩
  /-- its `notify_one` while nobody sleeps has no effect -/
  | wakeNone (j : Nat) : k.sl t = .notify (j + 1) → (∀ w < e.threads, k.sl w ≠ .asleep) →
      KStep e t i k ⟨k.s, Function.update k.sl t (slpNotify j)⟩
  /-- its `notify_all` wakes everybody (BranchAndCutQueue.cpp:52, 173) -/
  | wakeAll : k.sl t = .notifyAll →
      KStep e t i k ⟨k.s, Function.update (fun w => if k.sl w = .asleep then .awake else k.sl w) t .awake⟩

/-- All executions with sleeping workers (MtspModel.cpp:304-508): any schedule, any inputs, any choice of the workers that are
woken up.  The list records who stepped with which input. -/
inductive KRun (e : BEnv) (r : ResState) : List (Nat × Inp) → KState → Prop
  | start (s : BState) : BState.start e r = .ok s → KRun e r [] ⟨s, fun _ => .awake⟩
  | step (tr : List (Nat × Inp)) (k k' : KState) (t : Nat) (i : Inp) : KRun e r tr k → t < e.threads → i.Ok e k.s t →
      KStep e t i k k' → KRun e r (tr ++ [(t, i)]) k'

end Mtsp
