import Verif.Model.Heap

/-!
Model of tsplp/src/BranchAndCutQueue.cpp.  Each member function holds `m_mutex` during the modelled
body, so a concurrent history is a sequence of these operations.  The condition variable (waiting in
`Pop`, notifications) is modelled in `Verif/Model/QueueConc.lean`; here a `Pop` that would have to wait
gives the output `blocked` and changes nothing.  The destructor of `NodeDoneNotifier`
(BranchAndCutQueue.hpp:44-48) calls `NotifyNodeDone` exactly once per popped node: operation `done`.
-/

namespace Mtsp

/-- BranchAndCutQueue.hpp:54-58: `m_heap`, `m_workedOnLowerBounds`, `m_workedOnCount`, `m_isCleared`. -/
structure QState where
  heap : List SData := []
  workedOn : List (Option ℚ)
  count : Nat := 0
  cleared : Bool := false
  deriving DecidableEq, Repr

/-- BranchAndCutQueue.cpp:7-12, constructor. -/
def QState.new (threads : Nat) : Except Err QState :=
  if threads = 0 then .error (.logic "Cannot have zero threads")
  else .ok { workedOn := List.replicate threads none }

/-- BranchAndCutQueue.cpp:183: `opt.value_or(max)`. -/
def valueOrMax (o : Option ℚ) : ℚ := o.getD dblMax

/-- `std::min_element` with the comparison of BranchAndCutQueue.cpp:183: first smallest element. -/
def minElement : List (Option ℚ) → Option (Option ℚ)
  | [] => none
  | o :: os => some (os.foldl (fun best o => if valueOrMax o < valueOrMax best then o else best) o)

/-- BranchAndCutQueue.cpp:176-193, `CalculateLowerBound`.  `->value()` on an empty optional throws
`bad_optional_access`, dereferencing `end()` is undefined. -/
def QState.calcLB (s : QState) : Except Err ℚ :=
  if s.heap = [] ∧ s.count = 0 then .ok (-dblMax)
  else
    let lbHeap := match s.heap with
      | [] => dblMax
      | x :: _ => x.lb
    if s.count = 0 then .ok (min lbHeap dblMax)
    else match minElement s.workedOn with
      | none => .error (.ub "dereference end()")
      | some none => .error (.logic "bad_optional_access")
      | some (some v) => .ok (min lbHeap v)

/-- What an operation can return. -/
inductive QOut where
  | unit
  | bound (v : ℚ)
  | node (d : SData)
  | nothing
  | blocked
  deriving DecidableEq, Repr

/-- The operations of the queue. -/
inductive QOp where
  | getLowerBound
  | pop (t : Nat)
  | clearAll
  | updateCurrentLowerBound (t : Nat) (v : ℚ)
  | pushResult (v : ℚ)
  | push (v : ℚ) (f0 f1 : List Nat)
  | pushBranch (v : ℚ) (f0 f1 : List Nat) (var : Nat) (rec0 : List Nat)
  | done (t : Nat)
  deriving DecidableEq, Repr

/-- BranchAndCutQueue.cpp:20-43, `Pop` (without the waiting). -/
def QState.pop (H : HeapImpl) (s : QState) (t : Nat) : Except Err QOut × QState :=
  if t ≥ s.workedOn.length then (.error (.logic "Wrong threadId"), s)
  else if !s.cleared && s.heap.isEmpty && decide (s.count > 0) then (.ok .blocked, s)
  else if s.cleared || (s.heap.isEmpty && decide (s.count = 0)) then (.ok .nothing, s)
  else
    let h := H.pop s.heap
    match h.getLast? with
    | none => (.error (.ub "back() of empty vector"), s)
    | some d =>
      (.ok (.node d),
        { s with heap := h.dropLast, workedOn := s.workedOn.set t (some d.lb), count := s.count + 1 })

/-- BranchAndCutQueue.cpp:45-53, `ClearAll`. -/
def QState.clearAll (s : QState) : QState := { s with cleared := true }

/-- BranchAndCutQueue.cpp:55-66, `UpdateCurrentLowerBound`. -/
def QState.updateCurrentLowerBound (s : QState) (t : Nat) (v : ℚ) : Except Err QOut × QState :=
  match s.workedOn[t]? with
  | none => (.error (.logic "out_of_range"), s)
  | some none => (.error (.logic "Thread does not have a node popped"), s)
  | some (some w) =>
    if v < w then (.error (.logic "Lower bound must not be decreased"), s)
    else (.ok .unit, { s with workedOn := s.workedOn.set t (some v) })

/-- The common part of the three pushes (BranchAndCutQueue.cpp:68-89, 91-114, 116-156): ignore when
cleared, refuse a bound below the current one, otherwise append the nodes one by one, each followed by
`push_heap`. -/
def QState.pushNodes (H : HeapImpl) (s : QState) (v : ℚ) (nodes : List SData) : Except Err QOut × QState :=
  if s.cleared then (.ok .unit, s)
  else match s.calcLB with
    | .error e => (.error e, s)
    | .ok lb =>
      if v < lb then (.error (.logic "cannot push smaller lower bound"), s)
      else (.ok .unit, { s with heap := nodes.foldl (fun h d => H.push (h ++ [d])) s.heap })

/-- BranchAndCutQueue.cpp:83-84 -/
def QState.pushResult (H : HeapImpl) (s : QState) (v : ℚ) : Except Err QOut × QState :=
  s.pushNodes H v [{ lb := v, isResult := true }]

/-- BranchAndCutQueue.cpp:107-109 -/
def QState.push (H : HeapImpl) (s : QState) (v : ℚ) (f0 f1 : List Nat) : Except Err QOut × QState :=
  s.pushNodes H v [{ lb := v, fixed0 := f0, fixed1 := f1 }]

/-- BranchAndCutQueue.cpp:133-148: the two child nodes. -/
def branchNodes (v : ℚ) (f0 f1 : List Nat) (var : Nat) (rec0 : List Nat) : List SData :=
  [{ lb := v, fixed0 := f0 ++ [var], fixed1 := f1 },
   { lb := v, fixed0 := f0 ++ rec0, fixed1 := f1 ++ [var] }]

/-- BranchAndCutQueue.cpp:116-156 -/
def QState.pushBranch (H : HeapImpl) (s : QState) (v : ℚ) (f0 f1 : List Nat) (var : Nat)
    (rec0 : List Nat) : Except Err QOut × QState :=
  s.pushNodes H v (branchNodes v f0 f1 var rec0)

/-- BranchAndCutQueue.cpp:158-174, `NotifyNodeDone`. -/
def QState.notifyDone (s : QState) (t : Nat) : Except Err QOut × QState :=
  match s.workedOn[t]? with
  | none => (.error (.logic "out_of_range"), s)
  | some none => (.error (.logic "Thread does not have a node popped"), s)
  | some (some _) => (.ok .unit, { s with workedOn := s.workedOn.set t none, count := s.count - 1 })

/-- One operation. -/
def QState.step (H : HeapImpl) (s : QState) : QOp → Except Err QOut × QState
  | .getLowerBound => (s.calcLB.map .bound, s)   -- BranchAndCutQueue.cpp:14-18
  | .pop t => s.pop H t
  | .clearAll => (.ok .unit, s.clearAll)
  | .updateCurrentLowerBound t v => s.updateCurrentLowerBound t v
  | .pushResult v => s.pushResult H v
  | .push v f0 f1 => s.push H v f0 f1
  | .pushBranch v f0 f1 var rec0 => s.pushBranch H v f0 f1 var rec0
  | .done t => s.notifyDone t

/-- Correct use of the API: a thread that holds a node does not pop another one before the notifier of
the first is destroyed (in MtspModel.cpp:336-342 the notifier lives until the end of the loop body), and
all bounds are doubles below `DBL_MAX`. -/
def QState.Legal (s : QState) : QOp → Prop
  | .pop t => s.workedOn[t]? ≠ none → s.workedOn[t]? = some none
  | .updateCurrentLowerBound _ v => -dblMax ≤ v ∧ v < dblMax
  | .pushResult v => -dblMax ≤ v ∧ v < dblMax
  | .push v _ _ => -dblMax ≤ v ∧ v < dblMax
  | .pushBranch v _ _ _ _ => -dblMax ≤ v ∧ v < dblMax
  | _ => True

/-- A history: operations with their results. -/
abbrev QTrace := List (QOp × Except Err QOut)

/-- All histories of legal operations from a fresh queue for `n` threads. -/
inductive QReach (H : HeapImpl) (n : Nat) : QTrace → QState → Prop
  | init (s : QState) : QState.new n = .ok s → QReach H n [] s
  | step (tr : QTrace) (s : QState) (op : QOp) : QReach H n tr s → s.Legal op →
      QReach H n (tr ++ [(op, (s.step H op).1)]) (s.step H op).2

end Mtsp
