import Verif.Model.BranchAndCut

/-!
The search at the granularity of single statements.  Model/BranchAndCut.lean treats every critical section as one step; here the
member functions of the three shared objects (tsplp/src/BranchAndCutQueue.cpp, MtspResult.cpp, ConstraintDeque.cpp) are sequences
of statements, and the statements of different threads may be interleaved in any way the mutexes allow.  Besides the workers there
may be observers: other threads of the calling program that ask the result object for its bounds while the search is running
(MtspModel.hpp:64 `GetResult`).

Notifications of the condition variable are not modelled here (see Model/Blocking.lean): a thread that waits in `Pop` may run again
at any time.
-/

namespace Mtsp

/-- The shared objects; each of them has one mutex (BranchAndCutQueue.hpp:59, MtspResult.hpp:23, ConstraintDeque.hpp:18). -/
inductive Obj where
  | queue
  | result
  | deque
  deriving DecidableEq, Repr

/-- the data members (other than the mutex) of a shared object (BranchAndCutQueue.hpp:54-58, MtspResult.hpp:19-22,
ConstraintDeque.hpp:16-17) -/
def Obj.St : Obj → Type
  | .queue => QState
  | .result => ResState
  | .deque => CDeque LinCon

/-- What a member function returns or throws. -/
inductive Ret where
  | none
  | q (r : Except Err QOut)
  | b (r : Option Bounds)
  | d (r : Except Err (List LinCon))
  | paths (p : Paths)

/-- The local variables of a member function in execution: `leave`: it is returning or throwing; `out`: its result; the others are
temporaries. -/
structure Reg where
  leave : Bool := false
  out : Ret := .none
  flag : Bool := false
  num : ℚ := 0
  int : ℤ := 0
  data : SData := default
  cons : List LinCon := []

/-- A statement of a member function of an object with data members `σ`. -/
inductive Instr (σ : Type) where
  /-- a statement that only touches local variables and constants -/
  | loc (f : Reg → Reg)
  /-- constructor of `std::unique_lock` -/
  | lock
  /-- `while (c) m_cv.wait(lock)` -/
  | wait (c : σ → Bool)
  /-- a statement that reads or writes data members -/
  | act (f : σ → Reg → σ × Reg)
  /-- destructor of `std::unique_lock` -/
  | unlock

/-- BranchAndCutQueue.cpp:176-193, `CalculateLowerBound`, statement by statement; the value is left in `num`, `flag` says that the
function has returned already. -/
def calcBody : List (Instr QState) :=
  [.act fun s r => if s.heap = [] ∧ s.count = 0 then (s, { r with num := -dblMax, flag := true }) else (s, { r with flag := false }),
   .act fun s r => if r.flag then (s, r) else (s, { r with num := match s.heap with | [] => dblMax | x :: _ => x.lb }),
   .act fun s r =>
     if r.flag then (s, r)
     else if s.count = 0 then (s, { r with num := min r.num dblMax })
     else match minElement s.workedOn with
       | none => (s, { r with leave := true, out := .q (.error (.ub "dereference end()")) })
       | some none => (s, { r with leave := true, out := .q (.error (.logic "bad_optional_access")) })
       | some (some v) => (s, { r with num := min r.num v })]

/-- BranchAndCutQueue.cpp:14-18, `GetLowerBound` -/
def getLowerBoundBody : List (Instr QState) :=
  .lock :: calcBody ++ [.act fun s r => (s, { r with out := .q (.ok (.bound r.num)) }), .unlock]

/-- BranchAndCutQueue.cpp:20-43, `Pop` for `n` threads.  The size of `m_workedOnLowerBounds`, which line 23 reads before taking
the mutex, never changes (it is set by the constructor, lines 7-8).  Lines 34-36 are one statement here. -/
def popBody (H : HeapImpl) (n t : Nat) : List (Instr QState) :=
  [.loc fun r => if t ≥ n then { r with leave := true, out := .q (.error (.logic "Wrong threadId")) } else r,
   .lock,
   .wait fun s => !s.cleared && s.heap.isEmpty && decide (s.count > 0),
   .act fun s r =>
     if s.cleared || (s.heap.isEmpty && decide (s.count = 0)) then (s, { r with leave := true, out := .q (.ok .nothing) }) else (s, r),
   .act fun s r =>
     match (H.pop s.heap).getLast? with
     | none => (s, { r with leave := true, out := .q (.error (.ub "back() of empty vector")) })
     | some d => ({ s with heap := (H.pop s.heap).dropLast }, { r with data := d }),
   .act fun s r => ({ s with workedOn := s.workedOn.set t (some r.data.lb) }, r),
   .act fun s r => ({ s with count := s.count + 1 }, { r with out := .q (.ok (.node r.data)) }),
   .unlock]

/-- BranchAndCutQueue.cpp:45-53, `ClearAll` (without the notification, line 52) -/
def clearAllBody : List (Instr QState) :=
  [.lock, .act fun s r => ({ s with cleared := true }, { r with out := .q (.ok .unit) }), .unlock]

/-- BranchAndCutQueue.cpp:55-66, `UpdateCurrentLowerBound` -/
def updateCurrentLowerBoundBody (t : Nat) (v : ℚ) : List (Instr QState) :=
  [.lock,
   .act fun s r =>
     match s.workedOn[t]? with
     | none => (s, { r with leave := true, out := .q (.error (.logic "out_of_range")) })
     | some none => (s, { r with leave := true, out := .q (.error (.logic "Thread does not have a node popped")) })
     | some (some w) => (s, { r with num := w }),
   .act fun s r =>
     if v < r.num then (s, { r with leave := true, out := .q (.error (.logic "Lower bound must not be decreased")) }) else (s, r),
   .act fun s r => ({ s with workedOn := s.workedOn.set t (some v) }, { r with out := .q (.ok .unit) }),
   .unlock]

/-- BranchAndCutQueue.cpp:68-89, 91-114, 116-156, the three pushes (without the notifications, lines 87-88, 112-113, 151-155):
a cleared queue ignores them, a bound below the queue's is refused, every node is inserted by `push_back` and `push_heap` -/
def pushBody (H : HeapImpl) (v : ℚ) (nodes : List SData) : List (Instr QState) :=
  .lock ::
  (.act fun s r => if s.cleared then (s, { r with leave := true, out := .q (.ok .unit) }) else (s, r)) ::
  calcBody ++
  [.act fun s r =>
     if v < r.num then (s, { r with leave := true, out := .q (.error (.logic "cannot push smaller lower bound")) })
     else (s, { r with out := .q (.ok .unit) })] ++
  nodes.map (fun d => .act fun s r => ({ s with heap := H.push (s.heap ++ [d]) }, r)) ++ [.unlock]

/-- BranchAndCutQueue.cpp:158-174, `NotifyNodeDone` (without the notification, lines 172-173) -/
def notifyDoneBody (t : Nat) : List (Instr QState) :=
  [.lock,
   .act fun s r =>
     match s.workedOn[t]? with
     | none => (s, { r with leave := true, out := .q (.error (.logic "out_of_range")) })
     | some none => (s, { r with leave := true, out := .q (.error (.logic "Thread does not have a node popped")) })
     | some (some _) => (s, r),
   .act fun s r => ({ s with workedOn := s.workedOn.set t none }, r),
   .act fun s r => ({ s with count := s.count - 1 }, { r with out := .q (.ok .unit) }),
   .unlock]

/-- the member functions of the queue (BranchAndCutQueue.cpp:14-174) for `n` threads -/
def queueBody (H : HeapImpl) (n : Nat) : QOp → List (Instr QState)
  | .getLowerBound => getLowerBoundBody
  | .pop t => popBody H n t
  | .clearAll => clearAllBody
  | .updateCurrentLowerBound t v => updateCurrentLowerBoundBody t v
  | .pushResult v => pushBody H v [{ lb := v, isResult := true }]
  | .push v f0 f1 => pushBody H v [{ lb := v, fixed0 := f0, fixed1 := f1 }]
  | .pushBranch v f0 f1 var rec0 => pushBody H v (branchNodes v f0 f1 var rec0)
  | .done t => notifyDoneBody t

/-- the member functions of the result (MtspResult.cpp:8-47) -/
def resultBody : ResOp → List (Instr ResState)
  | .getBounds => [.lock, .act fun s r => (s, { r with out := .b (some ⟨s.lower, s.upper⟩) }), .unlock]
  | .isTimeoutHit => [.lock, .act fun s r => (s, { r with flag := s.timeoutHit, out := .b none }), .unlock]
  | .setTimeoutHit => [.lock, .act fun s r => ({ s with timeoutHit := true }, { r with out := .b none }), .unlock]
  | .updUpper v p =>
    [.lock,
     .act fun s r => (s, { r with flag := decide (v < s.upper) }),
     .act fun s r => if r.flag then ({ s with paths := p }, r) else (s, r),
     .act fun s r => if r.flag then ({ s with upper := v }, r) else (s, r),
     .act fun s r => if r.flag then ({ s with lower := min s.lower s.upper }, r) else (s, r),
     .act fun s r => (s, { r with out := .b (some ⟨s.lower, s.upper⟩) }),
     .unlock]
  | .updLower v =>
    [.lock,
     .act fun s r => (s, { r with flag := decide (v ≥ s.lower) }),
     .act fun s r => if r.flag then ({ s with lower := min v s.upper }, r) else (s, r),
     .act fun s r => (s, { r with out := .b (some ⟨s.lower, s.upper⟩) }),
     .unlock]

/-- the member functions of the constraint deque (ConstraintDeque.hpp:24-30, ConstraintDeque.cpp:12-40; `PopToModel` has two
critical sections, which are two functions here) -/
def dequeBody : CDOp LinCon → List (Instr (CDeque LinCon))
  | .push cs => [.lock, .act fun s r => ({ s with deque := s.deque ++ cs }, { r with out := .d (.ok []) }), .unlock]
  | .read t =>
    [.lock,
     .act fun s r =>
       match s.readPos[t]? with
       | none => (s, { r with leave := true, out := .d (.error (.ub "m_readPositions[threadId]")) })
       | some p =>
         if p < 0 ∨ p > s.deque.length then (s, { r with leave := true, out := .d (.error (.ub "iterator out of range")) })
         else (s, { r with cons := s.deque.drop p.toNat }),
     .act fun s r => ({ s with readPos := s.readPos.set t s.deque.length }, { r with out := .d (.ok r.cons) }),
     .unlock]
  | .compact =>
    [.lock,
     .act fun s r =>
       match minInt s.readPos with
       | none => (s, { r with leave := true, out := .d (.error (.ub "dereference end()")) })
       | some m => (s, { r with int := m }),
     .act fun s r =>
       if r.int < 0 ∨ r.int > s.deque.length then (s, { r with leave := true, out := .d (.error (.ub "erase range")) })
       else ({ s with deque := s.deque.drop r.int.toNat }, r),
     .act fun s r => ({ s with readPos := s.readPos.map (· - r.int) }, { r with out := .d (.ok []) }),
     .unlock]

/-- A call of a member function of a shared object. -/
inductive Call where
  | queue (op : QOp)
  | result (op : ResOp)
  | deque (op : CDOp LinCon)
  /-- MtspResult.hpp:28 `GetPaths` -/
  | getPaths

/-- the object a call refers to -/
def Call.obj : Call → Obj
  | .queue _ => .queue
  | .result _ => .result
  | .deque _ => .deque
  | .getPaths => .result

/-- the statements of the called function; `GetPaths` (MtspResult.hpp:28) does not take the mutex, reading the paths through the
returned reference is one statement here -/
def Call.body (e : BEnv) : (c : Call) → List (Instr c.obj.St)
  | .queue op => queueBody e.H e.threads op
  | .result op => resultBody op
  | .deque op => dequeBody op
  | .getPaths => [.act fun (s : ResState) r => (s, { r with out := .paths s.paths })]

/-- A function call in execution: which one, the statements that are still to be executed, its local variables, and the inputs
(`Inp`) the caller's computation uses. -/
structure Frame where
  c : Call
  rest : List (Instr c.obj.St)
  reg : Reg
  i : Inp

/-- The state of the search: data members of the shared objects, owners of their mutexes, workers, function calls in execution, and
what observers have been told so far. -/
structure FState where
  sh : (o : Obj) → o.St
  own : Obj → Option Nat
  wk : Nat → Worker
  fr : Nat → Option Frame
  seen : List Ret

/-- the member function worker `t` calls next, see `Pc` for the lines (MtspModel.cpp:316-499); `none`: its next step touches no
shared object -/
def Worker.call (e : BEnv) (t : Nat) (i : Inp) (w : Worker) : Option Call :=
  match w.pc with
  | .head => some (.queue .getLowerBound)
  | .headUpd l => some (.result (.updLower l))
  | .clear => some (.queue .clearAll)
  | .pop => some (.queue (.pop t))
  | .resRead _ => some (.queue .getLowerBound)
  | .resUpd _ l => some (.result (.updLower l))
  | .read _ => some (.deque (.read t))
  | .compact _ => some (.deque .compact)
  | .solve _ => none
  | .raise lb _ _ => some (.queue (.updateCurrentLowerBound t lb))
  | .getLB _ _ _ => some (.queue .getLowerBound)
  | .updLB _ l _ _ => some (.result (.updLower l))
  | .exploit _ y _ =>
    match exploitCandidateF e.fl e.mode e.m (fun a u v => y (varId e.m.n a u v)) i.ticks with
    | .error _ => none
    | .ok (none, _) => some (.result .getBounds)
    | .ok (some (v, p), _) => some (.result (.updUpper v p))
  | .pushCuts cs _ => some (.deque (.push cs))
  | .push op => some (.queue op)
  | .getUpper _ _ => some (.result .getBounds)
  | .setUpper lb y =>
    match e.m.transformPathsBack (readPaths e.m.n e.m.starts e.m.ends y) with
    | .error _ => none
    | .ok p => some (.result (.updUpper lb p))
  | .done => some (.queue (.done t))
  | .left => none
  | .crashed _ => none

/-- a worker's step without any call (MtspModel.cpp:366-384 and exceptions) -/
def Worker.alone (e : BEnv) (i : Inp) (w : Worker) : Worker :=
  match w.pc with
  | .solve _ =>
    match i.ans with
    | .unbounded => { w with pc := .crashed (.logic "LP solution is unbounded") }
    | .error => { w with pc := .crashed (.logic "Unexpected error happened while solving LP") }
    | .timeout => { w with pc := .done }
    | .infeasible => { w with pc := .done }
    | .optimal y rc => { w with pc := .raise (ceilBound (e.obj.eval y)) y rc }
  | .exploit _ y _ =>
    match exploitCandidateF e.fl e.mode e.m (fun a u v => y (varId e.m.n a u v)) i.ticks with
    | .error er => { w with pc := .crashed er }
    | .ok _ => w
  | .setUpper _ y =>
    match e.m.transformPathsBack (readPaths e.m.n e.m.starts e.m.ends y) with
    | .error er => { w with pc := .crashed er }
    | .ok _ => w
  | _ => w

/-- what worker `t` does when its call has returned or thrown (MtspModel.cpp:316-499): the computation up to the next call -/
def Worker.resume (e : BEnv) (t : Nat) (i : Inp) (w : Worker) : Ret → Worker
  | .q (.error er) => { w with pc := .crashed er }
  | .d (.error er) => { w with pc := .crashed er }
  | .q (.ok o) =>
    match w.pc, o with
    | .head, .bound l => { w with pc := .headUpd l }
    | .resRead lb, .bound l => { w with pc := .resUpd lb l }
    | .getLB lb y rc, .bound l => { w with pc := .updLB lb l y rc }
    | .clear, _ => { w with pc := .left }
    | .pop, .nothing => { w with pc := .left }
    | .pop, .node d =>
      if d.isResult then
        match w.fix.skip with
        | .error er => { w with pc := .crashed er }
        | .ok f => { w with pc := .resRead d.lb, fix := f }
      else
        match w.fix.load d.fixed0 d.fixed1 with
        | .error er => { w with pc := .crashed er }
        | .ok f => { w with pc := .read d.lb, fix := f }
    | .raise lb y rc, _ => { w with pc := .getLB lb y rc }
    | .push _, _ => { w with pc := .done }
    | .done, _ => { w with pc := .head }
    | _, _ => w
  | .d (.ok cs) =>
    match w.pc with
    | .read lb => { w with cuts := w.cuts ++ cs, pc := if t = 0 then .compact lb else .solve lb }
    | .compact lb => { w with pc := .solve lb }
    | .pushCuts _ op => { w with pc := .push op }
    | _ => w
  | .b (some b) =>
    match w.pc with
    | .headUpd _ => if b.Lower ≥ b.Upper then { w with pc := .clear } else if i.late then { w with pc := .clear } else { w with pc := .pop }
    | .resUpd lb _ => if lb > b.Lower then { w with pc := .push (.pushResult lb) } else { w with pc := .done }
    | .updLB lb _ y rc => if 5 / 2 * lb > b.Upper then { w with pc := .exploit lb y rc } else w.evaluate e lb b.Upper y rc
    | .exploit lb y rc => w.evaluate e lb b.Upper y rc
    | .getUpper lb y => if lb < b.Upper then { w with pc := .setUpper lb y } else { w with pc := .push (.pushResult lb) }
    | .setUpper lb _ => { w with pc := .push (.pushResult lb) }
    | _ => w
  | _ => w

/-- the statements that follow one after which the local variables are `r`: when a function is left, the destructor of the lock it
holds still runs -/
def Instr.next {σ : Type} (held : Bool) (l : List (Instr σ)) (r : Reg) : List (Instr σ) :=
  if r.leave then (if held then [.unlock] else []) else l

/-- thread `t` executes the next statement of its function call -/
inductive FMicro (t : Nat) (f : FState) : FState → Prop
  | loc (c : Call) (g : Reg → Reg) (l : List (Instr c.obj.St)) (r : Reg) (i : Inp) : f.fr t = some ⟨c, .loc g :: l, r, i⟩ →
      FMicro t f { f with fr := Function.update f.fr t (some ⟨c, Instr.next (decide (f.own c.obj = some t)) l (g r), g r, i⟩) }
  | lock (c : Call) (l : List (Instr c.obj.St)) (r : Reg) (i : Inp) : f.fr t = some ⟨c, .lock :: l, r, i⟩ → f.own c.obj = none →
      FMicro t f { f with own := Function.update f.own c.obj (some t), fr := Function.update f.fr t (some ⟨c, l, r, i⟩) }
  /-- the condition is false: the loop ends -/
  | pass (c : Call) (p : c.obj.St → Bool) (l : List (Instr c.obj.St)) (r : Reg) (i : Inp) : f.fr t = some ⟨c, .wait p :: l, r, i⟩ →
      p (f.sh c.obj) = false → FMicro t f { f with fr := Function.update f.fr t (some ⟨c, l, r, i⟩) }
  /-- the condition is true: the mutex is released, and taken again before the condition is tested again -/
  | block (c : Call) (p : c.obj.St → Bool) (l : List (Instr c.obj.St)) (r : Reg) (i : Inp) : f.fr t = some ⟨c, .wait p :: l, r, i⟩ →
      p (f.sh c.obj) = true →
      FMicro t f { f with own := Function.update f.own c.obj none, fr := Function.update f.fr t (some ⟨c, .lock :: .wait p :: l, r, i⟩) }
  | act (c : Call) (g : c.obj.St → Reg → c.obj.St × Reg) (l : List (Instr c.obj.St)) (r : Reg) (i : Inp) :
      f.fr t = some ⟨c, .act g :: l, r, i⟩ →
      FMicro t f { f with
        sh := Function.update f.sh c.obj (g (f.sh c.obj) r).1
        fr := Function.update f.fr t (some ⟨c, Instr.next (decide (f.own c.obj = some t)) l (g (f.sh c.obj) r).2, (g (f.sh c.obj) r).2, i⟩) }
  | unlock (c : Call) (l : List (Instr c.obj.St)) (r : Reg) (i : Inp) : f.fr t = some ⟨c, .unlock :: l, r, i⟩ →
      FMicro t f { f with own := Function.update f.own c.obj none, fr := Function.update f.fr t (some ⟨c, l, r, i⟩) }

/-- the state as Model/BranchAndCut.lean sees it -/
def FState.core (f : FState) : BState := ⟨f.sh .queue, f.sh .result, f.sh .deque, f.wk⟩

/-- One step of thread `t`; threads below `e.threads` are the workers, all others are observers, which may call the functions in
`obs`. -/
inductive FStep (e : BEnv) (obs : Call → Prop) (t : Nat) (f : FState) : FState → Prop
  /-- a statement of a function that is being executed -/
  | micro (f' : FState) : FMicro t f f' → FStep e obs t f f'
  /-- a worker's step without shared objects -/
  | alone (i : Inp) : t < e.threads → f.fr t = none → i.Ok e f.core t → (f.wk t).call e t i = none →
      FStep e obs t f { f with wk := Function.update f.wk t ((f.wk t).alone e i) }
  /-- a worker calls a function -/
  | enter (i : Inp) (c : Call) : t < e.threads → f.fr t = none → i.Ok e f.core t → (f.wk t).call e t i = some c →
      FStep e obs t f { f with fr := Function.update f.fr t (some ⟨c, c.body e, {}, i⟩) }
  /-- the function returns or throws, the worker goes on -/
  | ret (c : Call) (r : Reg) (i : Inp) : t < e.threads → f.fr t = some ⟨c, [], r, i⟩ →
      FStep e obs t f { f with fr := Function.update f.fr t none, wk := Function.update f.wk t ((f.wk t).resume e t i r.out) }
  /-- an observer calls a function -/
  | ask (c : Call) (i : Inp) : ¬ t < e.threads → f.fr t = none → obs c →
      FStep e obs t f { f with fr := Function.update f.fr t (some ⟨c, c.body e, {}, i⟩) }
  /-- the observer is told the result -/
  | told (c : Call) (r : Reg) (i : Inp) : ¬ t < e.threads → f.fr t = some ⟨c, [], r, i⟩ →
      FStep e obs t f { f with fr := Function.update f.fr t none, seen := f.seen ++ [r.out] }

/-- the shared objects of a state of Model/BranchAndCut.lean -/
def BState.sh (s : BState) : (o : Obj) → o.St
  | .queue => s.q
  | .result => s.res
  | .deque => s.deque

/-- MtspModel.cpp:304-314: the start of the search, nobody is inside a function -/
def FState.of (s : BState) : FState := { sh := s.sh, own := fun _ => none, wk := s.wk, fr := fun _ => none, seen := [] }

/-- All executions (MtspModel.cpp:304-508), statement by statement, with any schedule and any inputs. -/
inductive FRun (e : BEnv) (obs : Call → Prop) (r : ResState) : FState → Prop
  | start (s : BState) : BState.start e r = .ok s → FRun e obs r (FState.of s)
  | step (f f' : FState) (t : Nat) : FRun e obs r f → FStep e obs t f f' → FRun e obs r f'

end Mtsp
