import Verif.Model.InitialResult
import Verif.Model.Doubles
import Verif.Model.Fixing
import Verif.Model.CutsRounded
import Verif.Model.Queue
import Verif.Model.Deque
import Verif.Model.Result
import Verif.Spec.LPSolver
import Mathlib.Data.Rat.Floor

/-!
Model of `MtspModel::BranchAndCutSolve` (tsplp/src/MtspModel.cpp:282-521): any number of workers, each
running the loop of lines 316-499, over the shared queue, result and constraint deque.

Every critical section of a shared object is one step; a worker's local computation is part of the step
before it.  What a step cannot know is an input (`Inp`): whether the deadline has passed, the answer of the
LP solver, how many more deadline checks succeed inside a heuristic.  Waiting in `Pop` is a step that changes
nothing (the condition variable is the subject of Model/QueueConc.lean).  The user's callback
(lines 395-399) has no effect on the search; what it is given is modelled in Model/Callback.lean.
-/

namespace Mtsp

/-- What does not change during the search: the preprocessed instance, the mode, the number of threads, the
LP columns, the library functions the search relies on, and the rounding `fl` of the floating-point operations in the
heuristics and the separation. -/
structure BEnv where
  m : WM
  mode : Mode
  threads : Nat
  cols : LPModel
  H : HeapImpl
  sw : GlobalCut
  mf : MaxFlow
  gh : CutStream
  fl : ℚ → ℚ

/-- MtspModel.cpp:89-94: the objective function -/
def BEnv.obj (e : BEnv) : LinComp := (createObjective e.mode e.m.starts.length e.m.n e.m.w).1

/-- MtspModel.cpp:90-91, 96-279: the rows of the LP before any cut -/
def BEnv.rows0 (e : BEnv) : List LinCon :=
  (createObjective e.mode e.m.starts.length e.m.n e.m.w).2 ++
    buildConstraints e.m.n e.m.starts e.m.ends e.m.deps.arcs

/-- MtspModel.cpp:80-87: the columns of the LP: `A * N * N` binary variables, in Max mode one more -/
def makeCols (mode : Mode) (A N : Nat) : Except Err LPModel :=
  match LPModel.make (A * N * N) with
  | .error e => .error e
  | .ok M =>
    match mode with
    | .sum => .ok M
    | .max => (M.addVariable 0 dblMax).map Prod.snd

/-- The program counter of a worker; the data are its local variables that are still needed. -/
inductive Pc where
  /-- MtspModel.cpp:318, `queue.GetLowerBound()` -/
  | head
  /-- MtspModel.cpp:318-334, `UpdateLowerBound`, the two tests, unfixing -/
  | headUpd (l : ℚ)
  /-- MtspModel.cpp:322, 328, `ClearAll` -/
  | clear
  /-- MtspModel.cpp:336, `Pop` -/
  | pop
  /-- MtspModel.cpp:346-347, `queue.GetLowerBound()` for a result node -/
  | resRead (lb : ℚ)
  /-- MtspModel.cpp:346-352, `UpdateLowerBound` for a result node -/
  | resUpd (lb l : ℚ)
  /-- MtspModel.cpp:364, `PopToModel`, first critical section -/
  | read (lb : ℚ)
  /-- the same, second critical section (thread 0 only, ConstraintDeque.cpp:28-39) -/
  | compact (lb : ℚ)
  /-- MtspModel.cpp:366-382, solving the LP -/
  | solve (lb : ℚ)
  /-- MtspModel.cpp:386, `UpdateCurrentLowerBound` -/
  | raise (lb : ℚ) (y rc : Nat → ℚ)
  /-- MtspModel.cpp:388, `queue.GetLowerBound()` -/
  | getLB (lb : ℚ) (y rc : Nat → ℚ)
  /-- MtspModel.cpp:388-390, `UpdateLowerBound` -/
  | updLB (lb l : ℚ) (y rc : Nat → ℚ)
  /-- MtspModel.cpp:402-403, `ExploitFractionalSolution` -/
  | exploit (lb : ℚ) (y rc : Nat → ℚ)
  /-- MtspModel.cpp:442, 449, 456, 463, 470, `constraints.Push`, then the queue operation -/
  | pushCuts (cs : List LinCon) (op : QOp)
  /-- MtspModel.cpp:352, 410, 443, 450, 457, 464, 472, 489, 495, a push to the queue -/
  | push (op : QOp)
  /-- MtspModel.cpp:483, `GetBounds` -/
  | getUpper (lb : ℚ) (y : Nat → ℚ)
  /-- MtspModel.cpp:485-486, `UpdateUpperBound` -/
  | setUpper (lb : ℚ) (y : Nat → ℚ)
  /-- end of the loop body, `NotifyNodeDone` (BranchAndCutQueue.hpp:44-48) -/
  | done
  /-- the loop has been left -/
  | left
  /-- an exception or undefined behaviour -/
  | crashed (e : Err)

/-- A worker: program counter, the cuts its own copy of the LP has received, column bounds and remembered
fixings (MtspModel.cpp:310-314). -/
structure Worker where
  pc : Pc
  cuts : List LinCon
  fix : FixState

/-- The state of the search. -/
structure BState where
  q : QState
  res : ResState
  deque : CDeque LinCon
  wk : Nat → Worker

/-- Inputs of a step: has the deadline passed, the LP solver's answer, remaining successful deadline checks. -/
structure Inp where
  late : Bool
  ans : LPAnswer
  ticks : Nat

/-- the LP a worker has in front of it -/
def BEnv.prob (e : BEnv) (w : Worker) : LPProb := ⟨e.obj, e.rows0 ++ w.cuts, w.fix.model⟩

/-- MtspModel.cpp:383-384 -/
def ceilBound (v : ℚ) : ℚ := ((⌈v - 1 / 10 ^ 10⌉ : ℤ) : ℚ)

/-- MtspModel.cpp:415-438: one iteration of reduced cost fixing -/
def rcStep (e : BEnv) (M : LPModel) (lb ub : ℚ) (y rc : Nat → ℚ) (s : List Nat × List Nat) (v : Nat) :
    Except Err (List Nat × List Nat) :=
  if M.bounds v = (some 0, some 1) then
    if y v < 1 / 10 ^ 10 ∧ lb + rc v ≥ ub + 1 / 10 ^ 10 then .ok (s.1 ++ [v], s.2)
    else if y v > 1 - 1 / 10 ^ 10 ∧ lb - rc v ≥ ub + 1 / 10 ^ 10 then
      match calcFixable e.m.n e.m.starts e.m.ends e.m.deps v with
      | .error er => .error er
      | .ok r => .ok (s.1 ++ r, s.2 ++ [v])
    else .ok s
  else .ok s

/-- MtspModel.cpp:415-438: reduced cost fixing; the variables to append to the two lists -/
def rcFix (e : BEnv) (M : LPModel) (lb ub : ℚ) (y rc : Nat → ℚ) : List Nat → List Nat × List Nat →
    Except Err (List Nat × List Nat)
  | [], s => .ok s
  | v :: vs, s =>
    match rcStep e M lb ub y rc s v with
    | .error er => .error er
    | .ok s' => rcFix e M lb ub y rc vs s'

/-- MtspModel.cpp:440-474: the first separator that finds something, in the order of the code -/
def separate (e : BEnv) (y : Nat → ℚ) : List LinCon :=
  match ucutF e.fl e.sw e.m.starts.length e.m.n y with
  | some c => [c]
  | none =>
    match piSigmaCutF e.fl e.mf e.m.n e.m.starts e.m.deps y with
    | some c => [c]
    | none =>
      match piCutF e.fl e.mf e.m.n e.m.starts e.m.ends e.m.deps y with
      | some c => [c]
      | none =>
        match sigmaCutF e.fl e.mf e.m.n e.m.starts e.m.deps y with
        | some c => [c]
        | none => twoMatchingGF e.fl e.gh e.m.starts.length e.m.n y

/-- MtspModel.cpp:408-497, the local part: what to do with a solved node when the upper bound is `ub` -/
def Worker.evaluate (e : BEnv) (w : Worker) (lb ub : ℚ) (y rc : Nat → ℚ) : Worker :=
  if lb ≥ ub then { w with pc := .push (.pushResult lb) }
  else
    match rcFix e w.fix.model lb ub y rc (List.range w.fix.model.nBin) ([], []) with
    | .error er => { w with pc := .crashed er }
    | .ok (e0, e1) =>
      let fix := w.fix.remember e0 e1
      match separate e y with
      | c :: cs => { w with fix := fix, pc := .pushCuts (c :: cs) (.push lb fix.fixed0 fix.fixed1) }
      | [] =>
        match findFractional e.fl w.fix.model.nBin y with
        | none => { w with fix := fix, pc := .getUpper lb y }
        | some v =>
          match calcFixable e.m.n e.m.starts e.m.ends e.m.deps v with
          | .error er => { w with pc := .crashed er }
          | .ok r => { w with fix := fix, pc := .push (.pushBranch lb fix.fixed0 fix.fixed1 v r) }

/-- the state after worker `t` has changed to `w` -/
def BState.setWk (s : BState) (t : Nat) (w : Worker) : BState := { s with wk := fun u => if u = t then w else s.wk u }

/-- the state after worker `t` has changed its program counter -/
def BState.goto (s : BState) (t : Nat) (pc : Pc) : BState := s.setWk t { s.wk t with pc := pc }

/-- One step of worker `t`, see `Pc` for the lines. -/
def BState.step (e : BEnv) (s : BState) (t : Nat) (i : Inp) : BState :=
  match (s.wk t).pc with
  | .head =>
    match s.q.calcLB with
    | .error er => s.goto t (.crashed er)
    | .ok l => s.goto t (.headUpd l)
  | .headUpd l =>
    let r := s.res.updateLowerBound l
    let s := { s with res := r.1 }
    if r.2.Lower ≥ r.2.Upper then s.goto t .clear
    else if i.late then s.goto t .clear
    else s.goto t .pop
  | .clear => { s with q := s.q.clearAll }.goto t .left
  | .pop =>
    match s.q.pop e.H t with
    | (.error er, q) => { s with q := q }.goto t (.crashed er)
    | (.ok .nothing, q) => { s with q := q }.goto t .left
    | (.ok (.node d), q) =>
      if d.isResult then
        match (s.wk t).fix.skip with
        | .error er => { s with q := q }.goto t (.crashed er)
        | .ok f => { s with q := q }.setWk t { s.wk t with pc := .resRead d.lb, fix := f }
      else
        match (s.wk t).fix.load d.fixed0 d.fixed1 with
        | .error er => { s with q := q }.goto t (.crashed er)
        | .ok f => { s with q := q }.setWk t { s.wk t with pc := .read d.lb, fix := f }
    | (.ok _, _) => s
  | .resRead lb =>
    match s.q.calcLB with
    | .error er => s.goto t (.crashed er)
    | .ok l => s.goto t (.resUpd lb l)
  | .resUpd lb l =>
    let r := s.res.updateLowerBound l
    let s := { s with res := r.1 }
    if lb > r.2.Lower then s.goto t (.push (.pushResult lb)) else s.goto t .done
  | .read lb =>
    match s.deque.step (.read t) with
    | (.error er, d) => { s with deque := d }.goto t (.crashed er)
    | (.ok cs, d) =>
      { s with deque := d }.setWk t
        { s.wk t with cuts := (s.wk t).cuts ++ cs, pc := if t = 0 then .compact lb else .solve lb }
  | .compact lb =>
    match s.deque.step .compact with
    | (.error er, d) => { s with deque := d }.goto t (.crashed er)
    | (.ok _, d) => { s with deque := d }.goto t (.solve lb)
  | .solve _ =>
    match i.ans with
    | .unbounded => s.goto t (.crashed (.logic "LP solution is unbounded"))
    | .error => s.goto t (.crashed (.logic "Unexpected error happened while solving LP"))
    | .timeout => s.goto t .done
    | .infeasible => s.goto t .done
    | .optimal y rc => s.goto t (.raise (ceilBound (e.obj.eval y)) y rc)
  | .raise lb y rc =>
    match s.q.updateCurrentLowerBound t lb with
    | (.error er, q) => { s with q := q }.goto t (.crashed er)
    | (.ok _, q) => { s with q := q }.goto t (.getLB lb y rc)
  | .getLB lb y rc =>
    match s.q.calcLB with
    | .error er => s.goto t (.crashed er)
    | .ok l => s.goto t (.updLB lb l y rc)
  | .updLB lb l y rc =>
    let r := s.res.updateLowerBound l
    let s := { s with res := r.1 }
    if 5 / 2 * lb > r.2.Upper then s.goto t (.exploit lb y rc)
    else s.setWk t ((s.wk t).evaluate e lb r.2.Upper y rc)
  | .exploit lb y rc =>
    match exploitCandidateF e.fl e.mode e.m (fun a u v => y (varId e.m.n a u v)) i.ticks with
    | .error er => s.goto t (.crashed er)
    | .ok (none, _) => s.setWk t ((s.wk t).evaluate e lb s.res.getBounds.Upper y rc)
    | .ok (some (v, p), _) =>
      let r := s.res.updateUpperBound v p
      { s with res := r.1 }.setWk t ((s.wk t).evaluate e lb r.2.Upper y rc)
  | .pushCuts cs op =>
    match s.deque.step (.push cs) with
    | (.error er, d) => { s with deque := d }.goto t (.crashed er)
    | (.ok _, d) => { s with deque := d }.goto t (.push op)
  | .push op =>
    match s.q.step e.H op with
    | (.error er, q) => { s with q := q }.goto t (.crashed er)
    | (.ok _, q) => { s with q := q }.goto t .done
  | .getUpper lb y =>
    if lb < s.res.getBounds.Upper then s.goto t (.setUpper lb y) else s.goto t (.push (.pushResult lb))
  | .setUpper lb y =>
    match e.m.transformPathsBack (readPaths e.m.n e.m.starts e.m.ends y) with
    | .error er => s.goto t (.crashed er)
    | .ok p => { s with res := (s.res.updateUpperBound lb p).1 }.goto t (.push (.pushResult lb))
  | .done =>
    match s.q.notifyDone t with
    | (.error er, q) => { s with q := q }.goto t (.crashed er)
    | (.ok _, q) => { s with q := q }.goto t .head
  | .left => s
  | .crashed _ => s

/-- MtspModel.cpp:304-314: fresh queue with the root node, fresh deque, all workers at the head of their loop
with their own copy of the LP -/
def BState.start (e : BEnv) (r : ResState) : Except Err BState :=
  match QState.new e.threads with
  | .error er => .error er
  | .ok q =>
    match q.step e.H (.push 0 [] []) with
    | (.error er, _) => .error er
    | (.ok _, q) => .ok ⟨q, r, CDeque.new LinCon e.threads, fun _ => ⟨.head, [], ⟨e.cols, [], []⟩⟩⟩

/-- the input is possible: an LP answer is correct for the LP the worker has in front of it -/
def Inp.Ok (e : BEnv) (s : BState) (t : Nat) (i : Inp) : Prop :=
  match (s.wk t).pc with
  | .solve _ => i.ans.Correct (e.prob (s.wk t))
  | _ => True

/-- All executions of the workers from the result `r` that the constructor left: any schedule, any inputs.
The list records who stepped with which input. -/
inductive BRun (e : BEnv) (r : ResState) : List (Nat × Inp) → BState → Prop
  | start (s : BState) : BState.start e r = .ok s → BRun e r [] s
  | step (tr : List (Nat × Inp)) (s : BState) (t : Nat) (i : Inp) : BRun e r tr s → t < e.threads → i.Ok e s t →
      BRun e r (tr ++ [(t, i)]) (s.step e t i)

/-- MtspModel.cpp:510-521: after all workers have left -/
def BState.finish (s : BState) (late : Bool) : Except Err ResState :=
  if s.res.getBounds.Lower < s.res.getBounds.Upper then
    if late then .ok s.res.setTimeoutHit
    else .error (.logic "Timeout not reached, but no optimal solution found.")
  else .ok s.res

end Mtsp
