import Verif.Model.BranchAndCut

/-!
Model of the class `MtspModel` as a whole (constructor and `BranchAndCutSolve`, tsplp/src/MtspModel.cpp:58-521), of the C
function `solve_mtsp_vrp` (mtsp-vrp-c/src/mtsp-vrp-c.cpp) and of the Python wrapper (python/mtsp_vrp.py).

The clock is a number of deadline checks `now() < m_endTime` that still succeed; it is handed on from the
constructor to `BranchAndCutSolve`, so a deadline that has passed stays passed.
Not modelled: lack of memory, and the user's callback (it only receives a copy of the LP values).
-/

namespace Mtsp

/-- the library functions and the machine the solver runs on; `hw` is `std::thread::hardware_concurrency()`,
`fl` the rounding of floating-point operations -/
structure Lib where
  H : HeapImpl
  sw : GlobalCut
  mf : MaxFlow
  gh : CutStream
  hw : Nat
  fl : ℚ → ℚ

/-- what the constructor of `MtspModel` leaves behind: `m_weightManager`, `m_optimizationMode`, `m_bestResult`, the
columns of `m_model` (`none`: the constructor returned before creating them) and the clock -/
structure Solver where
  m : WM
  mode : Mode
  res : ResState
  cols : Option LPModel
  ticks : Nat

/-- `k` deadline checks in a row: `none` if one of them notices that the time is up -/
def spend (k t : Nat) : Option Nat := if k ≤ t then some (t - k) else none

/-- MtspModel.cpp:58-280, the constructor.  After the initial result there is one deadline check (line 74), then one after
the diagonal rows (104), one after the degree rows (150), one per dependency (251) and one per node in the loop for
the cycles of length 2 (272).  The rows themselves are `BEnv.rows0`. -/
def Solver.make (rows cols : Nat) (w : Weights) (starts ends : List Nat) (mode : Mode) (t : Nat) : Except Err Solver :=
  match WM.make rows cols w starts ends with
  | .error e => .error e
  | .ok m =>
    match createInitialResult mode m t ResState.init with
    | .error e => .error e
    | .ok (r, t1) =>
      match spend 1 t1 with
      | none => .ok ⟨m, mode, r.setTimeoutHit, none, 0⟩
      | some t2 =>
        match makeCols mode m.starts.length m.n with
        | .error e => .error e
        | .ok c =>
          match spend (2 + m.deps.arcs.length + m.n) t2 with
          | none => .ok ⟨m, mode, r.setTimeoutHit, some c, 0⟩
          | some t3 => .ok ⟨m, mode, r, some c, t3⟩

/-- MtspModel.cpp:58-280, the constructor once more, with the floating-point operations of its heuristic rounded by `fl` -/
def Solver.makeF (fl : ℚ → ℚ) (rows cols : Nat) (w : Weights) (starts ends : List Nat) (mode : Mode) (t : Nat) : Except Err Solver :=
  match WM.make rows cols w starts ends with
  | .error e => .error e
  | .ok m =>
    match createInitialResultF fl mode m t ResState.init with
    | .error e => .error e
    | .ok (r, t1) =>
      match spend 1 t1 with
      | none => .ok ⟨m, mode, r.setTimeoutHit, none, 0⟩
      | some t2 =>
        match makeCols mode m.starts.length m.n with
        | .error e => .error e
        | .ok c =>
          match spend (2 + m.deps.arcs.length + m.n) t2 with
          | none => .ok ⟨m, mode, r.setTimeoutHit, some c, 0⟩
          | some t3 => .ok ⟨m, mode, r, some c, t3⟩

/-- MtspModel.cpp:288-289 -/
def threadCount (hw given : Nat) : Nat := if given > 0 then given else hw

/-- the environment of the search that `BranchAndCutSolve` starts -/
def Solver.env (L : Lib) (given : Nat) (S : Solver) (c : LPModel) : BEnv :=
  ⟨S.m, S.mode, threadCount L.hw given, c, L.H, L.sw, L.mf, L.gh, L.fl⟩

/-- How a call ends: it returns, an exception leaves it, or the process is terminated (`std::terminate`). -/
inductive Outcome (α : Type) where
  | ok (a : α)
  | exc (e : Err)
  | terminated

/-- MtspModel.cpp:282-521, `BranchAndCutSolve` with `noOfThreads = given`: the possible outcomes.  The list is the
schedule of the search with the inputs of each step; it is empty if there was no search.
An exception in a worker leaves the call if there is only this one thread; otherwise the process is terminated: either
it left the function of another thread, or the destructor of the joinable threads is run (lines 501-508).
A deadline that was noticed in the search has passed at its end as well. -/
inductive Solver.Solve (L : Lib) (given : Nat) (S : Solver) : List (Nat × Inp) → Outcome ResState → Prop
  /-- line 291: the deadline has passed already -/
  | late : S.ticks = 0 → Solve L given S [] (.ok S.res.setTimeoutHit)
  /-- line 304, the constructor of the queue throws -/
  | refused (c : LPModel) (er : Err) : 0 < S.ticks → S.cols = some c → BState.start (S.env L given c) S.res = .error er →
      Solve L given S [] (.exc er)
  /-- all workers have left their loops, lines 510-520 -/
  | finished (c : LPModel) (tr : List (Nat × Inp)) (s : BState) (late : Bool) (r : ResState) : 0 < S.ticks → S.cols = some c →
      BRun (S.env L given c) S.res tr s → (∀ u < threadCount L.hw given, (s.wk u).pc = .left) →
      (∀ x ∈ tr, x.2.late = true → late = true) → s.finish late = .ok r → Solve L given S tr (.ok r)
  /-- line 516 -/
  | unfinished (c : LPModel) (tr : List (Nat × Inp)) (s : BState) (late : Bool) (er : Err) : 0 < S.ticks → S.cols = some c →
      BRun (S.env L given c) S.res tr s → (∀ u < threadCount L.hw given, (s.wk u).pc = .left) →
      (∀ x ∈ tr, x.2.late = true → late = true) → s.finish late = .error er → Solve L given S tr (.exc er)
  /-- an exception in the only worker -/
  | failed (c : LPModel) (tr : List (Nat × Inp)) (s : BState) (er : Err) : 0 < S.ticks → S.cols = some c →
      BRun (S.env L given c) S.res tr s → threadCount L.hw given = 1 → (s.wk 0).pc = .crashed er →
      Solve L given S tr (.exc er)
  /-- an exception in one of several workers -/
  | aborted (c : LPModel) (tr : List (Nat × Inp)) (s : BState) (er : Err) (u : Nat) : 0 < S.ticks → S.cols = some c →
      BRun (S.env L given c) S.res tr s → 2 ≤ threadCount L.hw given → u < threadCount L.hw given →
      (s.wk u).pc = .crashed er → Solve L given S tr .terminated

/-! ### The C function -/

/-- The arguments of `solve_mtsp_vrp` (mtsp-vrp-c/include/mtsp-vrp-c.h:31-35).  Arrays are functions of the index; `none` is a
null pointer.  The out parameters are only checked for null here. -/
structure CArgs where
  A : Nat
  N : Nat
  starts : Option (Nat → Nat)
  ends : Option (Nat → Nat)
  weights : Option (Nat → ℤ)
  mode : ℤ
  threads : Nat
  lowerNull : Bool := false
  upperNull : Bool := false
  pathsNull : Bool := false
  offsetsNull : Bool := false

/-- the memory behind the out parameters; `none`: not written by the call -/
structure COut where
  lower : Option ℚ := none
  upper : Option ℚ := none
  paths : Nat → Option Nat := fun _ => none
  offsets : Nat → Option Nat := fun _ => none

/-- nothing has been written -/
def COut.untouched : COut := {}

/-- How a call of the C function ends. -/
inductive CEnd where
  | ret (code : ℤ) (out : COut)
  /-- undefined behaviour -/
  | undefined
  /-- the process has been terminated -/
  | terminated

/-- `size_t` arithmetic is modulo 2^64 -/
def wrap64 (n : Nat) : Nat := n % 2 ^ 64

/-- mtsp-vrp-c.cpp:20 -/
def CArgs.badSize (a : CArgs) : Bool := a.A = 0 || a.N < 2 || decide (wrap64 (a.A * 2) > a.N)

/-- mtsp-vrp-c.cpp:23-25 -/
def CArgs.badPointer (a : CArgs) : Bool :=
  a.starts.isNone || a.ends.isNone || a.weights.isNone || a.lowerNull || a.upperNull || a.pathsNull || a.offsetsNull

/-- mtsp-vrp-c.cpp:28-29 -/
def CArgs.badMode (a : CArgs) : Bool := a.mode ≠ 0 && a.mode ≠ 1

/-- mtsp-vrp-c.cpp:32-40: the arguments as the constructor gets them -/
def CArgs.startList (a : CArgs) : List Nat := (List.range a.A).map (a.starts.getD fun _ => 0)
def CArgs.endList (a : CArgs) : List Nat := (List.range a.A).map (a.ends.getD fun _ => 0)
def CArgs.weight (a : CArgs) : Weights := fun i j => ((a.weights.getD fun _ => 0) (i * a.N + j) : ℤ)
def CArgs.opt (a : CArgs) : Mode := if a.mode = 0 then .sum else .max

/-- mtsp-vrp-c.cpp:95-106: what becomes of an exception.  Undefined behaviour is not an exception. -/
def catchCode : Err → Option ℤ
  | .cyclic => some (-5)
  | .incompatible => some (-6)
  | .ub _ => none
  | _ => some (-2147483648)

/-- `std::copy_n(p.begin(), k, paths + off)` -/
def COut.copyN (o : COut) (p : List Nat) (k off : Nat) : COut :=
  { o with paths := fun i => if off ≤ i ∧ i < off + k then p[i - off]? else o.paths i }

/-- mtsp-vrp-c.cpp:77-87, the loop over the agents from agent `a` on.  `none`: undefined behaviour (indexing `GetPaths()`
out of range, copying more than there is; `--length` of an empty path wraps around). -/
def copyPaths (P : Paths) (starts ends : List Nat) : List Nat → Nat → COut → Option COut
  | [], _, o => some o
  | a :: as, off, o =>
    let o1 := { o with offsets := fun i => if i = a then some off else o.offsets i }
    match P[a]? with
    | none => none
    | some p =>
      if starts[a]? = ends[a]? then
        if p.length = 0 then none
        else copyPaths P starts ends as (off + (p.length - 1)) (o1.copyN p (p.length - 1) off)
      else copyPaths P starts ends as (off + p.length) (o1.copyN p p.length off)

/-- mtsp-vrp-c.cpp:66-93: after solving -/
def CArgs.report (a : CArgs) (r : ResState) : CEnd :=
  let o : COut := { lower := some r.getBounds.Lower, upper := some r.getBounds.Upper }
  if !r.timeoutHit && r.getBounds.Upper = dblMax then .ret (-2) o
  else if r.timeoutHit && r.getBounds.Upper = dblMax then .ret (-1) o
  else
    match copyPaths r.paths a.startList a.endList (List.range a.A) 0 o with
    | none => .undefined
    | some o => if r.getBounds.Lower ≥ r.getBounds.Upper then .ret 0 o else .ret 1 o

/-- mtsp-vrp-c.cpp:95-106 -/
def caught (e : Err) : CEnd :=
  match catchCode e with
  | none => .undefined
  | some c => .ret c COut.untouched

/-- mtsp-vrp-c.cpp:42-106, after the checks; `t` is the clock (the time limit) -/
inductive CArgs.Try (L : Lib) (t : Nat) (a : CArgs) : List (Nat × Inp) → CEnd → Prop
  | ctor (e : Err) : Solver.make a.N a.N a.weight a.startList a.endList a.opt t = .error e → Try L t a [] (caught e)
  | solved (S : Solver) (tr : List (Nat × Inp)) (r : ResState) :
      Solver.make a.N a.N a.weight a.startList a.endList a.opt t = .ok S → S.Solve L a.threads tr (.ok r) →
      Try L t a tr (a.report r)
  | thrown (S : Solver) (tr : List (Nat × Inp)) (e : Err) :
      Solver.make a.N a.N a.weight a.startList a.endList a.opt t = .ok S → S.Solve L a.threads tr (.exc e) →
      Try L t a tr (caught e)
  | terminated (S : Solver) (tr : List (Nat × Inp)) :
      Solver.make a.N a.N a.weight a.startList a.endList a.opt t = .ok S → S.Solve L a.threads tr .terminated →
      Try L t a tr .terminated

/-- mtsp-vrp-c.cpp:12-107, `solve_mtsp_vrp`: the possible ends of a call -/
inductive CArgs.Call (L : Lib) (t : Nat) (a : CArgs) : List (Nat × Inp) → CEnd → Prop
  | size : a.badSize = true → Call L t a [] (.ret (-3) COut.untouched)
  | pointer : a.badSize = false → a.badPointer = true → Call L t a [] (.ret (-4) COut.untouched)
  | mode : a.badSize = false → a.badPointer = false → a.badMode = true → Call L t a [] (.ret (-7) COut.untouched)
  | run (tr : List (Nat × Inp)) (x : CEnd) : a.badSize = false → a.badPointer = false → a.badMode = false → a.Try L t tr x →
      Call L t a tr x

/-! ### The Python function -/

/-- python/mtsp_vrp.py:46-47: `pathsBuffer` and `offsets` start as zeros -/
def COut.bufferAt (o : COut) (i : Nat) : Nat := (o.paths i).getD 0
def COut.offsetAt (o : COut) (a : Nat) : Nat := (o.offsets a).getD 0

/-- python/mtsp_vrp.py:66-69: the slice `pathsBuffer[start:end]` of agent `a`; the buffer has `2 * A + N` entries -/
def pyPath (A N : Nat) (o : COut) (a : Nat) : List Nat :=
  let lo := o.offsetAt a
  let hi := if a + 1 < A then o.offsetAt (a + 1) else N
  ((List.range (2 * A + N)).map o.bufferAt).take hi |>.drop lo

/-- python/mtsp_vrp.py:70-72: the length the wrapper computes for a path -/
def pyLength (w : Weights) (starts ends : List Nat) (a : Nat) (p : List Nat) : ℚ :=
  let s := ((List.range (p.length - 1)).map fun i => w (p.getD i 0) (p.getD (i + 1) 0)).sum
  if p.length ≥ 2 ∧ starts[a]? = ends[a]? then s + w (p.getD (p.length - 1) 0) (p.getD 0 0) else s

/-- python/mtsp_vrp.py:58-76: what the caller of the wrapper gets: an exception, or the paths and their lengths -/
def pyResult (a : CArgs) : CEnd → Option (Outcome (List (List Nat) × List ℚ))
  | .undefined => none
  | .terminated => some .terminated
  | .ret code o =>
    if code < 0 then some (.exc (.runtime "error_code_map"))
    else
      let P := (List.range a.A).map (pyPath a.A a.N o)
      some (.ok (P, (List.range a.A).map fun k => pyLength a.weight a.startList a.endList k (P.getD k [])))

end Mtsp
