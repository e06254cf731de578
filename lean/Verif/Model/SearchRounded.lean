import Verif.Model.BranchAndCut

/-!
The search of Model/BranchAndCut.lean once more, with every floating-point operation and every decimal constant of
tsplp/src/MtspModel.cpp:366-497 rounded by `fl`: the value of the objective, its rounding to a bound, the test whether the
heuristic is worth while, reduced cost fixing, the branching variable, reading paths.  (The heuristics and the separation are
rounded already in Model/BranchAndCut.lean.)  Comparisons do not round.
-/

namespace Mtsp

/-- LinearVariableComposition.cpp:82-89, `Evaluate`; `ord` is the order in which the `std::unordered_map` is traversed -/
def LinComp.evalF (fl : ℚ → ℚ) (ord : List (Nat × ℚ) → List (Nat × ℚ)) (x : Nat → ℚ) (l : LinComp) : ℚ :=
  (ord l.coefs).foldl (fun r p => fl (r + fl (p.2 * x p.1))) l.const

/-- the constant `1.e-10` as a double -/
def tolF (fl : ℚ → ℚ) : ℚ := fl (1 / 10 ^ 10)

/-- the value of `1 - 1.e-10` -/
def oneF (fl : ℚ → ℚ) : ℚ := fl (1 - tolF fl)

/-- MtspModel.cpp:415-438: one iteration of reduced cost fixing -/
def rcStepF (e : BEnv) (M : LPModel) (lb ub : ℚ) (y rc : Nat → ℚ) (s : List Nat × List Nat) (v : Nat) :
    Except Err (List Nat × List Nat) :=
  if M.bounds v = (some 0, some 1) then
    if y v < tolF e.fl ∧ e.fl (lb + rc v) ≥ e.fl (ub + tolF e.fl) then .ok (s.1 ++ [v], s.2)
    else if y v > oneF e.fl ∧ e.fl (lb - rc v) ≥ e.fl (ub + tolF e.fl) then
      match calcFixable e.m.n e.m.starts e.m.ends e.m.deps v with
      | .error er => .error er
      | .ok r => .ok (s.1 ++ r, s.2 ++ [v])
    else .ok s
  else .ok s

/-- MtspModel.cpp:415-438: reduced cost fixing; the variables to append to the two lists -/
def rcFixF (e : BEnv) (M : LPModel) (lb ub : ℚ) (y rc : Nat → ℚ) : List Nat → List Nat × List Nat →
    Except Err (List Nat × List Nat)
  | [], s => .ok s
  | v :: vs, s =>
    match rcStepF e M lb ub y rc s v with
    | .error er => .error er
    | .ok s' => rcFixF e M lb ub y rc vs s'

/-- MtspModel.cpp:35-55 with the default tolerance -/
def findFractionalF (fl : ℚ → ℚ) (nBin : Nat) (x : Nat → ℚ) : Option Nat :=
  findFracLoop fl (tolF fl) (oneF fl) x (List.range nBin) 1 none

/-- MtspModel.cpp:535-541 -/
def followArcF (fl : ℚ → ℚ) (N : Nat) (x : Nat → ℚ) (a : Nat) (p : List Nat) : List Nat :=
  match (List.range N).find? fun n => decide (x (varId N a (p.getLastD 0) n) > oneF fl) with
  | some n => p ++ [n]
  | none => p

/-- MtspModel.cpp:533-546 -/
def followPathF (fl : ℚ → ℚ) (N : Nat) (x : Nat → ℚ) (a e : Nat) : Nat → List Nat → List Nat
  | 0, p => p
  | k + 1, p =>
    let p' := followArcF fl N x a p
    if p'.getLastD 0 = e then p' else followPathF fl N x a e k p'

/-- MtspModel.cpp:527-548 -/
def readPathsF (fl : ℚ → ℚ) (N : Nat) (starts ends : List Nat) (x : Nat → ℚ) : Paths :=
  (List.range starts.length).map fun a => followPathF fl N x a (ends.getD a 0) (N - 1) [starts.getD a 0]

/-- MtspModel.cpp:408-497, the local part: what to do with a solved node when the upper bound is `ub` -/
def Worker.evaluateF (e : BEnv) (w : Worker) (lb ub : ℚ) (y rc : Nat → ℚ) : Worker :=
  if lb ≥ ub then { w with pc := .push (.pushResult lb) }
  else
    match rcFixF e w.fix.model lb ub y rc (List.range w.fix.model.nBin) ([], []) with
    | .error er => { w with pc := .crashed er }
    | .ok (e0, e1) =>
      let fix := w.fix.remember e0 e1
      match separate e y with
      | c :: cs => { w with fix := fix, pc := .pushCuts (c :: cs) (.push lb fix.fixed0 fix.fixed1) }
      | [] =>
        match findFractionalF e.fl w.fix.model.nBin y with
        | none => { w with fix := fix, pc := .getUpper lb y }
        | some v =>
          match calcFixable e.m.n e.m.starts e.m.ends e.m.deps v with
          | .error er => { w with pc := .crashed er }
          | .ok r => { w with fix := fix, pc := .push (.pushBranch lb fix.fixed0 fix.fixed1 v r) }

/-- One step of worker `t` in floating point.  The steps not listed involve no floating-point operation of their own and are
those of `BState.step`. -/
def BState.stepF (e : BEnv) (ord : List (Nat × ℚ) → List (Nat × ℚ)) (s : BState) (t : Nat) (i : Inp) : BState :=
  match (s.wk t).pc with
  -- MtspModel.cpp:366-384
  | .solve _ =>
    match i.ans with
    | .optimal y rc => s.goto t (.raise (ceilBoundF e.fl (e.obj.evalF e.fl ord y)) y rc)
    | _ => s.step e t i
  -- MtspModel.cpp:388-390
  | .updLB lb l y rc =>
    let r := s.res.updateLowerBound l
    let s := { s with res := r.1 }
    if e.fl (5 / 2 * lb) > r.2.Upper then s.goto t (.exploit lb y rc)
    else s.setWk t ((s.wk t).evaluateF e lb r.2.Upper y rc)
  -- MtspModel.cpp:402-403
  | .exploit lb y rc =>
    match exploitCandidateF e.fl e.mode e.m (fun a u v => y (varId e.m.n a u v)) i.ticks with
    | .error er => s.goto t (.crashed er)
    | .ok (none, _) => s.setWk t ((s.wk t).evaluateF e lb s.res.getBounds.Upper y rc)
    | .ok (some (v, p), _) =>
      let r := s.res.updateUpperBound v p
      { s with res := r.1 }.setWk t ((s.wk t).evaluateF e lb r.2.Upper y rc)
  -- MtspModel.cpp:485-486
  | .setUpper lb y =>
    match e.m.transformPathsBack (readPathsF e.fl e.m.n e.m.starts e.m.ends y) with
    | .error er => s.goto t (.crashed er)
    | .ok p => { s with res := (s.res.updateUpperBound lb p).1 }.goto t (.push (.pushResult lb))
  | _ => s.step e t i

end Mtsp
