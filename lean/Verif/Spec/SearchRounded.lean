import Verif.Model.SearchRounded
import Verif.Spec.Noise

/-! The search in floating point, with an LP solver of small noise. -/

namespace Mtsp

/-- how many terms of the sum are not zero -/
def LinComp.terms (l : LinComp) (y : Nat → ℚ) : Nat := (l.coefs.filter fun p => decide (p.2 * y p.1 ≠ 0)).length

/-- the sum of the absolute values of the terms -/
def LinComp.size (l : LinComp) (y : Nat → ℚ) : ℚ := |l.const| + (l.coefs.map fun p => |p.2 * y p.1|).sum

/-- rounding a second time changes nothing -/
def Settled (fl : ℚ → ℚ) : Prop := ∀ q, fl (fl q) = fl q

/-- The answer of the LP solver is within `1e-11` of an exact optimum of absolute value up to 2^15, and the terms of the
objective function are few and small enough for the sum to be accurate: the number of arcs used times the value is at most
640000. -/
def LPAnswer.CorrectF (p : LPProb) : LPAnswer → Prop
  | .optimal y rc => p.InBounds y ∧ p.obj.terms y ≤ 10 ^ 9 ∧ (p.obj.terms y + 1) * p.obj.size y ≤ 640000 ∧
      ∃ x, p.Within (1 / 10 ^ 11) y rc x ∧ |p.obj.eval x| ≤ 2 ^ 15
  | a => a.Correct p

/-- the input of a step is possible -/
def Inp.OkF (e : BEnv) (s : BState) (t : Nat) (i : Inp) : Prop :=
  match (s.wk t).pc with
  | .solve _ => i.ans.CorrectF (e.prob (s.wk t))
  | _ => True

/-- all executions of the workers in floating point -/
inductive FloatRun (e : BEnv) (ord : List (Nat × ℚ) → List (Nat × ℚ)) (r : ResState) : List (Nat × Inp) → BState → Prop
  | start (s : BState) : BState.start e r = .ok s → FloatRun e ord r [] s
  | step (tr : List (Nat × Inp)) (s : BState) (t : Nat) (i : Inp) : FloatRun e ord r tr s → t < e.threads → i.OkF e s t →
      FloatRun e ord r (tr ++ [(t, i)]) (s.stepF e ord t i)

/-- The best answer there can be: an exact optimum with exact reduced costs, every number rounded to a double. -/
def LPAnswer.CorrectRounded (fl : ℚ → ℚ) (p : LPProb) : LPAnswer → Prop
  | .optimal y rc => ∃ x c, p.Exact x c ∧ y = (fun i => fl (x i)) ∧ rc = fun i => fl (c i)
  | a => a.Correct p

/-- the input of a step is possible with such a solver -/
def Inp.OkRounded (e : BEnv) (s : BState) (t : Nat) (i : Inp) : Prop :=
  match (s.wk t).pc with
  | .solve _ => i.ans.CorrectRounded e.fl (e.prob (s.wk t))
  | _ => True

/-- all executions of the workers in floating point with such a solver -/
inductive RoundedRun (e : BEnv) (ord : List (Nat × ℚ) → List (Nat × ℚ)) (r : ResState) : List (Nat × Inp) → BState → Prop
  | start (s : BState) : BState.start e r = .ok s → RoundedRun e ord r [] s
  | step (tr : List (Nat × Inp)) (s : BState) (t : Nat) (i : Inp) : RoundedRun e ord r tr s → t < e.threads → i.OkRounded e s t →
      RoundedRun e ord r (tr ++ [(t, i)]) (s.stepF e ord t i)

/-- The instance is small enough for double precision: `A` agents, `N` nodes (after preprocessing), weights up to `W`. -/
structure SmallInstance (A N W rows : Nat) (w : Weights) : Prop where
  one : 1 ≤ W
  weights : ∀ i < rows, ∀ j < rows, w i j ≤ W
  cost : N * W ≤ 2 ^ 15
  terms : (A * N * N + 1) * (N * W + 1) ≤ 640000

/-- all executions of the workers in floating point with an LP solver of noise `ε`; nothing else is assumed of its answers -/
inductive NoisyFloatRun (e : BEnv) (ε : ℚ) (ord : List (Nat × ℚ) → List (Nat × ℚ)) (r : ResState) : List (Nat × Inp) → BState → Prop
  | start (s : BState) : BState.start e r = .ok s → NoisyFloatRun e ε ord r [] s
  | step (tr : List (Nat × Inp)) (s : BState) (t : Nat) (i : Inp) : NoisyFloatRun e ε ord r tr s → t < e.threads → i.OkWithin e ε s t →
      NoisyFloatRun e ε ord r (tr ++ [(t, i)]) (s.stepF e ord t i)

end Mtsp
