import Verif.Spec.Search

/-! An LP solver with numerical noise, described by one number. -/

namespace Mtsp

/-- `q` is a multiple of `1/d` for some `d` of at most nine digits, as the exact optimum of an LP with small coefficients is -/
def OnGrid (d : Nat) (q : ℚ) : Prop := ∃ k : ℤ, q = k / d

/-- Everything the solver returns is within `ε` of what belongs to an exact optimum `x`: the values of the binary variables, the
objective value, and the bound on the cost of changing one variable that the reduced costs give. -/
structure LPProb.Within (p : LPProb) (ε : ℚ) (y rc x : Nat → ℚ) : Prop where
  admits : p.Admits x
  least : ∀ z, p.Admits z → p.obj.eval x ≤ p.obj.eval z
  grid : ∃ d : Nat, 0 < d ∧ d ≤ 10 ^ 9 ∧ OnGrid d (p.obj.eval x) ∧ ∀ i < p.cols.nBin, 0 ≤ x i ∧ x i ≤ 1 ∧ OnGrid d (x i)
  dual : ∀ z, p.Admits z → ∀ v < p.cols.nVars, p.obj.eval x + rc v * (z v - x v) ≤ p.obj.eval z + ε
  value : |p.obj.eval y - p.obj.eval x| ≤ ε
  near : ∀ i < p.cols.nBin, |y i - x i| ≤ ε

/-- the contract of the LP solver with noise `ε` -/
def LPAnswer.CorrectWithin (p : LPProb) (ε : ℚ) : LPAnswer → Prop
  | .optimal y rc => p.InBounds y ∧ ∃ x, p.Within ε y rc x
  | a => a.Correct p

/-- the input of a step is possible with an LP solver of noise `ε` -/
def Inp.OkWithin (e : BEnv) (ε : ℚ) (s : BState) (t : Nat) (i : Inp) : Prop :=
  match (s.wk t).pc with
  | .solve _ => i.ans.CorrectWithin (e.prob (s.wk t)) ε
  | _ => True

/-- all executions of the workers with an LP solver of noise `ε` -/
inductive NoisyRun (e : BEnv) (ε : ℚ) (r : ResState) : List (Nat × Inp) → BState → Prop
  | start (s : BState) : BState.start e r = .ok s → NoisyRun e ε r [] s
  | step (tr : List (Nat × Inp)) (s : BState) (t : Nat) (i : Inp) : NoisyRun e ε r tr s → t < e.threads → i.OkWithin e ε s t →
      NoisyRun e ε r (tr ++ [(t, i)]) (s.step e t i)

end Mtsp
