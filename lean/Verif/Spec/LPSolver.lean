import Verif.Model.Fixing
import Mathlib.Algebra.BigOperators.Group.Finset.Basic

/-! Linear programs and the contract of the LP solver (CLP behind tsplp/src/Model.cpp:136-162). -/

namespace Mtsp
open Finset

/-- a linear program: minimise `obj` subject to the rows and the bounds of the variables -/
structure LPProb where
  obj : LinComp
  rows : List LinCon
  cols : LPModel

/-- `z` lies within the bounds of every variable -/
def LPProb.InBounds (p : LPProb) (z : Nat → ℚ) : Prop :=
  ∀ i < p.cols.nVars, ∀ l u, p.cols.bounds i = (some l, some u) → l ≤ z i ∧ z i ≤ u

/-- `z` is a feasible point: it satisfies every row and the bounds of every variable -/
structure LPProb.Admits (p : LPProb) (z : Nat → ℚ) : Prop where
  rows : ∀ c ∈ p.rows, c.Sat z
  bounds : p.InBounds z

/-- the possible answers of `Model::Solve` (Model.cpp:144-161), with the values of the variables
(`GetObjectiveValue`) and their reduced costs (`GetReducedCosts`) when an optimum was found -/
inductive LPAnswer where
  | optimal (y rc : Nat → ℚ)
  | infeasible
  | unbounded
  | error
  | timeout

/-- Numerical noise allowed in the objective value and in the reduced costs: a quarter of the tolerance `1e-10` of the code. -/
def lpNoise : ℚ := 1 / (4 * 10 ^ 10)

/-- The values `y` and reduced costs `rc` the solver returns are those of an optimum `x` of the linear program, up to noise. -/
structure LPProb.Approx (p : LPProb) (y rc x : Nat → ℚ) : Prop where
  /-- `x` is a feasible point -/
  admits : p.Admits x
  /-- and no feasible point is better -/
  least : ∀ z, p.Admits z → p.obj.eval x ≤ p.obj.eval z
  /-- a bound on the cost of changing one variable, as the reduced costs say: exact reduced costs are those of an optimal dual
  solution and give it without noise (`LPProb.Exact.correct`) -/
  dual : ∀ z, p.Admits z → ∀ v < p.cols.nVars, p.obj.eval x + rc v * (z v - x v) ≤ p.obj.eval z + lpNoise
  /-- the objective value is accurate -/
  value : |p.obj.eval y - p.obj.eval x| ≤ lpNoise
  /-- and its noise does not carry it over an integer plus the tolerance -/
  round : ∀ k : ℤ, (k : ℚ) + 1 / 10 ^ 10 < p.obj.eval y ↔ (k : ℚ) + 1 / 10 ^ 10 < p.obj.eval x
  /-- the values of the binary variables are accurate -/
  near : ∀ i < p.cols.nBin, |y i - x i| ≤ 1 / 10 ^ 10
  /-- they are within the tolerance of 0 if and only if they are 0 -/
  zero : ∀ i < p.cols.nBin, y i < 1 / 10 ^ 10 ↔ x i = 0
  /-- and within the tolerance of 1 if and only if they are 1 -/
  one : ∀ i < p.cols.nBin, y i > 1 - 1 / 10 ^ 10 ↔ x i = 1

/-- What the answer of the solver promises.  `optimal`: the values and reduced costs are, up to noise, those of an optimum, and
the values are within the bounds of the variables (they may violate rows slightly). -/
def LPAnswer.Correct (p : LPProb) : LPAnswer → Prop
  | .optimal y rc => p.InBounds y ∧ ∃ x, p.Approx y rc x
  | .infeasible => ∀ z, ¬ p.Admits z
  | .unbounded => ∀ b : ℚ, ∃ z, p.Admits z ∧ p.obj.eval z < b
  | .error => True
  | .timeout => True

/-- An optimum without any noise: the point is feasible, the reduced costs are those of an optimal dual solution:
`rc = obj - (combination of the rows)`, where the combination of the rows is smallest at `y` among all points that satisfy the
rows, and `rc` is nonnegative at a lower bound, nonpositive at an upper bound and zero in between; a binary variable within the
tolerance `1e-10` of 0 or 1 is exactly 0 or 1. -/
structure LPProb.Exact (p : LPProb) (y rc : Nat → ℚ) : Prop where
  finite : ∀ i < p.cols.nVars, ∃ l u, p.cols.bounds i = (some l, some u)
  admits : p.Admits y
  dual : ∀ z, (∀ c ∈ p.rows, c.Sat z) →
    p.obj.eval y - ∑ i ∈ range p.cols.nVars, rc i * y i ≤ p.obj.eval z - ∑ i ∈ range p.cols.nVars, rc i * z i
  sign : ∀ i < p.cols.nVars, ∀ l u, p.cols.bounds i = (some l, some u) → ∀ t, l ≤ t → t ≤ u → 0 ≤ rc i * (t - y i)
  near : ∀ i < p.cols.nBin, (y i < 1 / 10 ^ 10 → y i = 0) ∧ (y i > 1 - 1 / 10 ^ 10 → y i = 1)

end Mtsp
