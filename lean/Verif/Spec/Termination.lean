import Verif.Spec.Search

/-! What "the search ends" means. -/

namespace Mtsp

/-- An execution that goes on forever: `who n` steps at time `n` with input `inp n`; `st n` is the state before.
Nothing is assumed about the order in which the workers step, except that none of them is passed over forever. -/
structure FairRun (e : BEnv) (r : ResState) (who : Nat → Nat) (inp : Nat → Inp) (st : Nat → BState) : Prop where
  start : BState.start e r = .ok (st 0)
  step : ∀ n, st (n + 1) = (st n).step e (who n) (inp n)
  worker : ∀ n, who n < e.threads
  ok : ∀ n, (inp n).Ok e (st n) (who n)
  fair : ∀ t < e.threads, ∀ n, ∃ k, n ≤ k ∧ who k = t

/-- The solver's point satisfies the rows of the LP without any numerical noise. -/
def Inp.OnRows (e : BEnv) (s : BState) (t : Nat) (i : Inp) : Prop :=
  ∀ lb, (s.wk t).pc = .solve lb → ∀ y rc, i.ans = .optimal y rc → ∀ c ∈ (e.prob (s.wk t)).rows, c.Sat y

/-- Whenever the 2-matching separator reports cuts for a fractional solution, the solution violates one of them. -/
def BEnv.CombsProgress (e : BEnv) : Prop :=
  ∀ y : Nat → ℚ, (∀ i < e.m.starts.length * e.m.n * e.m.n, 0 ≤ y i ∧ y i ≤ 1) → (∀ c ∈ e.rows0, c.Sat y) →
    ucutF e.fl e.sw e.m.starts.length e.m.n y = none → twoMatchingGF e.fl e.gh e.m.starts.length e.m.n y ≠ [] →
    ∃ c ∈ twoMatchingGF e.fl e.gh e.m.starts.length e.m.n y, ¬ c.Sat y

end Mtsp
