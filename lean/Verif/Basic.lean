import Mathlib.Algebra.Order.Field.Rat
import Mathlib.Tactic.Linarith
import Mathlib.Tactic.Ring
import Mathlib.Data.List.Induction
import Mathlib.Data.List.Nodup
import Mathlib.Algebra.BigOperators.Group.List.Basic

/-!
Shared vocabulary of the model.

* `double` is modelled by exact rationals `ℚ` (no rounding, no NaN, no infinities).
* `dblMax` is the rational value of `std::numeric_limits<double>::max()`.
* Every C++ function that can throw or run into undefined behaviour returns `Except Err α`.
-/

namespace Mtsp

/-- `std::numeric_limits<double>::max()` (IEEE binary64), as a rational. -/
def dblMax : ℚ := (2 ^ 53 - 1) * 2 ^ 971

theorem dblMax_pos : 0 < dblMax := by unfold dblMax; norm_num

theorem one_lt_dblMax : 1 < dblMax := by
  have h : (1 : ℚ) ≤ 2 ^ 971 := one_le_pow₀ (by norm_num)
  have h2 : (1 : ℚ) < 2 ^ 53 - 1 := by norm_num
  exact one_lt_mul_of_lt_of_le h2 h

theorem neg_dblMax_lt : -dblMax < dblMax := by have := dblMax_pos; linarith

/-- How a C++ call can end abnormally.
`cyclic`, `incompatible`, `tsplp`: the exception classes of tsplp/include/TsplpExceptions.hpp:5-18.
`runtime`, `logic`: `std::runtime_error` / `std::logic_error` with their message.
`notADag`: `boost::not_a_dag` thrown by `boost::topological_sort`.
`ub`: undefined behaviour (out-of-range index, `SIZE_MAX` used as an index): a distinct outcome,
not an exception, which no `catch` can intercept. -/
inductive Err where
  | cyclic
  | incompatible
  | tsplp
  | runtime (msg : String)
  | logic (msg : String)
  | notADag
  | ub (what : String)
  deriving DecidableEq, Repr

/-- tsplp/include/MtspModel.hpp:19-23 `enum class OptimizationMode { Sum, Max }`. -/
inductive Mode where
  | sum
  | max
  deriving DecidableEq, Repr

end Mtsp
