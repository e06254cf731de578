import Verif.Spec.TwoMatching

/-! The connectivity and precedence inequalities, stated for a point `x` (one number for every agent and ordered pair of nodes). -/

namespace Mtsp
open Finset

/-- how much of the arc from `u` to `v` the point uses, all agents together -/
def arcUse (A N : Nat) (x : Nat → ℚ) (u v : Nat) : ℚ := ∑ a ∈ range A, x (a * N * N + u * N + v)

open Classical in
/-- flow of the point from the inside of `W` to the outside, nodes in `R` being left out -/
noncomputable def outflow (A N : Nat) (x : Nat → ℚ) (R : Nat → Prop) (W : Nat → Bool) : ℚ :=
  ∑ u ∈ range N, ∑ v ∈ range N, if ¬ R u ∧ ¬ R v ∧ W u = true ∧ W v = false then arcUse A N x u v else 0

/-- a proper set of nodes is left and entered less than twice altogether -/
def ConnViolated (A N : Nat) (x : Nat → ℚ) (t : ℚ) : Prop :=
  ∃ W : Nat → Bool, (∃ u < N, W u = true) ∧ (∃ v < N, W v = false) ∧
    ∑ u ∈ range N, ∑ v ∈ range N, (if W u ≠ W v then arcUse A N x u v else 0) < 2 - t

/-- a tour gets from a node `n` to the end node `e` (of any agent: ends are linked to starts) without visiting predecessors of `n`, because
they come before; the inequality is violated if some set of nodes that separates `n` from `e` is left less than once -/
def PiViolated (A N : Nat) (ends : List Nat) (D : Nat → Nat → Prop) (x : Nat → ℚ) (t : ℚ) : Prop :=
  ∃ n e, n < N ∧ (∃ p, D p n) ∧ e ∈ ends ∧ n ≠ e ∧ ∃ W : Nat → Bool, W n = true ∧ W e = false ∧ outflow A N x (fun v => D v n) W < 1 - t

/-- the same from a start node to `n`, without visiting successors of `n` -/
def SigmaViolated (A N : Nat) (starts : List Nat) (D : Nat → Nat → Prop) (x : Nat → ℚ) (t : ℚ) : Prop :=
  ∃ n s, n < N ∧ (∃ p, D n p) ∧ s ∈ starts ∧ n ≠ s ∧ ∃ W : Nat → Bool, W s = true ∧ W n = false ∧ outflow A N x (fun v => D n v) W < 1 - t

/-- the same for a dependency of `b` on `a`: from `a` to `b`, without visiting predecessors of `a` or successors of `b` -/
def PiSigmaViolated (A N : Nat) (D : Nat → Nat → Prop) (x : Nat → ℚ) (t : ℚ) : Prop :=
  ∃ a b, D a b ∧ ∃ W : Nat → Bool, W a = true ∧ W b = false ∧ outflow A N x (fun v => D v a ∨ D b v) W < 1 - t

end Mtsp
