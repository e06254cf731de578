import Verif.Spec.Cuts

/-! The 2-matching inequalities: for a set of nodes (the handle) and an odd number of edges that leave it (the teeth), a tour
either misses a tooth or uses another edge that leaves the handle. -/

namespace Mtsp
open Finset

/-- how much of the undirected edge `{u, v}` the point uses: both directions, all agents -/
def edgeUse (A N : Nat) (x : Nat → ℚ) (u v : Nat) : ℚ := ∑ a ∈ range A, (x (a * N * N + u * N + v) + x (a * N * N + v * N + u))

/-- number of teeth: the pairs `u < v` chosen by `F` with exactly one end in the handle -/
def teeth (N : Nat) (W : Nat → Bool) (F : Nat → Nat → Bool) : Nat :=
  #{e ∈ range N ×ˢ range N | e.1 < e.2 ∧ W e.1 ≠ W e.2 ∧ F e.1 e.2 = true}

/-- the left hand side of the inequality: the missing parts of the teeth and the other edges that leave the handle -/
def combValue (A N : Nat) (x : Nat → ℚ) (W : Nat → Bool) (F : Nat → Nat → Bool) : ℚ :=
  ∑ u ∈ range N, ∑ v ∈ range N, if u < v ∧ W u ≠ W v then (if F u v = true then 1 - edgeUse A N x u v else edgeUse A N x u v) else 0

/-- the inequality with handle `W` and teeth `F` is violated by more than `t` -/
def CombViolated (A N : Nat) (x : Nat → ℚ) (t : ℚ) : Prop :=
  ∃ (W : Nat → Bool) (F : Nat → Nat → Bool), teeth N W F % 2 = 1 ∧ combValue A N x W F < 1 - t

end Mtsp
