import Verif.Spec.CutsRounded
import Verif.Spec.Doubles
import Mathlib.Algebra.Order.Ring.Rat

/-! What is assumed about floating point when it matters how far rounded numbers are off. -/

namespace Mtsp

/-- `stoer_wagner_min_cut` for weights between 0 and 4: a proper partition; the number returned is off by at most `1e-11` and no
partition is smaller by more than that -/
structure GlobalCut.Near (sw : GlobalCut) : Prop where
  splits : ∀ N w, 2 ≤ N → Splits N (sw N w).2
  size : ∀ N w, 2 ≤ N → (∀ u v, u < v → v < N → 0 ≤ w u v ∧ w u v ≤ 4) → cutWeight N w (sw N w).2 ≤ (sw N w).1 + 1 / 10 ^ 11
  minimal : ∀ N w, 2 ≤ N → (∀ u v, u < v → v < N → 0 ≤ w u v ∧ w u v ≤ 4) → ∀ par, Splits N par → (sw N w).1 ≤ cutWeight N w par + 1 / 10 ^ 11

/-- `boykov_kolmogorov_max_flow`, likewise -/
structure MaxFlow.Near (mf : MaxFlow) : Prop where
  sides : ∀ N keep c s t, s < N → t < N → s ≠ t → keep s = true → keep t = true →
    (mf N keep c s t).2 s = true ∧ (mf N keep c s t).2 t = false
  size : ∀ N keep c s t, s < N → t < N → s ≠ t → keep s = true → keep t = true →
    (∀ u v, u < N → v < N → 0 ≤ c u v ∧ c u v ≤ 4) → flowCut N keep c (mf N keep c s t).2 ≤ (mf N keep c s t).1 + 1 / 10 ^ 11
  minimal : ∀ N keep c s t, s < N → t < N → s ≠ t → keep s = true → keep t = true →
    (∀ u v, u < N → v < N → 0 ≤ c u v ∧ c u v ≤ 4) → ∀ B : Nat → Bool, B s = true → B t = false →
    (mf N keep c s t).1 ≤ flowCut N keep c B + 1 / 10 ^ 11

/-- the Gomory-Hu construction for `N` nodes and capacities between 0 and 1: the sizes are off by at most `1e-11` -/
def CutStream.Near (gh : CutStream) (N : Nat) : Prop :=
  ∀ cap, (∀ u v, 0 ≤ cap u v ∧ cap u v ≤ 1) → (∀ u v, cap u v = cap v u) →
    ∀ c ∈ gh N cap, |c.1 - (c.2.1.map fun u => (c.2.2.map fun v => cap u v).sum).sum| ≤ 1 / 10 ^ 11

end Mtsp
