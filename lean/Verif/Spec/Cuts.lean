import Verif.Model.Cuts
import Mathlib.Algebra.BigOperators.Group.Finset.Basic

/-! Contracts of the minimum cut algorithms that are not modelled. -/

namespace Mtsp
open Finset

/-- both sides of the partition are inhabited -/
def Splits (N : Nat) (par : Nat → Bool) : Prop := (∃ u < N, par u = true) ∧ ∃ v < N, par v = false

/-- size of the cut `par` in the undirected graph with weights `w u v` for `u < v` -/
def cutWeight (N : Nat) (w : Nat → Nat → ℚ) (par : Nat → Bool) : ℚ :=
  ∑ u ∈ range N, ∑ v ∈ range N, if u < v ∧ par u ≠ par v then w u v else 0

/-- `stoer_wagner_min_cut`: for at least two nodes it returns a proper partition and its size, and for
nonnegative weights no proper partition is smaller -/
structure GlobalCut.Correct (sw : GlobalCut) : Prop where
  splits : ∀ N w, 2 ≤ N → Splits N (sw N w).2
  size : ∀ N w, 2 ≤ N → (sw N w).1 = cutWeight N w (sw N w).2
  minimal : ∀ N w, 2 ≤ N → (∀ u v, u < v → v < N → 0 ≤ w u v) → ∀ par, Splits N par → (sw N w).1 ≤ cutWeight N w par

/-- capacity of the arcs of the filtered graph that leave the set `B` -/
def flowCut (N : Nat) (keep : Nat → Bool) (c : Nat → Nat → ℚ) (B : Nat → Bool) : ℚ :=
  ∑ u ∈ range N, ∑ v ∈ range N, if u ≠ v ∧ keep u = true ∧ keep v = true ∧ B u = true ∧ B v = false then c u v else 0

/-- `boykov_kolmogorov_max_flow`: the source is black afterwards, the target is not, and for nonnegative
capacities the flow value is the capacity of the black side, and no other cut is smaller -/
structure MaxFlow.Correct (mf : MaxFlow) : Prop where
  sides : ∀ N keep c s t, s < N → t < N → s ≠ t → keep s = true → keep t = true →
    (mf N keep c s t).2 s = true ∧ (mf N keep c s t).2 t = false
  size : ∀ N keep c s t, s < N → t < N → s ≠ t → keep s = true → keep t = true →
    (∀ u v, u < N → v < N → 0 ≤ c u v) → (mf N keep c s t).1 = flowCut N keep c (mf N keep c s t).2
  minimal : ∀ N keep c s t, s < N → t < N → s ≠ t → keep s = true → keep t = true →
    (∀ u v, u < N → v < N → 0 ≤ c u v) → ∀ B : Nat → Bool, B s = true → B t = false →
    (mf N keep c s t).1 ≤ flowCut N keep c B

/-- what `TwoMatching` needs from the Gomory-Hu construction: for nonnegative symmetric capacities every reported
cut consists of two parts that together contain every node exactly once, and its size is the capacity between
the parts (`ghStream_correct`, from C50 and C51) -/
structure CutStream.Correct (gh : CutStream) : Prop where
  parts : ∀ N cap, 2 ≤ N → (∀ u v, 0 ≤ cap u v) → (∀ u v, cap u v = cap v u) → ∀ c ∈ gh N cap, (c.2.1 ++ c.2.2).Perm (List.range N)
  size : ∀ N cap, 2 ≤ N → (∀ u v, 0 ≤ cap u v) → (∀ u v, cap u v = cap v u) → ∀ c ∈ gh N cap, c.1 = (c.2.1.map fun u => (c.2.2.map fun v => cap u v).sum).sum

end Mtsp
