import Verif.Spec.Cuts
import Verif.Spec.Doubles
import Verif.Spec.GomoryHu

/-! What is left of the contracts of the minimum cut algorithms when they compute with rounded numbers: that their answers
are cuts.  Nothing is assumed about the sizes, except that a flow is not negative. -/

namespace Mtsp

/-- `stoer_wagner_min_cut` returns a proper partition -/
def GlobalCut.Proper (sw : GlobalCut) : Prop := ∀ N w, 2 ≤ N → Splits N (sw N w).2

/-- `boykov_kolmogorov_max_flow` separates source and target, and the flow is not negative -/
structure MaxFlow.Proper (mf : MaxFlow) : Prop where
  sides : ∀ N keep c s t, s < N → t < N → s ≠ t → keep s = true → keep t = true →
    (mf N keep c s t).2 s = true ∧ (mf N keep c s t).2 t = false
  nonneg : ∀ N keep c s t, s < N → t < N → s ≠ t → keep s = true → keep t = true → (∀ u v, u < N → v < N → 0 ≤ c u v) → 0 ≤ (mf N keep c s t).1

/-- what `TwoMatching` needs from the Gomory-Hu construction: every reported cut consists of two parts that together contain
every node exactly once, and its size is not negative (`ghStreamF_proper`, from C85) -/
structure CutStream.Proper (gh : CutStream) : Prop where
  parts : ∀ N cap, 2 ≤ N → (∀ u v, 0 ≤ cap u v) → (∀ u v, cap u v = cap v u) → ∀ c ∈ gh N cap, (c.2.1 ++ c.2.2).Perm (List.range N)
  nonneg : ∀ N cap, 2 ≤ N → (∀ u v, 0 ≤ cap u v) → (∀ u v, cap u v = cap v u) → ∀ c ∈ gh N cap, 0 ≤ c.1

end Mtsp
