import Verif.Proof.CheckedCuts
import Verif.Props.Checked

/-! C91: the 2-matching separation and the Gomory-Hu construction never access outside of their arrays.

The programs `twoMatchingM`, `createGomoryHuTreeM` (Model/CheckedCuts.lean) work on the arrays of the code, with every subscript
checked: an access outside of an array or to the first element of an empty span ends them with `Err.ub`.  The bags of the tree
vertices are spans of one array that is partitioned in place; tables keep stale entries of earlier iterations. -/

namespace Mtsp

variable {fl : ℚ → ℚ} {mf : MaxFlow} {pt : Partition}

/-- **C91, the cut tree.** For every number of nodes, every table of `N (N - 1) / 2` weights that are not negative, every maximum
flow algorithm that separates source and target, every behaviour of `std::partition` and every rounding, the construction
makes no access outside of its arrays, and working in place does not change what it reports. -/
theorem C91_cut_tree (hfl : Rounding fl) (hmf : mf.Proper) (hpt : pt.Correct) (N : Nat) {ws : List ℚ} (h0 : ∀ q ∈ ws, 0 ≤ q)
    (hws : ws.length = N * (N - 1) / 2) (fuel : Nat) :
    InBounds (createGomoryHuTreeM fl mf pt N ws fuel) ∧
    createGomoryHuTreeM fl mf pt N ws fuel = .ok (createGomoryHuTreeF fl mf pt N ws fuel) := by
  have e := createGomoryHuTreeM_ok hfl hmf hpt h0 hws fuel
  exact ⟨fun s hs => by (rw [e] at hs; cases hs), e⟩

/-- **C91, separation.** For every number of agents and nodes and every LP solution, the 2-matching separation makes no access
outside of its arrays; and the checks change nothing. -/
theorem C91_two_matching (hfl : Rounding fl) (hmf : mf.Proper) (hpt : pt.Correct) (A N : Nat) (x : Nat → ℚ) :
    InBounds (twoMatchingM fl mf pt A N x) ∧ twoMatchingM fl mf pt A N x = .ok (twoMatchingF fl mf pt A N x) := by
  have e := twoMatchingM_ok (A := A) (N := N) (x := x) hfl hmf hpt
  exact ⟨fun s hs => by (rw [e] at hs; cases hs), e⟩

/-- the computation ends with an access outside of its data -/
def isUb {α : Type} (x : Except Err α) : Bool := match x with
  | .error (.ub _) => true
  | _ => false

theorem isUb_iff {α : Type} {x : Except Err α} (h : isUb x = true) : ¬ InBounds x := by
  unfold isUb at h
  split at h
  · next s => exact fun hb => hb s rfl
  · simp at h

/-- The checks are not idle: with a table that is too short, or a maximum flow algorithm that leaves both nodes on one side (so that
a bag becomes empty), the construction leaves its arrays. -/
example : ¬ InBounds (createGomoryHuTreeM id bruteFlow stablePartition 3 [1, 1] 3) ∧
    ¬ InBounds (createGomoryHuTreeM id (fun _ _ _ _ _ => (0, fun _ => true)) stablePartition 3 [1, 1, 1] 3) :=
  ⟨isUb_iff (by decide +kernel), isUb_iff (by decide +kernel)⟩

/-- Non-vacuity: the contracts are met by executable algorithms; four nodes: three calls on the arrays; six nodes: a point for which
the separation reports something. -/
example : bruteFlow.Proper ∧ stablePartition.Correct ∧ Rounding (id : ℚ → ℚ) ∧
    testOk (createGomoryHuTreeM id bruteFlow stablePartition 4 [1, 0, 2, 1, 1, 3] 4) (fun r => r.2 && decide (r.1.length = 3)) = true ∧
    testOk (twoMatchingM id bruteFlow stablePartition 1 6 triY) (fun l => !l.isEmpty) = true :=
  ⟨bruteFlow_correct.proper, stablePartition_correct, ⟨fun _ _ => rfl, fun _ _ h => h⟩, by decide +kernel, by decide +kernel⟩

end Mtsp
