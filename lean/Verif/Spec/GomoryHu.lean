import Verif.Model.GomoryHu
import Verif.Spec.Cuts
import Mathlib.Data.List.Perm.Basic

/-! Contract of `std::partition` and what a caller of the Gomory-Hu construction expects. -/

namespace Mtsp

/-- `std::partition`: a permutation of the input, first all elements that satisfy the predicate, then the others -/
structure Partition.Correct (pt : Partition) : Prop where
  left : ∀ p l, ∀ x ∈ (pt p l).1, p x = true
  right : ∀ p l, ∀ x ∈ (pt p l).2, p x = false
  perm : ∀ p l, ((pt p l).1 ++ (pt p l).2).Perm l

/-- the weight of the edge between `u` and `v`, as stored in the table handed to the construction: the entry for
`v < u` is at position `u (u - 1) / 2 + v` -/
def edgeWeight (ws : List ℚ) (u v : Nat) : ℚ := ws.getD (max u v * (max u v - 1) / 2 + min u v) 0

/-- what one call reports is a partition of the nodes that separates the two nodes it names -/
structure GHCall.IsPartition (N : Nat) (c : GHCall) : Prop where
  cover : ∀ v, v < N ↔ v ∈ c.compU ∨ v ∈ c.compV
  disjoint : ∀ v, v ∈ c.compU → v ∉ c.compV
  nodup : c.compU.Nodup ∧ c.compV.Nodup
  left : c.u ∈ c.compU
  right : c.v ∈ c.compV

/-- what one call reports is a minimum cut between the two nodes it names: the size is the total weight of the edges
between the two components, and no set of nodes that separates the two nodes has less -/
structure GHCall.IsMinCut (N : Nat) (ws : List ℚ) (c : GHCall) : Prop where
  size : c.size = (c.compU.map fun u => (c.compV.map fun v => edgeWeight ws u v).sum).sum
  minimal : ∀ W : Nat → Bool, W c.u = true → W c.v = false → c.size ≤ cutWeight N (edgeWeight ws) W

end Mtsp
