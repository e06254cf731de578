import Verif.Basic

/-! Independent specification of path lengths and of feasible solutions. -/

namespace Mtsp

/-- length of a path: sum of the weights of its consecutive arcs -/
def pathCost (w : Nat → Nat → ℚ) : List Nat → ℚ
  | [] => 0
  | [_] => 0
  | u :: v :: l => w u v + pathCost w (v :: l)

/-- sum of all path lengths, agent `a`'s path measured with the weights `w a` -/
def sumCost (w : Nat → Nat → Nat → ℚ) (P : List (List Nat)) : ℚ :=
  (P.mapIdx fun a p => pathCost (w a) p).sum

/-- `v` is the largest path length, or 0 if there is no positive one -/
def IsMaxCost (w : Nat → Nat → Nat → ℚ) (P : List (List Nat)) (v : ℚ) : Prop :=
  0 ≤ v ∧ (∀ a p, P[a]? = some p → pathCost (w a) p ≤ v) ∧ (v = 0 ∨ ∃ a p, P[a]? = some p ∧ pathCost (w a) p = v)

/-- one path per agent, from its start to its end, together visiting every node exactly once -/
structure IsCover (n : Nat) (starts ends : List Nat) (P : List (List Nat)) : Prop where
  len : P.length = starts.length
  head : ∀ (a : Nat) (p : List Nat), P[a]? = some p → p.head? = starts[a]?
  last : ∀ (a : Nat) (p : List Nat), P[a]? = some p → p.getLast? = ends[a]?
  perm : P.flatten.Perm (List.range n)

/-- `u` comes before `v` on the list `p` -/
def Before (p : List Nat) (u v : Nat) : Prop := ∃ l1 l2 l3, p = l1 ++ u :: l2 ++ v :: l3

/-- every dependency is respected: both nodes on the same path, in order -/
def Respects (D : Nat → Nat → Prop) (P : List (List Nat)) : Prop :=
  ∀ u v, D u v → ∃ p ∈ P, Before p u v

end Mtsp
