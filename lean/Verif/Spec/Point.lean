import Verif.Spec.Instance

/-! The 0/1 point that stands for a set of paths. -/

namespace Mtsp

/-- `v` directly follows `u` on the path `p` -/
def Step (p : List Nat) (u v : Nat) : Prop := ∃ l1 l2, p = l1 ++ u :: v :: l2

/-- agent `a` uses the arc from `u` to `v`: on its path, or from its end to the next agent's start -/
def Uses (starts ends : List Nat) (P : List (List Nat)) (a u v : Nat) : Prop :=
  (∃ p, P[a]? = some p ∧ Step p u v) ∨
  (a < starts.length ∧ ends[a]? = some u ∧ starts[(a + 1) % starts.length]? = some v)

/-- `x` is the 0/1 point of the paths `P`: the variable of agent `a` and arc `(u, v)` is number
`a * N * N + u * N + v`; nothing is said about other variables -/
def IsPoint (N : Nat) (starts ends : List Nat) (P : List (List Nat)) (x : Nat → ℚ) : Prop :=
  ∀ a u v, a < starts.length → u < N → v < N →
    (Uses starts ends P a u v → x (a * N * N + u * N + v) = 1) ∧
    (¬ Uses starts ends P a u v → x (a * N * N + u * N + v) = 0)

end Mtsp
