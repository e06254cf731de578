import Verif.Basic

/-! Exchanging two inner nodes of a set of paths (specification for C82). -/

namespace Mtsp

/-- the node at position `k` of path `a`, if there is one -/
def nodeOn (P : List (List Nat)) (a k : Nat) : Option Nat := P[a]?.bind (·[k]?)

/-- `Q` arises from `P` by exchanging the nodes at two different inner positions (not the first and not the last of a path). -/
def Exchanged (P Q : List (List Nat)) : Prop :=
  Q.length = P.length ∧ ∃ a i b j, (a ≠ b ∨ i ≠ j) ∧ 0 < i ∧ (nodeOn P a (i + 1)).isSome ∧ 0 < j ∧ (nodeOn P b (j + 1)).isSome ∧
    nodeOn Q a i = nodeOn P b j ∧ nodeOn Q b j = nodeOn P a i ∧
    ∀ c k, ¬ (c = a ∧ k = i) → ¬ (c = b ∧ k = j) → nodeOn Q c k = nodeOn P c k

end Mtsp
