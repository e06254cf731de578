import Verif.Spec.Cost
import Verif.Spec.Depots

/-! What a solution is, in terms of what the caller passes. -/

namespace Mtsp

/-- the path without its first and its last node -/
def middle (p : List Nat) : List Nat := p.tail.dropLast

/-- One path per agent, from its start position to its end position; in between, the paths together visit every node that is
nobody's start or end exactly once, and nothing else. -/
structure InputCover (rows : Nat) (starts ends : List Nat) (P : List (List Nat)) : Prop where
  len : P.length = starts.length
  shape : ∀ (a : Nat) (p : List Nat), P[a]? = some p → ∃ s e mid, starts[a]? = some s ∧ ends[a]? = some e ∧ p = s :: mid ++ [e]
  rest : (P.map middle).flatten.Perm ((List.range rows).filter fun v => decide (v ∉ starts ++ ends))

end Mtsp
