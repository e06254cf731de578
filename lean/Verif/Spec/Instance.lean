import Verif.Spec.Cost
import Mathlib.Logic.Relation

/-! Specification of a preprocessed instance: what the solver proper works on. -/

namespace Mtsp
open Relation

/-- `N` nodes; agent `a` goes from `starts[a]` to `ends[a]`; `D u v`: `u` must come before `v`. -/
structure Inst (N : Nat) (starts ends : List Nat) (D : Nat → Nat → Prop) : Prop where
  lenEq : starts.length = ends.length
  pos : 0 < starts.length
  nodup : (starts ++ ends).Nodup
  lt : ∀ x ∈ starts ++ ends, x < N
  dlt : ∀ u v, D u v → u < N ∧ v < N
  noIn : ∀ s ∈ starts, ∀ u, ¬ D u s
  noOut : ∀ e ∈ ends, ∀ v, ¬ D e v
  acyclic : ∀ x, ¬ TransGen D x x
  /-- transitive, except that with a single agent start-before-end is not recorded -/
  trans : ∀ u v x, D u v → D v x → D u x ∨ (starts = [u] ∧ ends = [x])

/-- a feasible solution: a cover by paths that respects the dependencies -/
def Feasible (N : Nat) (starts ends : List Nat) (D : Nat → Nat → Prop) (P : List (List Nat)) : Prop :=
  IsCover N starts ends P ∧ Respects D P

/-- both nodes of every dependency are on the same path, in any order -/
def Grouped (D : Nat → Nat → Prop) (P : List (List Nat)) : Prop := ∀ u v, D u v → ∃ p ∈ P, u ∈ p ∧ v ∈ p

/-- every dependency starts at the start of an agent or leads to the end of one: it says which agent visits a node -/
def DepotDeps (starts ends : List Nat) (D : Nat → Nat → Prop) : Prop := ∀ u v, D u v → u ∈ starts ∨ v ∈ ends

end Mtsp
