import Mathlib.Logic.Relation
import Verif.Model.Dependency

/-! Which use of a depot comes first: agents are processed in order, each with its start before its end. -/

namespace Mtsp

/-- `v` is some agent's start, and no agent before it ends at `v` -/
def FirstStart (starts ends : List Nat) (v : Nat) : Prop := ∃ a : Nat, starts[a]? = some v ∧ v ∉ ends.take a

/-- `v` is some agent's end, and neither it nor an agent before it starts at `v` -/
def FirstEnd (starts ends : List Nat) (v : Nat) : Prop := ∃ a : Nat, ends[a]? = some v ∧ v ∉ starts.take (a + 1)

/-- a dependency of the input: node `u` must come before node `v` -/
def InputDep (rows : Nat) (w : Weights) (u v : Nat) : Prop := u < rows ∧ v < rows ∧ u ≠ v ∧ w v u = -1

/-- No agent's end depends on the start of the next agent (the agents seen as a cycle), if there are several agents.  Such a dependency is
lost: finding 7, C20. -/
def NoneDropped (rows : Nat) (w : Weights) (starts ends : List Nat) : Prop :=
  ∀ u v b, InputDep rows w u v → ends[b]? = some v → starts[(b + 1) % starts.length]? = some u → starts.length = 1

/-- every dependency leads out of a start position or into an end position, so that the dependencies only say which agent visits a node;
and none is of the kind that is lost -/
def OnlyDepotDeps (rows : Nat) (w : Weights) (starts ends : List Nat) : Prop :=
  (∀ u v, InputDep rows w u v → u ∈ starts ∨ v ∈ ends) ∧ NoneDropped rows w starts ends

/-- What a dependency can belong to: an agent, or a node that is nobody's start or end. -/
inductive Place where
  | agent (a : Nat)
  | node (v : Nat)

/-- a dependency leading out of `u` concerns: each agent that starts at `u`, or `u` itself if it is an inner node -/
def OutOf (starts ends : List Nat) (u : Nat) : Place → Prop
  | .agent a => starts[a]? = some u
  | .node x => x = u ∧ u ∉ starts ++ ends

/-- a dependency leading into `v` concerns: each agent that ends at `v`, or `v` itself if it is an inner node -/
def Into (starts ends : List Nat) (v : Nat) : Place → Prop
  | .agent a => ends[a]? = some v
  | .node x => x = v ∧ v ∉ starts ++ ends

/-- A dependency puts two places on the same path; except that nothing is made of an agent's end depending on the start
of the next agent (that is finding 7, C20). -/
def PutsTogether (rows : Nat) (w : Weights) (starts ends : List Nat) (x y : Place) : Prop :=
  ∃ u v, InputDep rows w u v ∧ OutOf starts ends u x ∧ Into starts ends v y ∧
    ¬ ∃ b, y = .agent b ∧ x = .agent ((b + 1) % starts.length)

/-- the dependencies put two agents on the same path -/
def AgentsTied (rows : Nat) (w : Weights) (starts ends : List Nat) : Prop :=
  ∃ a b, a < b ∧ b < starts.length ∧ Relation.EqvGen (PutsTogether rows w starts ends) (.agent a) (.agent b)

/-- no node is a depot of two agents -/
def OwnDepots (starts ends : List Nat) : Prop :=
  ∀ a b x : Nat, (starts[a]? = some x ∨ ends[a]? = some x) → (starts[b]? = some x ∨ ends[b]? = some x) → a = b

end Mtsp
