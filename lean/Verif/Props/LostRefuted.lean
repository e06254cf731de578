import Verif.Props.CApiRefuted

/-! C63: a call that loses the proof of optimality. -/

namespace Mtsp

/-- six nodes, one agent from 0 to 5; the cheapest path 0, 3, 1, 2, 4, 5 costs 24 -/
def lostArgs : CArgs := exArgs 1 6 [0] [5] [[0, 50, 50, 7, 0, 50], [50, 0, 2, 3, 7, 1], [2, 8, 0, 50, 9, 9], [3, 4, 5, 0, 50, 50],
  [9, 8, 6, 50, 0, 2], [8, 50, 9, 50, 2, 0]] 0

/-- first LP optimum: value 18 -/
def lostY1 (i : Nat) : ℚ := if i ∈ [4, 9, 13, 20, 29, 30] then 1 else 0

/-- second LP optimum: value 45/2 -/
def lostY2 (i : Nat) : ℚ := if i = 30 then 1 else if i ∈ [3, 4, 9, 11, 13, 16, 19, 20, 26, 29] then 1 / 2 else 0

/-- Four LPs: the root, the root with one connectivity cut, the two branches.  After the second one the bound is 23 and the upper
bound 24, and the cheapest path is forbidden by reduced cost fixing; both branches are infeasible. -/
def lostScript : List (Nat × Cue) :=
  idle 5 ++
  [(0, .opt lostY1 [1, -1, -9, -6, 0, -4, -1, 0, 1, 0, 4, 9, 0, -3, 6, 0, 1, 0, 0, 0, 4, 0, -2, 0, 0, -1])] ++ idle 12 ++
  [(0, .opt lostY2 [7, 0, -17/2, -8, -2, -2, -7, 0, 0, 0, 5/4, 17/2, 0, -27/4, 8, 0, -13/4, 2, 0, -2, 2, 0, -2, 0, 0, 5, 0, 0, 0, 0, 0, 0, -1/2,
    0, 0, 0, 0, 0, 0, 0, 0, 9/4])] ++ idle 11 ++
  [(0, .inf [0, 0, 1, -4, 3, -2, -2, 1, -1, 1, 3, -3, 1, 3, 3, 1, 1, -4, 1, 2, 0, 1, 0, 1, 1, 1, 0, 0, 0, 0, 0, 0, -2, 0, 0, 0, 0, 0, 0, 0, 0, 1])] ++
  idle 6 ++
  [(0, .inf [-3, -1, 0, 1, -2, 1, 0, 1, 0, 1, 0, -1, 1, 1, -3, 1, 1, 1, 1, 0, -4, 1, 2, 1, 1, 1, 0, 0, -1, 0, 0, 0, 0, 0, 0, 0, -1])] ++ idle 4

set_option maxHeartbeats 4000000 in
theorem lost_call : callB lostArgs exLib 100 lostScript false (isCode (-2147483648)) = true := by decide +kernel

/-- **C63 is false on ordinary inputs, too**: six nodes, no dependencies, no deadline, a correct LP solver.  The LP value 45/2 is rounded
up to the bound 23 before the reduced costs are added to it, so that reduced cost fixing also forbids the cheapest path, whose
cost 24 equals the upper bound; both branches become infeasible, the lower bound stays at 23, and the call ends with the code
for an unexpected exception ("Timeout not reached, but no optimal solution found") although the optimum has been found. -/
theorem C63_refuted_rounding : ∃ (a : CArgs) (L : Lib) (t : Nat) (tr : List (Nat × Inp)), a.Typed ∧ a.Accepted ∧ a.InRange ∧ L.Correct ∧ a.N = 6 ∧
    InputCover a.N a.startList a.endList [[0, 3, 1, 2, 4, 5]] ∧ (∀ u v, ¬ a.Dep u v) ∧ a.Call L t tr (.ret (-2147483648) .untouched) ∧
    ∀ y ∈ tr, y.2.late = false ∧ y.2.ans ≠ .timeout ∧ y.2.ans ≠ .error := by
  have hT : lostArgs.Typed := exArgs_typed (by decide) (by decide) (by decide)
  obtain ⟨tr, x, h1, h2, h3⟩ := callB_sound lost_call
  obtain ⟨o, rfl⟩ := isCode_ret h2
  have ho : o = .untouched := by
    rcases C46_codes hT exLib_correct h1 with ⟨_, h⟩ | ⟨_, _, _, _, _, h | h, _⟩
    · exact h
    · norm_num at h
    · norm_num at h
  subst ho
  refine ⟨lostArgs, exLib, 100, tr, hT, lostArgs.accepted_iff.2 (by decide +kernel), ⟨by decide +kernel, by decide +kernel⟩, exLib_correct, rfl, ?_, ?_, h1, h3 rfl⟩
  · refine ⟨by decide +kernel, ?_, by decide +kernel⟩
    intro k p hp
    match k, hp with
    | 0, hp =>
      simp only [List.getElem?_cons_zero, Option.some.injEq] at hp
      exact ⟨0, 5, [3, 1, 2, 4], by decide +kernel, by decide +kernel, hp.symm⟩
  · rintro u v ⟨hu, hv, hne, hw⟩
    have key : ∀ u < lostArgs.N, ∀ v < lostArgs.N, lostArgs.weight v u ≠ -1 := by decide +kernel
    exact key u hu v hv hw

end Mtsp
