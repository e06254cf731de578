import Verif.Proof.Play
import Verif.Props.Python

/-! Calls that meet the hypotheses of C46-C49, and counterexamples for C48, C49 and C63. -/

namespace Mtsp
open Relation

/-- one agent, three nodes; the path 0, 1, 2 costs nothing -/
def c47Args : CArgs := exArgs 1 3 [0] [2] [[0, 0, 5], [5, 0, 0], [5, 5, 0]] 0

theorem c47_typed : c47Args.Typed := exArgs_typed (by decide) (by decide) (by decide)

/-- a call that is solved -/
theorem c47_call : ∃ tr x, c47Args.Call exLib 100 tr x ∧ isRet 0 0 0 [0, 1, 2] [0] x = true := by
  obtain ⟨tr, x, h1, h2, _⟩ := callB_sound (a := c47Args) (L := exLib) (t := 100) (script := idle 3) (late := false) (p := isRet 0 0 0 [0, 1, 2] [0])
    (by decide +kernel)
  exact ⟨tr, x, h1, h2⟩

theorem isRet_ret {code : ℤ} {lo up : ℚ} {nodes offs : List Nat} {x : CEnd} (h : isRet code lo up nodes offs x = true) :
    ∃ o, x = .ret code o ∧ o.lower = some lo ∧ o.upper = some up ∧ (∀ i < nodes.length, o.paths i = nodes[i]?) ∧ ∀ i < offs.length, o.offsets i = offs[i]? := by
  cases x with
  | ret c o =>
    simp only [isRet, Bool.and_eq_true, decide_eq_true_eq, List.all_eq_true, List.mem_range] at h
    obtain ⟨⟨⟨⟨rfl, h1⟩, h2⟩, h3⟩, h4⟩ := h
    exact ⟨o, rfl, h1, h2, h3, h4⟩
  | undefined => simp [isRet] at h
  | terminated => simp [isRet] at h

theorem isCode_ret {code : ℤ} {x : CEnd} (h : isCode code x = true) : ∃ o, x = .ret code o := by
  cases x with
  | ret c o => simp only [isCode, decide_eq_true_eq] at h; subst h; exact ⟨o, rfl⟩
  | undefined => simp [isCode] at h
  | terminated => simp [isCode] at h

/-- a call that runs out of time after the construction heuristic -/
example : ∃ tr x, c47Args.Call exLib 3 tr x ∧ isRet 1 (-dblMax) 0 [0, 1, 2] [0] x = true := by
  obtain ⟨tr, x, h1, h2, _⟩ := callB_sound (a := c47Args) (L := exLib) (t := 3) (script := []) (late := true) (p := isRet 1 (-dblMax) 0 [0, 1, 2] [0])
    (by decide +kernel)
  exact ⟨tr, x, h1, h2⟩

/-- cyclic dependencies: node 2 before node 3 before node 2 -/
def c46Args : CArgs := exArgs 1 4 [0] [1] [[0, 1, 1, 1], [1, 0, 1, 1], [1, 1, 0, -1], [1, 1, -1, 0]] 0

example : c46Args.Typed ∧ c46Args.Accepted ∧ c46Args.InRange ∧ (∃ v, TransGen c46Args.Dep v v) ∧
    ∃ tr x, c46Args.Call exLib 100 tr x ∧ isCode (-5) x = true := by
  refine ⟨exArgs_typed (by decide) (by decide) (by decide), c46Args.accepted_iff.2 (by decide +kernel), ?_, ⟨2, ?_⟩, ?_⟩
  · exact ⟨by decide +kernel, by decide +kernel⟩
  · refine TransGen.tail (TransGen.single (b := 3) ?_) ?_ <;> refine ⟨by decide, by decide, by decide, ?_⟩ <;> decide +kernel
  · obtain ⟨tr, x, h1, h2, _⟩ := callB_sound (a := c46Args) (L := exLib) (t := 100) (script := []) (late := false) (p := isCode (-5)) (by decide +kernel)
    exact ⟨tr, x, h1, h2⟩

/-- incompatible dependencies: node 2 before the start -/
example : ∃ tr x, (exArgs 1 4 [0] [1] [[0, 1, -1, 1], [1, 0, 1, 1], [1, 1, 0, 1], [1, 1, 1, 0]] 0).Call exLib 100 tr x ∧ isCode (-6) x = true := by
  obtain ⟨tr, x, h1, h2, _⟩ := callB_sound (a := exArgs 1 4 [0] [1] [[0, 1, -1, 1], [1, 0, 1, 1], [1, 1, 0, 1], [1, 1, 1, 0]] 0) (L := exLib) (t := 100)
    (script := []) (late := false) (p := isCode (-6)) (by decide +kernel)
  exact ⟨tr, x, h1, h2⟩

/-- a position out of range -/
example : ∃ tr x, (exArgs 1 3 [0] [3] [[0, 0, 5], [5, 0, 0], [5, 5, 0]] 0).Call exLib 100 tr x ∧ isCode (-2147483648) x = true := by
  obtain ⟨tr, x, h1, h2, _⟩ := callB_sound (a := exArgs 1 3 [0] [3] [[0, 0, 5], [5, 0, 0], [5, 5, 0]] 0) (L := exLib) (t := 100)
    (script := []) (late := false) (p := isCode (-2147483648)) (by decide +kernel)
  exact ⟨tr, x, h1, h2⟩

/-! ### C48 -/

/-- **C48 is false**: with the deadline inside the construction heuristic a call does not report the code for "no result" (it is
not even defined); a solution exists. -/
theorem C48_refuted : ∃ (a : CArgs) (L : Lib) (t : Nat), a.Typed ∧ a.Accepted ∧ L.Correct ∧ (∃ P, InputCover a.N a.startList a.endList P) ∧
    (∃ tr, a.Call L t tr .undefined) ∧ ∀ tr x, a.Call L t tr x → x = .undefined := by
  have hA : c47Args.Accepted := c47Args.accepted_iff.2 (by decide +kernel)
  have hcall : ∃ tr, c47Args.Call exLib 2 tr .undefined := by
    obtain ⟨tr, x, h1, h2, _⟩ := callB_sound (a := c47Args) (L := exLib) (t := 2) (script := []) (late := true)
      (p := fun x => match x with | .undefined => true | _ => false) (by decide +kernel)
    cases x with
    | undefined => exact ⟨tr, h1⟩
    | ret => simp at h2
    | terminated => simp at h2
  obtain ⟨tr0, hc0⟩ := hcall
  have hex : ∃ P, InputCover c47Args.N c47Args.startList c47Args.endList P := by
    obtain ⟨tr, x, h1, h2⟩ := c47_call
    obtain ⟨o, rfl, _⟩ := isRet_ret h2
    obtain ⟨P, hP, _⟩ := C47_path_layout c47_typed exLib_correct h1 (le_refl _)
    exact ⟨P, hP⟩
  refine ⟨c47Args, exLib, 2, c47_typed, hA, exLib_correct, hex, ⟨tr0, hc0⟩, ?_⟩
  rcases try_cases c47_typed hA exLib_correct (hc0.try hA) with ⟨h1, _⟩ | ⟨_, h1, _⟩ | ⟨_, h1, _⟩ | ⟨_, m, hm, hn, ⟨h1, _⟩ | ⟨h1, _⟩ | ⟨h1, _⟩ | ⟨_, h2⟩ |
      ⟨_, o', lo, up, P, h1, _⟩⟩
  · simp at h1
  · simp at h1
  · simp at h1
  · simp at h1
  · simp at h1
  · simp at h1
  · exact fun tr x h => C48_undefined c47_typed hA exLib_correct hm (mt (tied_iff hm).2 hn) h2 h
  · simp at h1

/-! ### C49 -/

/-- two agents with a common depot -/
def c49Args : CArgs := exArgs 2 4 [0, 0] [0, 0] [[0, 0, 0, 0], [0, 0, 0, 0], [0, 0, 0, 0], [0, 0, 0, 0]] 0

theorem c49_typed : c49Args.Typed := exArgs_typed (by decide) (by decide) (by decide)

/-- **C49 is false in full**: with a common depot the C function writes the second agent's tour (its depot), the Python function
returns an empty path for it - in a call that is solved. -/
theorem C49_refuted : ∃ (a : CArgs) (L : Lib) (t : Nat) (tr : List (Nat × Inp)) (o : COut), a.Typed ∧ L.Correct ∧ a.Call L t tr (.ret 0 o) ∧
    o.offsets 1 = some 4 ∧ o.paths 4 = some 0 ∧ (pyPaths a o)[1]? = some [] := by
  obtain ⟨tr, x, h1, h2, _⟩ := callB_sound (a := c49Args) (L := exLib) (t := 100) (script := idle 3) (late := false)
    (p := fun x => isRet 0 0 0 [0, 1, 2, 3, 0] [0, 4] x && match x with | .ret _ o => decide ((pyPaths c49Args o)[1]? = some []) | _ => false)
    (by decide +kernel)
  rw [Bool.and_eq_true] at h2
  obtain ⟨o, rfl, _, _, h3, h4⟩ := isRet_ret h2.1
  refine ⟨c49Args, exLib, 100, tr, o, c49_typed, exLib_correct, h1, h4 1 (by decide), h3 4 (by decide), ?_⟩
  exact of_decide_eq_true h2.2

/-- the hypotheses of C49 and C66 are met by the call above, whose depots are not shared -/
example : (depotUses c47Args.startList c47Args.endList).Nodup ∧ ¬ (depotUses c49Args.startList c49Args.endList).Nodup := by
  constructor <;> decide +kernel

/-! ### C63 -/

/-- two nodes, one agent: from 0 to 1, cost 1 -/
def c63Args : CArgs := exArgs 1 2 [0] [1] [[0, 1], [1, 0]] 0

/-- **C63 is false**: on the smallest accepted input, without any deadline and with a correct LP solver, a call ends with the
code for an unexpected exception, although a solution exists: the root LP is infeasible (C33). -/
theorem C63_refuted : ∃ (a : CArgs) (L : Lib) (t : Nat) (tr : List (Nat × Inp)), a.Typed ∧ a.Accepted ∧ a.InRange ∧ L.Correct ∧
    InputCover a.N a.startList a.endList [[0, 1]] ∧ (∀ u v, ¬ a.Dep u v) ∧ a.Call L t tr (.ret (-2147483648) .untouched) ∧
    ∀ y ∈ tr, y.2.late = false ∧ y.2.ans ≠ .timeout ∧ y.2.ans ≠ .error := by
  have hT : c63Args.Typed := exArgs_typed (by decide) (by decide) (by decide)
  obtain ⟨tr, x, h1, h2, h3⟩ := callB_sound (a := c63Args) (L := exLib) (t := 100)
    (script := idle 5 ++ [(0, .inf [0, 0, 0, 0, 0, 0, 1, 0, 0, 2, -1])] ++ idle 4) (late := false) (p := isCode (-2147483648)) (by decide +kernel)
  obtain ⟨o, rfl⟩ := isCode_ret h2
  have ho : o = .untouched := by
    rcases C46_codes hT exLib_correct h1 with ⟨_, h⟩ | ⟨_, _, _, _, _, h | h, _⟩
    · exact h
    · norm_num at h
    · norm_num at h
  subst ho
  refine ⟨c63Args, exLib, 100, tr, hT, c63Args.accepted_iff.2 (by decide +kernel), ⟨by decide +kernel, by decide +kernel⟩, exLib_correct, ?_, ?_, h1, h3 rfl⟩
  · refine ⟨by decide +kernel, ?_, by decide +kernel⟩
    intro k p hp
    match k, hp with
    | 0, hp =>
      simp only [List.getElem?_cons_zero, Option.some.injEq] at hp
      exact ⟨0, 1, [], by decide +kernel, by decide +kernel, hp.symm⟩
  · rintro u v ⟨hu, hv, hne, hw⟩
    have key : ∀ u < c63Args.N, ∀ v < c63Args.N, c63Args.weight v u ≠ -1 := by decide +kernel
    exact key u hu v hv hw

end Mtsp
