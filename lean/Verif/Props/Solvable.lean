import Verif.Proof.Solvable
import Verif.Props.CApi
import Verif.Props.CApiRefuted
import Verif.Props.Solved

/-! C92: a dependency error is reported exactly if the given instance has no solution. -/

namespace Mtsp
open Relation

section
variable {a : CArgs} {L : Lib} {t : Nat} {tr : List (Nat × Inp)} {x : CEnd}

/-- a solution of the instance as the user states it: every node that is nobody's start or end on exactly one path, each path
from its agent's start to its end, and for each dependency `u` before `v` some path that visits `u` and later `v` -/
def CArgs.Solvable (a : CArgs) : Prop := ∃ P, InputCover a.N a.startList a.endList P ∧ Respects a.Dep P

/-- **C92 (partial), errors.** If a call returns one of the codes for dependency errors, the instance has no solution: for agents
that do not share starts or ends, and if no node has to come before the depot of a round trip.  In full this is
false: `C92_refuted_shared`, `C92_refuted_round_trip`. -/
theorem C92_error_means_unsolvable_partial (hT : a.Typed) (hA : a.Accepted) (hr : a.InRange) (hL : L.Correct)
    (hown : OwnDepots a.startList a.endList)
    (hround : ∀ k s : Nat, a.startList[k]? = some s → a.endList[k]? = some s → ∀ u, ¬ a.Dep u s)
    (h : a.Call L t tr x) (hx : x = .ret (-5) .untouched ∨ x = .ret (-6) .untouched) : ¬ a.Solvable := by
  rintro ⟨P, hP, hR⟩
  exact no_solution hown hround ((C46_dependency_codes hT hA hr hL h).1.1 hx) hP hR

/-- **C92 (partial), no errors.** If a call does not return one of these codes, the instance has a solution; unless, with
several agents, the end of an agent depends on the start of the next one (`C92_refuted_dropped`). -/
theorem C92_no_error_means_solvable_partial (hT : a.Typed) (hA : a.Accepted) (hr : a.InRange) (hL : L.Correct)
    (hdrop : NoneDropped a.N a.weight a.startList a.endList)
    (h : a.Call L t tr x) (hx : ¬ (x = .ret (-5) .untouched ∨ x = .ret (-6) .untouched)) : a.Solvable := by
  have hc := mt (C46_dependency_codes hT hA hr hL h).1.2 hx
  push Not at hc
  obtain ⟨h1, h2, h3, h4⟩ := hc
  have hv := hA.valid hr
  have hlen : a.startList.length = a.endList.length := by rw [a.startList_length, a.endList_length]
  refine exists_solution hlen ?_ h1 h2 h3 h4 ?_
  · have := hA.agents
    rw [a.startList_length]; omega
  · exact hdrop

/-- the four reasons for a dependency error -/
def CArgs.Rejected (a : CArgs) : Prop :=
  (∃ v, TransGen a.Dep v v) ∨ (∃ u v, a.Dep u v ∧ FirstStart a.startList a.endList v) ∨ (∃ u v, a.Dep u v ∧ FirstEnd a.startList a.endList u) ∨
    AgentsTied a.N a.weight a.startList a.endList

/-- the constructor accepts an instance for which there is no reason for a dependency error -/
theorem constructed (hT : a.Typed) (hA : a.Accepted) (hr : a.InRange) (hn : ¬ a.Rejected)
    (hsize : a.A * (a.N + 2 * a.A) * (a.N + 2 * a.A) ≤ 2147483647) : ∃ S, Solver.make a.N a.N a.weight a.startList a.endList a.opt t = .ok S := by
  have hw := hT.intWeights hA.pointers.2.2.1
  cases hm : Solver.make a.N a.N a.weight a.startList a.endList a.opt t with
  | ok S => exact ⟨S, rfl⟩
  | error er =>
    exfalso
    rcases Solver.make_error hw hT.size hm with h1 | ⟨m, h1, ⟨_, h2⟩ | ⟨_, h2, _⟩⟩
    · rcases (make_rejects_iff (w := a.weight) (hA.valid hr)).1 (by rintro ⟨m, hm⟩; rw [h1] at hm; simp at hm) with h2 | h2 | h2
      · exact hn (Or.inl h2)
      · exact hn (Or.inr (Or.inl h2))
      · exact hn (Or.inr (Or.inr (Or.inl h2)))
    · exact hn (Or.inr (Or.inr (Or.inr ((tied_iff h1).1 ⟨m, h1, h2⟩))))
    · have hle := WM.size_le h1
      rw [a.startList_length] at h2 hle
      have h5 : a.A * m.n * m.n ≤ a.A * (a.N + 2 * a.A) * (a.N + 2 * a.A) := Nat.mul_le_mul (Nat.mul_le_mul_left _ hle) hle
      omega

/-- **C63 (partial), end to end.** On an accepted input whose dependencies (if any) only say which agent visits a node, with at least three
nodes (or a closed tour), few enough variables and at least one thread: if nothing unusual happens, every call that ends
returns SOLVED or reports a dependency error. -/
theorem C63_solved_or_error_partial (hT : a.Typed) (hA : a.Accepted) (hr : a.InRange) (hL : L.Correct)
    (hd : OnlyDepotDeps a.N a.weight a.startList a.endList) (h3 : 3 ≤ a.N ∨ a.startList = a.endList)
    (hsize : a.A * (a.N + 2 * a.A) * (a.N + 2 * a.A) ≤ 2147483647) (hthr : ¬ (a.threads = 0 ∧ L.hw = 0))
    (hplain : a.Plain L t tr) (h : a.Call L t tr x) :
    (∃ o, x = .ret 0 o) ∨ x = .ret (-5) .untouched ∨ x = .ret (-6) .untouched := by
  by_cases hn : a.Rejected
  · exact Or.inr ((C46_dependency_codes hT hA hr hL h).1.2 hn)
  · exact Or.inl (C63_accepted_ends_solved_partial hT hA hL hd h3 (constructed hT hA hr hn hsize) hthr hplain h)

/-- a call in which nothing unusual happened is calm -/
theorem plain_calm {S : Solver} (hT : a.Typed) (hA : a.Accepted) (hS : Solver.make a.N a.N a.weight a.startList a.endList a.opt t = .ok S)
    (hplain : a.Plain L t tr) : a.Calm L tr := by
  have hw := hT.intWeights hA.pointers.2.2.1
  have hM := Solver.make_ok hw hT.size hS
  obtain ⟨_, _, c, hc, _⟩ := hM.going (hplain.1 S hS)
  intro i hi
  obtain ⟨e1, e2, e3⟩ := (hplain.2 i hi).2 S c hS hc
  refine ⟨e1, Or.inl e2, ?_⟩
  have hl : S.m.starts.length = a.A := by rw [(C18_own_starts_and_ends hM.make).2.2.1, a.startList_length]
  by_cases h1 : a.A = 1
  · exact Or.inl h1
  · right
    intro m hm y rc he k u v hk hu hv
    have hmm := hM.make
    rw [hm] at hmm
    simp only [Except.ok.injEq] at hmm
    subst hmm
    rcases (e3 y rc he).1 with h2 | h2
    · exact absurd (hl.symm.trans h2) h1
    · exact h2 k u v (by show k < S.m.starts.length; omega) hu hv

/-- **C63, C64, C92 (partial), end to end.** If an instance whose dependencies (if any) only say which agent visits a node has a solution, then - with
own depots, no dependency into the depot of a round trip, at least three nodes (or a closed tour), few enough variables and at
least one thread - every call that ends and in which nothing unusual happens returns SOLVED, with an optimal solution and its cost. -/
theorem C92_solvable_is_solved_partial (hT : a.Typed) (hA : a.Accepted) (hr : a.InRange) (hL : L.Correct)
    (hd : OnlyDepotDeps a.N a.weight a.startList a.endList) (hown : OwnDepots a.startList a.endList)
    (hround : ∀ k s : Nat, a.startList[k]? = some s → a.endList[k]? = some s → ∀ u, ¬ a.Dep u s)
    (hsol : a.Solvable) (h3 : 3 ≤ a.N ∨ a.startList = a.endList)
    (hsize : a.A * (a.N + 2 * a.A) * (a.N + 2 * a.A) ≤ 2147483647) (hthr : ¬ (a.threads = 0 ∧ L.hw = 0))
    (hplain : a.Plain L t tr) (h : a.Call L t tr x) :
    ∃ o P v, x = .ret 0 o ∧ a.Solution P ∧ a.Costs P v ∧ (∀ P' v', a.Solution P' → a.Costs P' v' → v ≤ v') ∧
      o.lower = some v ∧ o.upper = some v ∧ Layout (shown a.startList a.endList P) o := by
  have hn : ¬ a.Rejected := by
    intro hn
    obtain ⟨P, hP, hR⟩ := hsol
    exact no_solution hown hround hn hP hR
  obtain ⟨S, hS⟩ := constructed (t := t) hT hA hr hn hsize
  obtain ⟨o, rfl⟩ := C63_accepted_ends_solved_partial hT hA hL hd h3 ⟨S, hS⟩ hthr hplain h
  obtain ⟨P, v, h⟩ := C64_solved_is_optimal_partial hT hL hd h (plain_calm hT hA hS hplain)
  exact ⟨o, P, v, rfl, h⟩

end

/-! ### false in full -/

/-- two agents start at node 0; node 3 must be visited after it -/
def c92Shared : CArgs := exArgs 2 4 [0, 0] [1, 2] [[0, 1, 1, 1], [1, 0, 1, 1], [1, 1, 0, 1], [-1, 1, 1, 0]] 0

theorem c92_cover {P : Paths} {rows : Nat} {S E : List Nat} (h1 : P.length = S.length)
    (h2 : ∀ a ∈ List.range P.length, (P.getD a []) = S.getD a 0 :: middle (P.getD a []) ++ [E.getD a 0] ∧ a < S.length ∧ a < E.length)
    (h3 : (P.map middle).flatten.Perm ((List.range rows).filter fun v => decide (v ∉ S ++ E))) : InputCover rows S E P := by
  refine ⟨h1, ?_, h3⟩
  intro k q hq
  have hk := (List.getElem?_eq_some_iff.1 hq).1
  obtain ⟨e1, e2, e3⟩ := h2 k (List.mem_range.2 hk)
  have hg : P.getD k [] = q := by rw [List.getD_eq_getElem?_getD, hq]; rfl
  refine ⟨S.getD k 0, E.getD k 0, middle q, ?_, ?_, ?_⟩
  · rw [List.getD_eq_getElem?_getD, List.getElem?_eq_getElem e2]; rfl
  · rw [List.getD_eq_getElem?_getD, List.getElem?_eq_getElem e3]; rfl
  · rw [hg] at e1; exact e1

/-- **C92 is false in full**: two agents start at the same depot, and a dependency says that a node has to be visited after it,
which every solution satisfies.  The call reports incompatible dependencies. -/
theorem C92_refuted_shared : ∃ (a : CArgs) (tr : List (Nat × Inp)) (o : COut), a.Typed ∧ a.Accepted ∧ a.InRange ∧ exLib.Correct ∧
    a.Call exLib 100 tr (.ret (-6) o) ∧ (∀ P, InputCover a.N a.startList a.endList P → Respects a.Dep P) ∧ a.Solvable := by
  have hdep : ∀ u < c92Shared.N, ∀ v < c92Shared.N, u ≠ v → c92Shared.weight v u = -1 → u = 0 ∧ v = 3 := by decide +kernel
  have hall : ∀ P, InputCover c92Shared.N c92Shared.startList c92Shared.endList P → Respects c92Shared.Dep P := by
    rintro P hP u v ⟨hu, hv, hne, hw⟩
    obtain ⟨rfl, rfl⟩ := hdep u hu v hv hne hw
    have hm : 3 ∈ (P.map middle).flatten := hP.rest.mem_iff.2 (by decide +kernel)
    obtain ⟨q, hq, h3⟩ := List.mem_flatten.1 hm
    obtain ⟨p, hp, rfl⟩ := List.mem_map.1 hq
    obtain ⟨k, hk⟩ := List.mem_iff_getElem?.1 hp
    obtain ⟨s, e, mid, hs, he, rfl⟩ := hP.shape k p hk
    have hs0 : s = 0 := by
      have hss : ∀ s ∈ c92Shared.startList, s = 0 := by decide +kernel
      exact hss s (List.mem_of_getElem? hs)
    subst hs0
    rw [middle_shape] at h3
    exact ⟨_, hp, before_cons (List.mem_append_left _ h3)⟩
  have hcov : InputCover c92Shared.N c92Shared.startList c92Shared.endList [[0, 3, 1], [0, 2]] :=
    c92_cover (by decide +kernel) (by decide +kernel) (by decide +kernel)
  obtain ⟨tr, x, h1, h2, _⟩ := callB_sound (a := c92Shared) (L := exLib) (t := 100) (script := []) (late := false) (p := isCode (-6)) (by decide +kernel)
  have hT : c92Shared.Typed := exArgs_typed (by decide) (by decide) (by decide)
  have hA : c92Shared.Accepted := c92Shared.accepted_iff.2 (by decide +kernel)
  have hr : c92Shared.InRange := ⟨by decide +kernel, by decide +kernel⟩
  obtain ⟨o, rfl⟩ := isCode_ret h2
  exact ⟨c92Shared, tr, o, hT, hA, hr, exLib_correct, h1, hall, _, hcov, hall _ hcov⟩

/-- a round trip from node 0; node 1 must be visited before the return to it -/
def c92Round : CArgs := exArgs 1 3 [0] [0] [[0, -1, 1], [1, 0, 1], [1, 1, 0]] 0

/-- The same for a round trip: that a node has to be visited before the depot, where the path ends, is called incompatible. -/
theorem C92_refuted_round_trip : ∃ (a : CArgs) (tr : List (Nat × Inp)) (o : COut), a.Typed ∧ a.Accepted ∧ a.InRange ∧ exLib.Correct ∧
    OwnDepots a.startList a.endList ∧ a.Call exLib 100 tr (.ret (-6) o) ∧ (∀ P, InputCover a.N a.startList a.endList P → Respects a.Dep P) ∧ a.Solvable := by
  have hdep : ∀ u < c92Round.N, ∀ v < c92Round.N, u ≠ v → c92Round.weight v u = -1 → u = 1 ∧ v = 0 := by decide +kernel
  have hall : ∀ P, InputCover c92Round.N c92Round.startList c92Round.endList P → Respects c92Round.Dep P := by
    rintro P hP u v ⟨hu, hv, hne, hw⟩
    obtain ⟨rfl, rfl⟩ := hdep u hu v hv hne hw
    have hm : 1 ∈ (P.map middle).flatten := hP.rest.mem_iff.2 (by decide +kernel)
    obtain ⟨q, hq, h3⟩ := List.mem_flatten.1 hm
    obtain ⟨p, hp, rfl⟩ := List.mem_map.1 hq
    obtain ⟨k, hk⟩ := List.mem_iff_getElem?.1 hp
    obtain ⟨s, e, mid, hs, he, rfl⟩ := hP.shape k p hk
    have he0 : e = 0 := by
      have hss : ∀ s ∈ c92Round.endList, s = 0 := by decide +kernel
      exact hss e (List.mem_of_getElem? he)
    subst he0
    rw [middle_shape] at h3
    exact ⟨_, hp, before_snoc (List.mem_cons_of_mem _ h3)⟩
  have hcov : InputCover c92Round.N c92Round.startList c92Round.endList [[0, 1, 2, 0]] :=
    c92_cover (by decide +kernel) (by decide +kernel) (by decide +kernel)
  obtain ⟨tr, x, h1, h2, _⟩ := callB_sound (a := c92Round) (L := exLib) (t := 100) (script := []) (late := false) (p := isCode (-6)) (by decide +kernel)
  obtain ⟨o, rfl⟩ := isCode_ret h2
  refine ⟨c92Round, tr, o, exArgs_typed (by decide) (by decide) (by decide), c92Round.accepted_iff.2 (by decide +kernel), ⟨by decide +kernel, by decide +kernel⟩,
    exLib_correct, ?_, h1, hall, _, hcov, hall _ hcov⟩
  intro i j y hi hj
  have hl : c92Round.startList.length = 1 ∧ c92Round.endList.length = 1 := by decide +kernel
  have lt : ∀ k y : Nat, (c92Round.startList[k]? = some y ∨ c92Round.endList[k]? = some y) → k = 0 := by
    rintro k y (h | h)
    · have := (List.getElem?_eq_some_iff.1 h).1; omega
    · have := (List.getElem?_eq_some_iff.1 h).1; omega
  rw [lt i y hi, lt j y hj]

theorem ownTwo : OwnDepots [0, 1] [2, 3] := by
  intro i j y hi hj
  have key : ∀ k y : Nat, ([0, 1][k]? = some y ∨ [2, 3][k]? = some y) → (k = 0 ∧ (y = 0 ∨ y = 2)) ∨ (k = 1 ∧ (y = 1 ∨ y = 3)) := by
    intro k y h
    rcases k with _ | _ | k
    · simp at h; omega
    · simp at h; omega
    · simp at h
  rcases key i y hi with h | h <;> rcases key j y hj with h' | h' <;> omega

/-- two agents, 0 to 2 and 1 to 3; the end of the first depends on the start of the second -/
def c92Drop : CArgs := exArgs 2 4 [0, 1] [2, 3] [[0, 5, 0, 5], [5, 0, 5, 0], [5, -1, 0, 5], [5, 5, 5, 0]] 0

/-- Without an error, and with the code for a solved instance, although there is no solution. -/
theorem C92_refuted_dropped : ∃ (a : CArgs) (tr : List (Nat × Inp)) (o : COut), a.Typed ∧ a.Accepted ∧ a.InRange ∧ exLib.Correct ∧
    OwnDepots a.startList a.endList ∧ a.Call exLib 100 tr (.ret 0 o) ∧ ¬ a.Solvable := by
  obtain ⟨tr, x, h1, h2, _⟩ := callB_sound (a := c92Drop) (L := exLib) (t := 100) (script := idle 3) (late := false) (p := isCode 0) (by decide +kernel)
  obtain ⟨o, rfl⟩ := isCode_ret h2
  have hs : c92Drop.startList = [0, 1] := by decide +kernel
  have he : c92Drop.endList = [2, 3] := by decide +kernel
  have hown : OwnDepots c92Drop.startList c92Drop.endList := by rw [hs, he]; exact ownTwo
  refine ⟨c92Drop, tr, o, exArgs_typed (by decide) (by decide) (by decide), c92Drop.accepted_iff.2 (by decide +kernel), ⟨by decide +kernel, by decide +kernel⟩,
    exLib_correct, hown, h1, ?_⟩
  rintro ⟨P, hP, hR⟩
  obtain ⟨p, hp, hb⟩ := hR 1 2 ⟨by decide, by decide, by decide, by decide +kernel⟩
  obtain ⟨k, hk⟩ := List.mem_iff_getElem?.1 hp
  have hl : P.length = 2 := by rw [hP.len, hs]; rfl
  obtain ⟨s, e, mid, e1, e2, hq0⟩ := hP.shape 0 _ (List.getElem?_eq_getElem (by omega))
  obtain ⟨s', e', mid', e1', e2', hq1⟩ := hP.shape 1 _ (List.getElem?_eq_getElem (by omega))
  rw [hs] at e1 e1'
  rw [he] at e2 e2'
  simp at e1 e2 e1' e2'
  subst e1 e2 e1' e2'
  have k0 : k = 0 := hP.unique hown hk (List.getElem?_eq_getElem (by omega)) hb.mem_right (by rw [hq0]; simp)
  have k1 : k = 1 := hP.unique hown hk (List.getElem?_eq_getElem (by omega)) hb.mem_left (by rw [hq1]; simp)
  omega

/-! ### the hypotheses of the positive theorems can be met -/

/-- two agents, from 0 to 2 and from 1 to 3, and node 4 has to come after both starts: no solution, and an error -/
def c92Tied : CArgs := exArgs 2 5 [0, 1] [2, 3] [[0, 1, 1, 1, 1], [1, 0, 1, 1, 1], [1, 1, 0, 1, 1], [1, 1, 1, 0, 1], [-1, -1, 1, 1, 0]] 0

theorem c92Tied_tied : AgentsTied c92Tied.N c92Tied.weight c92Tied.startList c92Tied.endList := by
  have hs : c92Tied.startList = [0, 1] := by decide +kernel
  have he : c92Tied.endList = [2, 3] := by decide +kernel
  refine ⟨0, 1, by decide, by rw [hs]; decide, EqvGen.trans _ (.node 4) _ (EqvGen.rel _ _ ?_) (EqvGen.symm _ _ (EqvGen.rel _ _ ?_))⟩
  · exact ⟨0, 4, ⟨by decide, by decide, by decide, by decide +kernel⟩, by rw [hs]; rfl, ⟨rfl, by rw [hs, he]; decide⟩, by rintro ⟨b, h, _⟩; cases h⟩
  · exact ⟨1, 4, ⟨by decide, by decide, by decide, by decide +kernel⟩, by rw [hs]; rfl, ⟨rfl, by rw [hs, he]; decide⟩, by rintro ⟨b, h, _⟩; cases h⟩

example : ∃ tr x, c92Tied.Typed ∧ c92Tied.Accepted ∧ c92Tied.InRange ∧ exLib.Correct ∧ OwnDepots c92Tied.startList c92Tied.endList ∧
    (∀ k s : Nat, c92Tied.startList[k]? = some s → c92Tied.endList[k]? = some s → ∀ u, ¬ c92Tied.Dep u s) ∧
    c92Tied.Call exLib 100 tr x ∧ (x = .ret (-5) .untouched ∨ x = .ret (-6) .untouched) := by
  obtain ⟨tr, x, h1, h2, _⟩ := callB_sound (a := c92Tied) (L := exLib) (t := 100) (script := []) (late := false) (p := isCode (-6)) (by decide +kernel)
  have hs : c92Tied.startList = [0, 1] := by decide +kernel
  have he : c92Tied.endList = [2, 3] := by decide +kernel
  have hT : c92Tied.Typed := exArgs_typed (by decide) (by decide) (by decide)
  have hA : c92Tied.Accepted := c92Tied.accepted_iff.2 (by decide +kernel)
  have hr : c92Tied.InRange := ⟨by decide +kernel, by decide +kernel⟩
  refine ⟨tr, x, hT, hA, hr, exLib_correct, by rw [hs, he]; exact ownTwo, ?_, h1,
    (C46_dependency_codes hT hA hr exLib_correct h1).1.2 (Or.inr (Or.inr (Or.inr c92Tied_tied)))⟩
  rw [hs, he]
  intro k s e1 e2
  rcases k with _ | _ | k
  · simp at e1 e2; omega
  · simp at e1 e2; omega
  · simp at e1

/-- node 4 has to come after the second start only: no error -/
def c92Fine : CArgs := exArgs 2 5 [0, 1] [2, 3] [[0, 5, 0, 5, 0], [5, 0, 5, 0, 0], [5, 5, 0, 5, 5], [5, 5, 5, 0, 5], [5, -1, 0, 0, 0]] 0

example : ∃ tr x, c92Fine.Typed ∧ c92Fine.Accepted ∧ c92Fine.InRange ∧ exLib.Correct ∧ c92Fine.Dep 1 4 ∧
    NoneDropped c92Fine.N c92Fine.weight c92Fine.startList c92Fine.endList ∧
    c92Fine.Call exLib 100 tr x ∧ ¬ (x = .ret (-5) .untouched ∨ x = .ret (-6) .untouched) := by
  obtain ⟨tr, x, h1, h2, _⟩ := callB_sound (a := c92Fine) (L := exLib) (t := 100) (script := idle 3) (late := false) (p := isCode 0) (by decide +kernel)
  obtain ⟨o, rfl⟩ := isCode_ret h2
  have he : c92Fine.endList = [2, 3] := by decide +kernel
  have hdep : ∀ u < c92Fine.N, ∀ v < c92Fine.N, c92Fine.weight v u = -1 → v = 4 := by decide +kernel
  refine ⟨tr, _, exArgs_typed (by decide) (by decide) (by decide), c92Fine.accepted_iff.2 (by decide +kernel), ⟨by decide +kernel, by decide +kernel⟩,
    exLib_correct, ⟨by decide, by decide, by decide, by decide +kernel⟩, ?_, h1, by simp⟩
  rintro u v b ⟨hu, hv, _, hw⟩ hb _
  have := hdep u hu v hv hw
  subst this
  rw [he] at hb
  have := List.mem_of_getElem? hb
  simp at this

/-- Non-vacuity of `C92_solvable_is_solved_partial` and `C63_solved_or_error_partial`: two agents, a dependency says that the second one visits node 4. -/
example : ∃ tr x, c64dArgs.Typed ∧ c64dArgs.Accepted ∧ c64dArgs.InRange ∧ OnlyDepotDeps c64dArgs.N c64dArgs.weight c64dArgs.startList c64dArgs.endList ∧
    c64dArgs.Dep 1 4 ∧ OwnDepots c64dArgs.startList c64dArgs.endList ∧
    (∀ k s : Nat, c64dArgs.startList[k]? = some s → c64dArgs.endList[k]? = some s → ∀ u, ¬ c64dArgs.Dep u s) ∧ c64dArgs.Solvable ∧ 3 ≤ c64dArgs.N ∧
    c64dArgs.A * (c64dArgs.N + 2 * c64dArgs.A) * (c64dArgs.N + 2 * c64dArgs.A) ≤ 2147483647 ∧ ¬ (c64dArgs.threads = 0 ∧ exLib.hw = 0) ∧
    c64dArgs.Plain exLib 100 tr ∧ c64dArgs.Call exLib 100 tr x := by
  obtain ⟨tr, x, h1, h2, h3, h4, h5, _, h6, h7⟩ := c63d_case
  have hs : c64dArgs.startList = [0, 1] := by decide +kernel
  have he : c64dArgs.endList = [2, 3] := by decide +kernel
  have hdep : ∀ u < c64dArgs.N, ∀ v < c64dArgs.N, c64dArgs.weight v u = -1 → u = 1 ∧ v = 4 := by decide +kernel
  refine ⟨tr, x, h1, h2, ⟨by decide +kernel, by decide +kernel⟩, h3, h4, by rw [hs, he]; exact ownTwo, ?_, ⟨[[0, 2], [1, 4, 3]], ?_, ?_⟩, h5, by decide, by decide, h6, h7⟩
  · rw [hs, he]
    intro k s e1 e2
    rcases k with _ | _ | k
    · simp at e1 e2; omega
    · simp at e1 e2; omega
    · simp at e1
  · exact c92_cover (by decide +kernel) (by decide +kernel) (by decide +kernel)
  · rintro u v ⟨hu, hv, _, hw⟩
    obtain ⟨rfl, rfl⟩ := hdep u hu v hv hw
    exact ⟨[1, 4, 3], by simp, ⟨[], [], [3], rfl⟩⟩

end Mtsp
