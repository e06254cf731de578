import Verif.Props.EndToEnd
import Verif.Props.SearchRefuted

/-! Counterexample for C42 and C64 in full: a node whose LP is cut off by the deadline is dropped, and the lower bound is then
computed from the remaining nodes. -/

namespace Mtsp

/-- Seven nodes, agents 0 → 1 and 2 → 3; 4 must come after 2, so agent 1 has to serve it.  Agent 0's path costs 3.  The paths 0-1 and
2-4-6-5-3 (cost 0) are optimal; the heuristics find 2-5-4-6-3 (cost 12). -/
def c42Z (u v : Nat) : ℤ :=
  if u = v ∨ (u, v) ∈ [(2, 4), (4, 6), (6, 5), (5, 3), (2, 6), (4, 3), (2, 5), (5, 6), (6, 3), (2, 3)] then 0
  else if (u, v) = (0, 1) then 3 else if (u, v) = (5, 4) then 12 else if (u, v) = (4, 2) then -1 else 1000

/-- LP optimum of the root: three quarters of the optimal solution, one quarter of 2-6-5-4-3 (cost 12); the maximum is 3 -/
def c42Y1 : Nat → ℚ := fun i =>
  if i = 98 then 3 else (if i ∈ [1, 9, 67, 83, 96, 87, 70] then 3 / 4 else 0) + if i ∈ [1, 9, 69, 96, 88, 80, 70] then 1 / 4 else 0

/-- LP optimum of the node where agent 1 must not go from 2 to 4: the maximum is 12 -/
def c42Y2 : Nat → ℚ := fun i => if i = 98 then 12 else if i ∈ [1, 9, 69, 96, 88, 80, 70] then 1 else 0

def c42Mult (l : List (Nat × ℚ)) : List ℚ := (List.range 73).map fun i => (l.lookup i).getD 0

/-- root, branching on the arc from 2 to 4; the node without this arc has lower bound 12; the LP of the node with this arc runs into
the deadline -/
def c42Script : List (Nat × Cue) :=
  idle 5 ++ [(0, .opt c42Y1 (c42Mult [(0, 1), (40, 3), (2, -3), (46, -1)]))] ++ idle 10 ++
    [(0, .opt c42Y2 (c42Mult [(1, 1), (43, 12), (48, -12), (13, -12), (46, -1)]))] ++ idle 11 ++ [(0, .timeout)] ++
    List.replicate 4 (0, .go true)

def c42Args : CArgs := exArgs 2 7 [0, 2] [1, 3] ((List.range 7).map fun u => (List.range 7).map (c42Z u)) 1

set_option maxHeartbeats 4000000 in
theorem c42_call : callB c42Args exLib 100 c42Script true (isRet 0 12 12 [0, 1, 2, 5, 4, 6, 3] [0, 2]) = true := by decide +kernel

/-- facts about the input -/
theorem c42_input : c42Args.Typed ∧ OnlyDepotDeps c42Args.N c42Args.weight c42Args.startList c42Args.endList ∧
    c42Args.Solution [[0, 1], [2, 4, 6, 5, 3]] ∧ c42Args.Costs [[0, 1], [2, 4, 6, 5, 3]] 3 := by
  have key : ∀ u < c42Args.N, ∀ v < c42Args.N, c42Args.weight v u = -1 → u = 2 ∧ v = 4 := by decide +kernel
  refine ⟨exArgs_typed (by decide) (by decide) (by decide), ?_, ⟨?_, ?_⟩, ?_⟩
  · refine ⟨?_, ?_⟩
    · rintro u v ⟨hu, hv, hne, hw⟩
      obtain ⟨rfl, rfl⟩ := key u hu v hv hw
      exact Or.inl (by decide +kernel)
    · rintro u v b ⟨hu, hv, hne, hw⟩ hb
      obtain ⟨rfl, rfl⟩ := key u hu v hv hw
      exact absurd (List.mem_of_getElem? hb) (by decide +kernel)
  · refine ⟨by decide +kernel, ?_, by decide +kernel⟩
    intro k p hp
    match k, hp with
    | 0, hp =>
      simp only [List.getElem?_cons_zero, Option.some.injEq] at hp
      exact ⟨0, 1, [], by decide +kernel, by decide +kernel, hp.symm⟩
    | 1, hp =>
      simp only [List.getElem?_cons_succ, List.getElem?_cons_zero, Option.some.injEq] at hp
      exact ⟨2, 3, [4, 6, 5], by decide +kernel, by decide +kernel, hp.symm⟩
  · rintro u v ⟨hu, hv, hne, hw⟩
    obtain ⟨rfl, rfl⟩ := key u hu v hv hw
    refine ⟨[2, 4, 6, 5, 3], by simp, ?_⟩
    rw [before_iff_idxOf (by decide)]
    decide
  · have : calcObjective .max [[0, 1], [2, 4, 6, 5, 3]] (fun _ => inputCost c42Args.weight) = 3 := by decide +kernel
    exact this ▸ isObjective_calc _ _ _

/-- the same input, two threads -/
def c42Args2 : CArgs := { c42Args with threads := 2 }

/-- LP optimum of the node where agent 1 must go from 2 to 4: mostly the optimal solution -/
def c42Y3 : Nat → ℚ := fun i =>
  if i = 98 then 3 else (if i ∈ [1, 9, 67, 83, 96, 87, 70] then 999 / 1000 else 0) + if i ∈ [1, 9, 67, 82, 90, 94, 70] then 1 / 1000 else 0

/-- Two workers.  Worker 0 branches and takes the node without the arc from 2 to 4, worker 1 the other one.  Worker 0 finishes (lower bound
12), sees that the time is up and clears the queue.  The LP of worker 1 is solved properly, but the nodes it pushes are
ignored. -/
def c42Script2 : List (Nat × Cue) :=
  idle 5 ++ [(0, .opt c42Y1 (c42Mult [(0, 1), (40, 3), (2, -3), (46, -1)]))] ++ idle 10 ++ List.replicate 4 (1, .go false) ++
    [(0, .opt c42Y2 (c42Mult [(1, 1), (43, 12), (48, -12), (13, -12), (46, -1)]))] ++ idle 7 ++ List.replicate 2 (0, .go true) ++
    [(1, .opt c42Y3 (c42Mult [(0, 1), (40, 3), (2, -3), (46, -1)]))] ++ List.replicate 8 (1, .go true)

set_option maxHeartbeats 4000000 in
theorem c42_call2 : callB c42Args2 exLib 100 c42Script2 true (isRet 0 12 12 [0, 1, 2, 5, 4, 6, 3] [0, 2]) = true := by decide +kernel

/-- **C64 is false in full**: the C function returns SOLVED with both bounds 12, although the input has a solution of cost 3. -/
theorem C64_refuted : ∃ (a : CArgs) (L : Lib) (t : Nat) (tr : List (Nat × Inp)) (o : COut) (P : List (List Nat)), a.Typed ∧ L.Correct ∧
    OnlyDepotDeps a.N a.weight a.startList a.endList ∧ threadCount L.hw a.threads = 1 ∧ a.Call L t tr (.ret 0 o) ∧
    o.lower = some 12 ∧ o.upper = some 12 ∧ a.Solution P ∧ a.Costs P 3 := by
  obtain ⟨tr, x, h1, h2, _⟩ := callB_sound c42_call
  obtain ⟨o, rfl, hl, hu, _⟩ := isRet_ret h2
  obtain ⟨i1, i2, i3, i4⟩ := c42_input
  exact ⟨c42Args, exLib, 100, tr, o, _, i1, exLib_correct, i2, by decide, h1, hl, hu, i3, i4⟩

/-- **C64 is false in full**, also if no LP is cut off: two threads are enough. -/
theorem C64_refuted_threads : ∃ (a : CArgs) (L : Lib) (t : Nat) (tr : List (Nat × Inp)) (o : COut) (P : List (List Nat)), a.Typed ∧ L.Correct ∧
    OnlyDepotDeps a.N a.weight a.startList a.endList ∧ threadCount L.hw a.threads = 2 ∧ a.Call L t tr (.ret 0 o) ∧ (∀ x ∈ tr, x.2.ans ≠ .timeout) ∧
    o.lower = some 12 ∧ o.upper = some 12 ∧ a.Solution P ∧ a.Costs P 3 := by
  obtain ⟨tr, x, h1, h2, h3⟩ := callB_answers c42_call2 (by decide)
  obtain ⟨o, rfl, hl, hu, _⟩ := isRet_ret h2
  obtain ⟨i1, i2, i3, i4⟩ := c42_input
  exact ⟨c42Args2, exLib, 100, tr, o, _, ⟨i1.1, i1.2, i1.3⟩, exLib_correct, i2, by decide, h1, h3, hl, hu, i3, i4⟩

/-- a wrong lower bound written by the C function is a wrong lower bound in the search -/
theorem wrong_bound {a : CArgs} {L : Lib} {t : Nat} {tr : List (Nat × Inp)} {o : COut} {P : List (List Nat)} (hT : a.Typed) (hL : L.Correct)
    (h : a.Call L t tr (.ret 0 o)) (hlo : o.lower = some 12)
    (hP : a.Solution P) (hc : a.Costs P 3) : ∃ (e : BEnv) (rows : Nat) (w : Weights) (starts ends : List Nat) (t' : Nat) (r : ResState)
    (s : BState) (P : Paths) (c : ℚ),
    e.Good rows w starts ends ∧ createInitialResult e.mode e.m t ResState.init = .ok (r, t') ∧ e.m.n ≤ t ∧ e.threads = threadCount L.hw a.threads ∧
    BRun e r tr s ∧ e.Feasible P ∧ IsObjective e.mode e.m.w P c ∧ c < s.res.lower := by
  obtain ⟨hA, hr, S, r, hS, ht, hs, e1, e2, _⟩ := success_solve hT hL h (le_refl _)
  have hw := hT.intWeights hA.pointers.2.2.1
  obtain ⟨Q, hQ, hQc⟩ := feasible_of_solution hS.make hS.free hP.1 hP.2 hc
  rw [hlo] at e1
  simp only [Option.some.injEq] at e1
  generalize ho : Outcome.ok r = oo at hs
  cases hs with
  | late h0 =>
    exfalso
    simp only [Outcome.ok.injEq] at ho
    have : r.lower = S.res.lower := by rw [ho]; rfl
    rw [hS.lower, ← e1] at this
    have := dblMax_pos
    linarith
  | refused => simp at ho
  | unfinished => simp at ho
  | failed => simp at ho
  | aborted => simp at ho
  | finished cc _ s late r' hpos hcc hrun hleft hlate hfin =>
    simp only [Outcome.ok.injEq] at ho
    subst ho
    obtain ⟨t', hr0, c', hc', hcols⟩ := hS.going hpos
    rw [hcc] at hc'
    simp only [Option.some.injEq] at hc'
    subst hc'
    refine ⟨S.env L a.threads cc, a.N, a.weight, a.startList, a.endList, t', S.res, s, Q, 3, hS.good hw hL a.threads hcols, ?_, ht, rfl, hrun, hQ, ?_, ?_⟩
    · show createInitialResult S.mode S.m t ResState.init = .ok (S.res, t')
      rw [hS.mode_eq]; exact hr0
    · show IsObjective S.mode S.m.w Q 3
      rw [hS.mode_eq]; exact hQc
    · have : r.lower = s.res.lower := by
        unfold BState.finish at hfin
        split at hfin
        · cases late with
          | false => simp at hfin
          | true =>
            simp only [if_true, Except.ok.injEq] at hfin
            subst hfin
            rfl
        · simp only [Except.ok.injEq] at hfin
          subst hfin
          rfl
      rw [← this, ← e1]; norm_num


/-- **C42 is false in full**: one worker, LP answers all correct; the LP of one node is cut off by the deadline; the lower bound becomes
12 although a solution of cost 3 exists. -/
theorem C42_refuted : ∃ (e : BEnv) (rows : Nat) (w : Weights) (starts ends : List Nat) (t t' : Nat) (r : ResState)
    (tr : List (Nat × Inp)) (s : BState) (P : Paths) (c : ℚ),
    e.Good rows w starts ends ∧ createInitialResult e.mode e.m t ResState.init = .ok (r, t') ∧ e.m.n ≤ t ∧ e.threads = 1 ∧
    BRun e r tr s ∧ e.Feasible P ∧ IsObjective e.mode e.m.w P c ∧ c < s.res.lower := by
  obtain ⟨a, L, t, tr, o, P, hT, hL, _, h1, h, hlo, hup, hP, hc⟩ := C64_refuted
  obtain ⟨e, rows, w, starts, ends, t', r, s, P, c, g1, g2, g3, g4, g⟩ := wrong_bound hT hL h hlo hP hc
  exact ⟨e, rows, w, starts, ends, t, t', r, tr, s, P, c, g1, g2, g3, g4.trans h1, g⟩

/-- **C42 is false in full**, also if no LP is cut off: with two workers the nodes pushed after the deadline are dropped. -/
theorem C42_refuted_threads : ∃ (e : BEnv) (rows : Nat) (w : Weights) (starts ends : List Nat) (t t' : Nat) (r : ResState)
    (tr : List (Nat × Inp)) (s : BState) (P : Paths) (c : ℚ),
    e.Good rows w starts ends ∧ createInitialResult e.mode e.m t ResState.init = .ok (r, t') ∧ e.m.n ≤ t ∧ e.threads = 2 ∧
    BRun e r tr s ∧ (∀ x ∈ tr, x.2.ans ≠ .timeout) ∧ e.Feasible P ∧ IsObjective e.mode e.m.w P c ∧ c < s.res.lower := by
  obtain ⟨a, L, t, tr, o, P, hT, hL, _, h1, h, h2, hlo, hup, hP, hc⟩ := C64_refuted_threads
  obtain ⟨e, rows, w, starts, ends, t', r, s, P, c, g1, g2, g3, g4, g5, g⟩ := wrong_bound hT hL h hlo hP hc
  exact ⟨e, rows, w, starts, ends, t, t', r, tr, s, P, c, g1, g2, g3, g4.trans h1, g5, h2, g⟩

end Mtsp
