import Verif.Proof.SearchExec
import Verif.Spec.Depots

/-! Executions of the search: a complete one that meets the hypotheses of C42-C44 and C62, and counterexamples for C41 and C43. -/

namespace Mtsp

/-! ### C43 -/

/-- the state the workers start from -/
def exStart (e : BEnv) (t : Nat) : BState :=
  let r := getOk (ResState.init, 0) (createInitialResult e.mode e.m t ResState.init)
  getOk ⟨⟨[], [], 0, false⟩, r.1, CDeque.new LinCon 0, fun _ => ⟨.left, [], ⟨⟨[], [], 0, 0⟩, [], []⟩⟩⟩ (BState.start e r.1)

theorem exStart_run {e : BEnv} {t : Nat} (h : testOk (createInitialResult e.mode e.m t ResState.init) (fun r =>
    testOk (BState.start e r.1) fun _ => true) = true) : ∃ r t', createInitialResult e.mode e.m t ResState.init = .ok (r, t') ∧
      BRun e r [] (exStart e t) ∧ (exStart e t).res = r := by
  obtain ⟨⟨r, t'⟩, hr, h2⟩ := testOk_iff h
  obtain ⟨s, hs, _⟩ := testOk_iff h2
  have e1 : exStart e t = s := by unfold exStart; rw [hr]; dsimp only [getOk]; rw [hs]
  refine ⟨r, t', hr, ?_, ?_⟩
  · rw [e1]; exact BRun.start s hs
  · rw [e1]
    unfold BState.start at hs
    split at hs
    · simp at hs
    · split at hs
      · simp at hs
      · simp only [Except.ok.injEq] at hs; rw [← hs]

def c43Env : BEnv := exEnv .sum 1 5 c26W [0] [4]

/-- **C43 is false in full** (with dependencies): five nodes, node 3 must come before node 1.  The construction heuristic puts 1
before 3 and counts the flag `-1` as cost; the search stops at once with lower bound = upper bound = -1, no deadline
involved. -/
theorem C43_refuted : ∃ (e : BEnv) (rows : Nat) (w : Weights) (starts ends : List Nat) (t t' : Nat) (r : ResState)
    (tr : List (Nat × Inp)) (s : BState) (u v : Nat),
    e.Good rows w starts ends ∧ createInitialResult e.mode e.m t ResState.init = .ok (r, t') ∧ e.m.n ≤ t ∧ e.mode = .sum ∧
    BRun e r tr s ∧ (∀ x ∈ tr, x.2.Calm e False) ∧ (∀ k < e.threads, (s.wk k).pc = .left) ∧ s.res.upper ≤ s.res.lower ∧
    InputDep rows w u v ∧ ∀ p ∈ s.res.paths, ¬ Before p u v := by
  obtain ⟨r, t', hr, hrun, _⟩ := exStart_run (e := c43Env) (t := 5) (by decide +kernel)
  have hq : quietB c43Env (exStart c43Env 5) (steps 0 3) = true := by decide +kernel
  have hb : (match ((exec c43Env (exStart c43Env 5) (steps 0 3)).wk 0).pc with | .left => true | _ => false) = true ∧
      (exec c43Env (exStart c43Env 5) (steps 0 3)).res.upper ≤ (exec c43Env (exStart c43Env 5) (steps 0 3)).res.lower ∧
      (exec c43Env (exStart c43Env 5) (steps 0 3)).res.paths = [[0, 2, 1, 3, 4]] ∧ c43Env.m.n ≤ 5 := by decide +kernel
  refine ⟨c43Env, 5, c26W, [0], [4], 5, t', r, _, _, 3, 1, exEnv_good (by decide +kernel), hr, hb.2.2.2, rfl,
    hrun.quiet _ hq, ?_, ?_, hb.2.1, ⟨by norm_num, by norm_num, by norm_num, by decide⟩, ?_⟩
  · intro x hx
    have : x = (0, ⟨false, .infeasible, 1000⟩) := List.eq_of_mem_replicate hx
    subst this
    exact ⟨by simp, Or.inl rfl, by simp⟩
  · intro k hk
    have : k = 0 := by have : k < 1 := hk; omega
    subst this
    have := hb.1
    split at this
    · assumption
    · simp at this
  · rw [hb.2.2.1]
    intro p hp hbf
    rw [List.mem_singleton.1 hp, before_iff_idxOf (by decide)] at hbf
    revert hbf; decide

/-! ### C41 -/

/-- six nodes, agents 0 → 1 and 2 → 3; the paths 0-5-4-1 and 2-3 cost nothing -/
def c41W : Weights := fun u v => if (u, v) ∈ [(0, 5), (5, 4), (4, 1), (2, 3), (2, 5), (5, 3), (0, 1)] then 0 else 9

def c41Env : BEnv := exEnv .sum 1 6 c41W [0, 2] [1, 3]

/-- the point of the optimal solution -/
def c41Y : Nat → ℚ := fun i => if i ∈ [5, 34, 25, 8, 51, 54] then 1 else 0

/-- row multipliers: 10 on the row `x(0, 1, 2) = 1` of the artificial arc -/
def c41Mult : List ℚ := c41Env.rows0.map fun r => if r.coefs = [(8, 1)] ∧ r.lower = 1 then 10 else 0

/-- just before the LP of the root is solved -/
def c41S : BState := exec c41Env (exStart c41Env 6) (steps 0 5)

/-- the answer of the LP solver -/
def c41A : Inp := ⟨false, .optimal c41Y (rcOf (c41Env.prob (c41S.wk 0)) c41Mult), 1000⟩

/-- the worker has raised its bound -/
def c41S' : BState := exec c41Env (c41S.step c41Env 0 c41A) (steps 0 2)

theorem c41_cert : certB (c41Env.prob (c41S.wk 0)) c41Y c41Mult = true := by decide +kernel

/-- a worker has not crashed -/
def Pc.alive : Pc → Bool
  | .crashed _ => false
  | _ => true

theorem Pc.isSolve_eq {pc : Pc} (h : pc.isSolve = true) : ∃ lb, pc = .solve lb := by
  cases pc <;> simp [Pc.isSolve] at h
  exact ⟨_, rfl⟩

theorem step_solve {e : BEnv} {s : BState} {t : Nat} {i : Inp} {lb : ℚ} {y rc : Nat → ℚ} (h : (s.wk t).pc = .solve lb)
    (hi : i.ans = .optimal y rc) : ((s.step e t i).wk t).pc = .raise (ceilBound (e.obj.eval y)) y rc := by
  simp only [BState.step, h, hi, BState.goto, setWk_self]

theorem step_raise {e : BEnv} {s : BState} {t : Nat} {i : Inp} {lb : ℚ} {y rc : Nat → ℚ} (h : (s.wk t).pc = .raise lb y rc)
    (hal : ((s.step e t i).wk t).pc.alive = true) : ((s.step e t i).wk t).pc = .getLB lb y rc := by
  simp only [BState.step, h] at hal ⊢
  split at hal
  · simp [BState.goto, BState.setWk, Pc.alive] at hal
  · rename_i hq; simp only [hq, BState.goto, setWk_self]

theorem step_getLB {e : BEnv} {s : BState} {t : Nat} {i : Inp} {lb : ℚ} {y rc : Nat → ℚ} (h : (s.wk t).pc = .getLB lb y rc)
    (hal : ((s.step e t i).wk t).pc.alive = true) : ∃ l, ((s.step e t i).wk t).pc = .updLB lb l y rc := by
  simp only [BState.step, h] at hal ⊢
  split at hal
  · simp [BState.goto, BState.setWk, Pc.alive] at hal
  · rename_i l hq; exact ⟨l, by simp only [hq, BState.goto, setWk_self]⟩

/-- **C41 is false in full** (several agents): two agents, six nodes, root node.  The LP optimum is the optimal solution (cost 0,
upper bound 9); the row of the artificial arc from agent 0's end to agent 1's start has a dual multiplier 10, so the
reduced cost of that arc is -10 and the arc is fixed to 1, and with it agent 1 is forbidden to leave its start: the
improving solution is removed from the node. -/
theorem C41_refuted : ∃ (e : BEnv) (rows : Nat) (w : Weights) (starts ends : List Nat) (t t' : Nat) (r : ResState)
    (tr : List (Nat × Inp)) (s : BState) (lb : ℚ) (y rc : Nat → ℚ) (P : Paths) (c : ℚ) (f0 f1 : List Nat),
    e.Good rows w starts ends ∧ createInitialResult e.mode e.m t ResState.init = .ok (r, t') ∧ e.m.n ≤ t ∧
    BRun e r tr s ∧ 0 < e.threads ∧ BeforeFixing (s.wk 0) lb y rc ∧ lb < s.res.upper ∧
    e.Feasible P ∧ IsObjective e.mode e.m.w P c ∧ c < s.res.upper ∧ (s.wk 0).fix.fixed0 = [] ∧ (s.wk 0).fix.fixed1 = [] ∧
    rcFix e (s.wk 0).fix.model lb s.res.upper y rc (List.range (s.wk 0).fix.model.nBin) ([], []) = .ok (f0, f1) ∧
    ∀ x, IsPoint e.m.n e.m.starts e.m.ends P x → ∃ i ∈ f0, x i = 1 := by
  obtain ⟨r, t', hr, hrun, _⟩ := exStart_run (e := c41Env) (t := 6) (by decide +kernel)
  have hq1 : quietB c41Env (exStart c41Env 6) (steps 0 5) = true := by decide +kernel
  have hrun1 := hrun.quiet _ hq1
  have hsol : (c41S.wk 0).pc.isSolve = true := by decide +kernel
  have hok : c41A.Ok c41Env c41S 0 := by
    unfold Inp.Ok
    split
    · exact certB_sound c41_cert
    · trivial
  have hrun2 := BRun.step _ _ 0 c41A hrun1 (show 0 < 1 by norm_num) hok
  have hq2 : quietB c41Env (c41S.step c41Env 0 c41A) (steps 0 2) = true := by decide +kernel
  have hrun3 := hrun2.quiet _ hq2
  obtain ⟨lb0, hlb0⟩ := Pc.isSolve_eq hsol
  have p1 := step_solve (e := c41Env) hlb0 (show c41A.ans = _ from rfl)
  have a2 : (((c41S.step c41Env 0 c41A).step c41Env 0 ⟨false, .infeasible, 1000⟩).wk 0).pc.alive = true := by decide +kernel
  have p2 := step_raise p1 a2
  have a3 : ((((c41S.step c41Env 0 c41A).step c41Env 0 ⟨false, .infeasible, 1000⟩).step c41Env 0 ⟨false, .infeasible, 1000⟩).wk 0).pc.alive = true := by
    decide +kernel
  have p3 := step_getLB p2 a3
  have hval : ceilBound (c41Env.obj.eval c41Y) = 0 ∧ c41S'.res.upper = 9 ∧ (c41S'.wk 0).fix.fixed0 = [] ∧ (c41S'.wk 0).fix.fixed1 = [] ∧
      c41Env.m.n = 6 ∧ c41Env.m.starts = [0, 2] ∧ c41Env.m.ends = [1, 3] := by decide +kernel
  obtain ⟨v1, v2, v3, v4, v5, v6, v7⟩ := hval
  rw [v1] at p3
  have hfix : testOk (rcFix c41Env (c41S'.wk 0).fix.model 0 9 c41Y (rcOf (c41Env.prob (c41S.wk 0)) c41Mult)
      (List.range (c41S'.wk 0).fix.model.nBin) ([], [])) (fun f => decide (51 ∈ f.1)) = true := by decide +kernel
  obtain ⟨⟨f0, f1⟩, hf, h51⟩ := testOk_iff hfix
  have hfeas : feasB c41Env.m [[0, 5, 4, 1], [2, 3]] = true := by decide +kernel
  have hobj : calcObjective .sum [[0, 5, 4, 1], [2, 3]] (fun _ => c41Env.m.w) = 0 := by decide +kernel
  refine ⟨c41Env, 6, c41W, [0, 2], [1, 3], 6, t', r, _, c41S', 0, c41Y, rcOf (c41Env.prob (c41S.wk 0)) c41Mult, [[0, 5, 4, 1], [2, 3]], 0, f0, f1,
    exEnv_good (by decide +kernel), hr, v5.le, hrun3, by show 0 < 1; norm_num, Or.inr p3, by rw [v2]; norm_num, feasB_sound hfeas,
    hobj ▸ isObjective_calc _ _ _, by rw [v2]; norm_num, v3, v4, by rw [v2]; exact hf, ?_⟩
  intro x hx
  rw [v5, v6, v7] at hx
  refine ⟨51, of_decide_eq_true h51, ?_⟩
  exact (hx 1 2 3 (by simp) (by simp) (by simp)).1 (Or.inl ⟨[2, 3], rfl, [], [], rfl⟩)

/-! ### a complete execution -/

/-- the same instance; as source of cuts for the 2-matching separation a short correct one (the Gomory-Hu construction is too slow for
evaluation in the kernel) -/
def c62Env : BEnv := { c41Env with gh := ghHalves }

def c62S : BState := exec c62Env (exStart c62Env 6) (steps 0 5)

/-- reduced costs that belong to zero multipliers: the weights -/
def c62A : Inp := ⟨false, .optimal c41Y (rcOf (c62Env.prob (c62S.wk 0)) []), 1000⟩

def c62T (n : Nat) : BState := exec c62Env (c62S.step c62Env 0 c62A) (steps 0 n)

/-- the execution: five steps, the LP answer, ten steps -/
def c62Tr : List (Nat × Inp) := ([] ++ steps 0 5) ++ [(0, c62A)] ++ steps 0 10

theorem c62_good : c62Env.Good 6 c41W [0, 2] [1, 3] := { exEnv_good (mode := .sum) (threads := 1) (by decide +kernel) with ghOk := ghHalves_correct.proper }

theorem c62_calm : ∀ x ∈ c62Tr, x.2.Calm c62Env False := by
  have hs : ∀ n, ∀ x ∈ steps 0 n, x.2.Calm c62Env False := by
    intro n x hx
    have : x = (0, ⟨false, .infeasible, 1000⟩) := List.eq_of_mem_replicate hx
    subst this
    exact ⟨by simp, Or.inl rfl, by simp⟩
  intro x hx
  unfold c62Tr at hx
  rcases List.mem_append.1 hx with hx | hx
  · rcases List.mem_append.1 hx with hx | hx
    · exact hs 5 x hx
    · rw [List.mem_singleton.1 hx]
      refine ⟨by simp [c62A], Or.inl rfl, ?_⟩
      intro y rc he
      simp only [c62A, LPAnswer.optimal.injEq] at he
      obtain ⟨_, rfl⟩ := he
      right
      have key : ∀ a < c62Env.m.starts.length, ∀ u < c62Env.m.n, ∀ v ∈ c62Env.m.starts,
          0 ≤ rcOf (c62Env.prob (c62S.wk 0)) [] (varId c62Env.m.n a u v) := by decide +kernel
      exact fun a u v ha hu hv => le_trans (by norm_num) (key a ha u hu v hv)
  · exact hs 10 x hx

/-- The hypotheses of C42-C44 and C62 are met by a complete execution: the heuristic solution costs 9, the optimum 0; the LP
optimum of the root is integral and replaces the heuristic solution, and the worker leaves with both bounds 0. -/
theorem c62_run : ∃ r t', createInitialResult c62Env.mode c62Env.m 6 ResState.init = .ok (r, t') ∧ r.upper = 9 ∧ c62Env.m.n ≤ 6 ∧
    BRun c62Env r c62Tr (c62T 10) ∧ (∀ u < c62Env.threads, ((c62T 10).wk u).pc = .left) ∧
    (c62T 10).res.upper = 0 ∧ (c62T 10).res.lower = 0 ∧ (c62T 10).res.paths = [[0, 5, 4, 1], [2, 3]] := by
  obtain ⟨r, t', hr, hrun, hres⟩ := exStart_run (e := c62Env) (t := 6) (by decide +kernel)
  have hq1 : quietB c62Env (exStart c62Env 6) (steps 0 5) = true := by decide +kernel
  have hrun1 := hrun.quiet _ hq1
  have hok : c62A.Ok c62Env c62S 0 := by
    unfold Inp.Ok
    split
    · exact certB_sound (by decide +kernel)
    · trivial
  have hrun2 := BRun.step _ _ 0 c62A hrun1 (show 0 < 1 by norm_num) hok
  have hq2 : quietB c62Env (c62S.step c62Env 0 c62A) (steps 0 10) = true := by decide +kernel
  have hv : (exStart c62Env 6).res.upper = 9 ∧ c62Env.m.n ≤ 6 ∧ (c62T 10).res.upper = 0 ∧ (c62T 10).res.lower = 0 ∧
      (c62T 10).res.paths = [[0, 5, 4, 1], [2, 3]] ∧
      (match ((c62T 10).wk 0).pc with | .left => true | _ => false) = true := by decide +kernel
  obtain ⟨v1, v2, v3, v4, v5, v6⟩ := hv
  refine ⟨r, t', hr, hres ▸ v1, v2, hrun2.quiet _ hq2, ?_, v3, v4, v5⟩
  intro u hu
  have : u = 0 := by have : u < 1 := hu; omega
  subst this
  split at v6
  · assumption
  · simp at v6

example : c62Env.Optimal (c62T 10).res := by
  obtain ⟨r, t', hr, _, hn, hrun, hl, _⟩ := c62_run
  exact C62_complete_search_partial c62_good hr hn (Or.inl rfl) hrun c62_calm hl

example (P : Paths) (c : ℚ) (hP : c62Env.Feasible P) (hc : IsObjective c62Env.mode c62Env.m.w P c) : (c62T 10).res.lower ≤ c := by
  obtain ⟨r, t', hr, _, _, hrun, _⟩ := c62_run
  exact C42_lower_bound_partial c62_good hr hrun (fun x hx => ⟨(c62_calm x hx).1, Or.inl ((c62_calm x hx).2.1.resolve_right id), (c62_calm x hx).2.2⟩) hP hc

end Mtsp
