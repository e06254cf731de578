import Verif.Proof.SearchRounded

/-! C90: the search in floating point. -/

namespace Mtsp

section
variable {e : BEnv} {ord : List (Nat × ℚ) → List (Nat × ℚ)} {rows : Nat} {w : Weights} {starts ends : List Nat} {t t' : Nat} {r : ResState}
  {tr : List (Nat × Inp)} {s : BState}

/-- **C90, the objective value.** Summed up in floating point, in any order, the objective function is accurate to `8e-11`, if the
number of its nonzero terms times the sum of their absolute values is at most 640000. -/
theorem C90_objective_value {fl : ℚ → ℚ} (hp : Precise fl) (hset : Settled fl) (ho : ∀ l, (ord l).Perm l) {l : LinComp} {y : Nat → ℚ}
    (hc : fl l.const = l.const) (h1 : l.terms y ≤ 10 ^ 9) (h2 : (l.terms y + 1) * l.size y ≤ 640000) :
    |l.evalF fl ord y - l.eval y| ≤ 8 / 10 ^ 11 := evalF_near hp hset ho hc h1 h2

/-- doubles are as the theorems assume -/
theorem C90_double : Rounding roundDouble ∧ Precise roundDouble ∧ Settled roundDouble :=
  ⟨roundDouble_rounding, roundDouble_precise, roundDouble_settled⟩

/-- **C90, lower bound (partial).** In floating point, with an LP solver of noise `1e-11` and objective values up to 2^15, the
reported lower bound is at every moment a lower bound on the cost of every feasible solution.  Missing, as in
`C42_lower_bound_partial`: an LP solve that hits the deadline, more than one worker at a deadline, several agents with negative
reduced costs on artificial arcs. -/
theorem C90_lower_bound_partial (g : e.Good rows w starts ends) (hset : Settled e.fl) (ho : ∀ l, (ord l).Perm l)
    (hr : createInitialResult e.mode e.m t ResState.init = .ok (r, t')) (hub : r.upper ≤ 2 ^ 15) (run : FloatRun e ord r tr s)
    (hcalm : ∀ x ∈ tr, x.2.Calm e (e.threads = 1))
    {P : Paths} {c : ℚ} (hP : e.Feasible P) (hc : IsObjective e.mode e.m.w P c) : s.res.lower ≤ c := by
  obtain ⟨tr', s', hrun, hsim, hcalm'⟩ := run.exact g hset ho hr hub
  rw [← hsim.res]
  exact C42_lower_bound_partial g hr hrun (hcalm' _ hcalm) hP hc

/-- **C90, solved means optimal (partial).** If the lower bound has reached the upper bound, the reported paths cost the upper
bound and no feasible solution is cheaper. -/
theorem C90_solved_means_optimal_partial (g : e.Good rows w starts ends) (hset : Settled e.fl) (ho : ∀ l, (ord l).Perm l)
    (hr : createInitialResult e.mode e.m t ResState.init = .ok (r, t')) (ht : e.m.n ≤ t) (hpos : e.mode = .sum ∨ 0 ≤ r.upper)
    (hub : r.upper ≤ 2 ^ 15) (run : FloatRun e ord r tr s) (hcalm : ∀ x ∈ tr, x.2.Calm e (e.threads = 1))
    (hsolved : s.res.upper ≤ s.res.lower) : e.Optimal s.res := by
  obtain ⟨tr', s', hrun, hsim, hcalm'⟩ := run.exact g hset ho hr hub
  rw [← hsim.res] at hsolved ⊢
  exact C43_solved_means_optimal_partial g hr ht hpos hrun (hcalm' _ hcalm) hsolved

/-- **C90, complete search (partial).** A search that ends without a deadline has found an optimum. -/
theorem C90_complete_search_partial (g : e.Good rows w starts ends) (hset : Settled e.fl) (ho : ∀ l, (ord l).Perm l)
    (hr : createInitialResult e.mode e.m t ResState.init = .ok (r, t')) (ht : e.m.n ≤ t) (hpos : e.mode = .sum ∨ 0 ≤ r.upper)
    (hub : r.upper ≤ 2 ^ 15) (run : FloatRun e ord r tr s) (hcalm : ∀ x ∈ tr, x.2.Calm e False)
    (hleft : ∀ u < e.threads, (s.wk u).pc = .left) : e.Optimal s.res := by
  obtain ⟨tr', s', hrun, hsim, hcalm'⟩ := run.exact g hset ho hr hub
  rw [← hsim.res]
  refine C62_complete_search_partial g hr ht hpos hrun (hcalm' _ hcalm) (fun u hu => ?_)
  have := hsim.pc u
  rw [hleft u hu] at this
  exact this

/-- **C90, the reported paths.** Whatever happens, deadlines included, the reported paths are a cover of the nodes by paths from
starts to ends that costs what is reported, with the nodes of each dependency on the same path. -/
theorem C90_paths_cost_upper (g : e.Good rows w starts ends) (hset : Settled e.fl) (ho : ∀ l, (ord l).Perm l)
    (hr : createInitialResult e.mode e.m t ResState.init = .ok (r, t')) (ht : e.m.n ≤ t) (hpos : e.mode = .sum ∨ 0 ≤ r.upper)
    (hub : r.upper ≤ 2 ^ 15) (run : FloatRun e ord r tr s) :
    ∃ Q, IsCover e.m.n e.m.starts e.m.ends Q ∧ s.res.paths = Q.map (·.map e.m.orig) ∧ IsObjective e.mode e.m.w Q s.res.upper ∧
      Grouped (DepIn e.m.n e.m.w) Q := by
  obtain ⟨tr', s', hrun, hsim, _⟩ := run.exact g hset ho hr hub
  rw [← hsim.res]
  exact run_backed g hr ht hpos hrun

/-- **C90, no failures.** No worker ends with an exception or an access out of range, unless the LP solver has reported an error. -/
theorem C90_no_crash (g : e.Good rows w starts ends) (hset : Settled e.fl) (ho : ∀ l, (ord l).Perm l)
    (hr : createInitialResult e.mode e.m t ResState.init = .ok (r, t')) (hub : r.upper ≤ 2 ^ 15) (run : FloatRun e ord r tr s)
    {u : Nat} (hu : u < e.threads) {er : Err} (hc : (s.wk u).pc = .crashed er) : er = .logic "Unexpected error happened while solving LP" := by
  obtain ⟨tr', s', hrun, hsim, _⟩ := run.exact g hset ho hr hub
  have h1 := hsim.pc u
  rw [hc] at h1
  have h1 : (s'.wk u).pc = .crashed er := h1
  obtain ⟨_, all, hg⟩ := run_ginv g ⟨t, t', r, hr⟩ hrun
  obtain ⟨_, o, _, hp⟩ := hg.wk u hu
  rw [PcOk, h1] at hp
  exact hp.1

end

/-! ### an execution with doubles -/

/-- a sequence of steps in floating point -/
def execF (e : BEnv) (s : BState) (tr : List (Nat × Inp)) : BState := tr.foldl (fun s x => s.stepF e id x.1 x.2) s

/-- no LP is solved on the way -/
def quietF (e : BEnv) : BState → List (Nat × Inp) → Bool
  | _, [] => true
  | s, x :: tr => decide (x.1 < e.threads) && !(s.wk x.1).pc.isSolve && quietF e (s.stepF e id x.1 x.2) tr

theorem FloatRun.quiet {e : BEnv} {r : ResState} {tr : List (Nat × Inp)} {s : BState} (h : FloatRun e id r tr s) :
    ∀ (tr' : List (Nat × Inp)), quietF e s tr' = true → FloatRun e id r (tr ++ tr') (execF e s tr') := by
  intro tr'
  induction tr' generalizing tr s with
  | nil => intro _; simpa [execF] using h
  | cons x tr' ih =>
    intro hq
    simp only [quietF, Bool.and_eq_true, decide_eq_true_eq, Bool.not_eq_true'] at hq
    have hok : x.2.OkF e s x.1 := by
      unfold Inp.OkF
      split
      · rename_i hp; have := hq.1.2; rw [hp] at this; simp [Pc.isSolve] at this
      · trivial
    have := ih (FloatRun.step _ _ x.1 x.2 h hq.1.1 hok) hq.2
    simpa [execF] using this

/-- the steps before the LP is solved -/
def Pc.early : Pc → Bool
  | .head | .headUpd _ | .pop | .read _ | .compact _ => true
  | _ => false

def earlyB (e : BEnv) : BState → List (Nat × Inp) → Bool
  | _, [] => true
  | s, x :: tr => (s.wk x.1).pc.early && earlyB e (s.step e x.1 x.2) tr

/-- they involve no floating-point operations -/
theorem execF_early {e : BEnv} : ∀ (tr : List (Nat × Inp)) (s : BState), earlyB e s tr = true → execF e s tr = exec e s tr := by
  intro tr
  induction tr with
  | nil => intro s _; rfl
  | cons x tr ih =>
    intro s h
    simp only [earlyB, Bool.and_eq_true] at h
    have hs : s.stepF e id x.1 x.2 = s.step e x.1 x.2 := by
      have h1 := h.1
      unfold BState.stepF
      split
      all_goals (first | rfl | (rename_i hp; rw [hp] at h1; simp [Pc.early] at h1))
    have := ih _ h.2
    simp only [execF, exec, List.foldl_cons] at this ⊢
    rw [hs]; exact this

/-- just before the LP of the root is solved -/
def c90S : BState := execF c72Env (exStart c72Env 6) (steps 0 5)

/-- at the end; the LP solver's answer had a noise of `1e-11` -/
def c90T : BState := execF c72Env (c90S.stepF c72Env id 0 (c72A (1 / 10 ^ 11))) (steps 0 10)

theorem c90_run : ∃ r t', createInitialResult c72Env.mode c72Env.m 6 ResState.init = .ok (r, t') ∧ r.upper ≤ 2 ^ 15 ∧
    FloatRun c72Env id r (c72Tr (1 / 10 ^ 11)) c90T := by
  obtain ⟨r, t', hr, hrun, h3⟩ := exStart_run (e := c72Env) (t := 6) (by decide +kernel)
  have hst : FloatRun c72Env id r [] (exStart c72Env 6) := .start _ hrun.start_eq
  have hq1 : quietF c72Env (exStart c72Env 6) (steps 0 5) = true := by decide +kernel
  have hrun1 := hst.quiet _ hq1
  have hprob : c72Env.prob (c90S.wk 0) = c72Env.prob (c72S.wk 0) := by
    have hS : c90S = c72S := execF_early _ _ (by decide +kernel)
    rw [hS]
  have hok : (c72A (1 / 10 ^ 11)).OkF c72Env c90S 0 := by
    unfold Inp.OkF
    split
    · rw [hprob]
      have hn := c72_noise (δ := 1 / 10 ^ 11) (by norm_num) (by norm_num) (by decide +kernel)
      have h4 : (c72Env.prob (c72S.wk 0)).obj.terms (c72Y (1 / 10 ^ 11)) ≤ 10 ^ 9 ∧
          ((c72Env.prob (c72S.wk 0)).obj.terms (c72Y (1 / 10 ^ 11)) + 1) * (c72Env.prob (c72S.wk 0)).obj.size (c72Y (1 / 10 ^ 11)) ≤ 640000 ∧
          (c72Env.prob (c72S.wk 0)).obj.eval c41Y = 0 := by decide +kernel
      exact ⟨hn.2, h4.1, h4.2.1, c41Y, hn.1, by rw [h4.2.2]; norm_num⟩
    · trivial
  have hrun2 := FloatRun.step _ _ 0 (c72A (1 / 10 ^ 11)) hrun1 (show 0 < 1 by norm_num) hok
  have hq : quietF c72Env (c90S.stepF c72Env id 0 (c72A (1 / 10 ^ 11))) (steps 0 10) = true := by decide +kernel
  refine ⟨r, t', hr, ?_, hrun2.quiet _ hq⟩
  have : (exStart c72Env 6).res.upper ≤ 2 ^ 15 := by decide +kernel
  rw [h3] at this
  exact this

/-- the hypotheses are met by an execution with doubles in which the optimum is found -/
example : c72Env.fl = roundDouble ∧ c72Env.Optimal c90T.res ∧ c90T.res.upper = 0 := by
  obtain ⟨r, t', hr, hub, hrun⟩ := c90_run
  have hl : (match (c90T.wk 0).pc with | .left => true | _ => false) = true := by decide +kernel
  refine ⟨rfl, C90_complete_search_partial c72_good roundDouble_settled (fun l => List.Perm.refl l) hr (by decide +kernel) (Or.inl rfl) hub hrun
    (c72_calm _) ?_, by decide +kernel⟩
  intro k hk
  have : k = 0 := by have : k < 1 := hk; omega
  subst this
  split at hl
  · assumption
  · simp at hl

end Mtsp
