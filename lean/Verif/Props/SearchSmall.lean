import Verif.Props.SearchRounded
import Verif.Proof.SearchSmall

/-! C90 for instances that are small: the conditions are on the input, and the LP solver needs nothing but small noise. -/

namespace Mtsp

section
variable {e : BEnv} {rows : Nat} {w : Weights} {starts ends : List Nat} {ord : List (Nat × ℚ) → List (Nat × ℚ)} {t t' W : Nat}
  {r : ResState} {tr : List (Nat × Inp)} {s : BState}

/-- **C90, small instances (partial).** Sum of the lengths, `N` nodes, `A` agents, weights up to `W` with `N * W ≤ 2^15` and
`(A * N^2 + 1) * (N * W + 1) ≤ 640000`; an LP solver of noise `1e-11`; everything in floating point.  The reported lower bound
never exceeds the cost of a feasible solution, the reported paths always cost the reported upper bound, and when the search is
over, the result is optimal.  Missing: as in `C42_lower_bound_partial`, and other sizes and objectives. -/
theorem C90_small_instances_partial (g : e.Good rows w starts ends) (hm : e.mode = .sum)
    (hs : SmallInstance e.m.starts.length e.m.n W rows w) (hset : Settled e.fl) (ho : ∀ l, (ord l).Perm l)
    (hr : createInitialResult e.mode e.m t ResState.init = .ok (r, t')) (ht : e.m.n ≤ t)
    (run : NoisyFloatRun e (1 / 10 ^ 11) ord r tr s) (hcalm : ∀ x ∈ tr, x.2.Calm e False) :
    (∀ P c, e.Feasible P → IsObjective e.mode e.m.w P c → s.res.lower ≤ c) ∧
    (∃ Q, IsCover e.m.n e.m.starts e.m.ends Q ∧ s.res.paths = Q.map (·.map e.m.orig) ∧ IsObjective e.mode e.m.w Q s.res.upper ∧ Grouped (DepIn e.m.n e.m.w) Q) ∧
    ((∀ u < e.threads, (s.wk u).pc = .left) ∨ s.res.upper ≤ s.res.lower → e.Optimal s.res) := by
  have hub : r.upper ≤ 2 ^ 15 := by
    obtain ⟨Q, hQ, _, hobj, _⟩ := initial_backed g hr ht (Or.inl hm)
    exact hs.cover g hm hQ hobj
  have hrun := run.float hs g hm hset ho hr hub
  have hcalm1 : ∀ x ∈ tr, x.2.Calm e (e.threads = 1) := fun x hx =>
    ⟨(hcalm x hx).1, (hcalm x hx).2.1.imp id False.elim, (hcalm x hx).2.2⟩
  refine ⟨fun P c hP hc => C90_lower_bound_partial g hset ho hr hub hrun hcalm1 hP hc,
    C90_paths_cost_upper g hset ho hr ht (Or.inl hm) hub hrun, ?_⟩
  rintro (h | h)
  · exact C90_complete_search_partial g hset ho hr ht (Or.inl hm) hub hrun hcalm h
  · exact C90_solved_means_optimal_partial g hset ho hr ht (Or.inl hm) hub hrun hcalm1 h

end

/-! ### a case -/

theorem NoisyFloatRun.quiet {e : BEnv} {ε : ℚ} {r : ResState} {tr : List (Nat × Inp)} {s : BState} (h : NoisyFloatRun e ε id r tr s) :
    ∀ (tr' : List (Nat × Inp)), quietF e s tr' = true → NoisyFloatRun e ε id r (tr ++ tr') (execF e s tr') := by
  intro tr'
  induction tr' generalizing tr s with
  | nil => intro _; simpa [execF] using h
  | cons x tr' ih =>
    intro hq
    simp only [quietF, Bool.and_eq_true, decide_eq_true_eq, Bool.not_eq_true'] at hq
    have hok : x.2.OkWithin e ε s x.1 := by
      unfold Inp.OkWithin
      split
      · rename_i hp; have := hq.1.2; rw [hp] at this; simp [Pc.isSolve] at this
      · trivial
    have := ih (NoisyFloatRun.step _ _ x.1 x.2 h hq.1.1 hok) hq.2
    simpa [execF] using this

theorem c90_noisy : ∃ r t', createInitialResult c72Env.mode c72Env.m 6 ResState.init = .ok (r, t') ∧
    NoisyFloatRun c72Env (1 / 10 ^ 11) id r (c72Tr (1 / 10 ^ 11)) c90T := by
  obtain ⟨r, t', hr, hrun, h3⟩ := exStart_run (e := c72Env) (t := 6) (by decide +kernel)
  have hst : NoisyFloatRun c72Env (1 / 10 ^ 11) id r [] (exStart c72Env 6) := .start _ hrun.start_eq
  have hq1 : quietF c72Env (exStart c72Env 6) (steps 0 5) = true := by decide +kernel
  have hrun1 := hst.quiet _ hq1
  have hprob : c72Env.prob (c90S.wk 0) = c72Env.prob (c72S.wk 0) := by
    have hS : c90S = c72S := execF_early _ _ (by decide +kernel)
    rw [hS]
  have hok : (c72A (1 / 10 ^ 11)).OkWithin c72Env (1 / 10 ^ 11) c90S 0 := by
    unfold Inp.OkWithin
    split
    · rw [hprob]
      have hn := c72_noise (δ := 1 / 10 ^ 11) (by norm_num) (by norm_num) (by decide +kernel)
      exact ⟨hn.2, _, hn.1⟩
    · trivial
  have hrun2 := NoisyFloatRun.step _ _ 0 (c72A (1 / 10 ^ 11)) hrun1 (show 0 < 1 by norm_num) hok
  have hq : quietF c72Env (c90S.stepF c72Env id 0 (c72A (1 / 10 ^ 11))) (steps 0 10) = true := by decide +kernel
  exact ⟨r, t', hr, hrun2.quiet _ hq⟩

/-- two agents on six nodes with weights up to 1000 are small -/
theorem c90_small : SmallInstance c72Env.m.starts.length c72Env.m.n 1000 6 c72W := by
  refine ⟨by norm_num, ?_, by decide +kernel, by decide +kernel⟩
  intro i _ j _
  unfold c72W
  split <;> norm_num

/-- the hypotheses are met by an execution with doubles in which the optimum is found -/
example : c72Env.fl = roundDouble ∧ c72Env.Optimal c90T.res := by
  obtain ⟨r, t', hr, hrun⟩ := c90_noisy
  have hl : (match (c90T.wk 0).pc with | .left => true | _ => false) = true := by decide +kernel
  refine ⟨rfl, (C90_small_instances_partial c72_good rfl c90_small roundDouble_settled (fun l => List.Perm.refl l) hr (by decide +kernel) hrun
    (c72_calm _)).2.2 (Or.inl ?_)⟩
  intro k hk
  have : k = 0 := by have : k < 1 := hk; omega
  subst this
  split at hl
  · assumption
  · simp at hl

end Mtsp
