import Verif.Props.SearchRounded

/-! C90 is false in full: rounding alone makes the search wrong. -/

namespace Mtsp

theorem RoundedRun.quiet {e : BEnv} {r : ResState} {tr : List (Nat × Inp)} {s : BState} (h : RoundedRun e id r tr s) :
    ∀ (tr' : List (Nat × Inp)), quietF e s tr' = true → RoundedRun e id r (tr ++ tr') (execF e s tr') := by
  intro tr'
  induction tr' generalizing tr s with
  | nil => intro _; simpa [execF] using h
  | cons x tr' ih =>
    intro hq
    simp only [quietF, Bool.and_eq_true, decide_eq_true_eq, Bool.not_eq_true'] at hq
    have hok : x.2.OkRounded e s x.1 := by
      unfold Inp.OkRounded
      split
      · rename_i hp; have := hq.1.2; rw [hp] at this; simp [Pc.isSolve] at this
      · trivial
    have := ih (RoundedRun.step _ _ x.1 x.2 h hq.1.1 hok) hq.2
    simpa [execF] using this

/-- seven nodes, two agents; every arc into node 3, 4 or 5 costs 196608 (plus 0 or 1) -/
def c90W : Weights := fun u v =>
  (if (u, v) ∈ [(0, 4), (4, 5), (5, 6), (6, 1), (2, 3), (0, 1), (2, 6), (6, 5), (5, 4), (4, 3), (6, 3), (5, 3), (5, 1), (0, 6)] then 0 else 1) +
    if v ∈ [3, 4, 5] then 196608 else 0

def c90Env : BEnv := { exEnv .sum 1 7 c90W [0, 2] [1, 3] with gh := ghHalves }

/-- an optimum of the root's LP: nine tenths of the optimal solution 0-4-5-6-1, 2-3 and one tenth of the optimal
solution 0-1, 2-6-5-4-3 -/
def c90X : Nat → ℚ := fun i => if i ∈ [9, 70] then 1 else if i ∈ [4, 33, 41, 43, 66] then 9 / 10 else if i ∈ [1, 69, 96, 88, 80] then 1 / 10 else 0

/-- row multipliers: 196608 on the rows that say that nodes 3, 4 and 5 are entered once, without the loops -/
def c90Mult : List ℚ := c90Env.rows0.map fun r =>
  if r.coefs.length = 14 ∧ (r.coefs.map Prod.fst).getD 1 0 = (r.coefs.map Prod.fst).getD 0 0 + 7 ∧ (r.coefs.map Prod.fst).getD 0 0 ∈ [3, 4, 5] then 196608
  else if r.coefs ∈ [[(24, 1)], [(73, 1)], [(32, 1)], [(81, 1)], [(40, 1)], [(89, 1)]] then -196608 else 0

/-- just before the LP of the root is solved -/
def c90rS : BState := exec c90Env (exStart c90Env 7) (steps 0 5)

/-- the reduced costs; they are integers -/
def c90Rc : Nat → ℚ := rcOf (c90Env.prob (c90rS.wk 0)) c90Mult

def c90A : Inp := ⟨false, .optimal (fun i => roundDouble (c90X i)) (fun i => roundDouble (c90Rc i)), 1000⟩

def c90rT : BState := execF c90Env (c90rS.stepF c90Env id 0 c90A) (steps 0 10)

def c90Tr : List (Nat × Inp) := ([] ++ steps 0 5) ++ [(0, c90A)] ++ steps 0 10

theorem c90_cert : certB (c90Env.prob (c90rS.wk 0)) c90X c90Mult = true := by decide +kernel

theorem c90_good : c90Env.Good 7 c90W [0, 2] [1, 3] :=
  { exEnv_good (mode := .sum) (threads := 1) (by decide +kernel) with ghOk := ghHalves_correct.proper }

theorem c90_rc : ∀ a < c90Env.m.starts.length, ∀ u < c90Env.m.n, ∀ v ∈ c90Env.m.starts, 0 ≤ c90Rc (varId c90Env.m.n a u v) := by decide +kernel

theorem c90_calm : ∀ x ∈ c90Tr, x.2.Calm c90Env False := by
  have hs : ∀ n, ∀ x ∈ steps 0 n, x.2.Calm c90Env False := by
    intro n x hx
    have : x = (0, ⟨false, .infeasible, 1000⟩) := List.eq_of_mem_replicate hx
    subst this
    exact ⟨by simp, Or.inl rfl, by simp⟩
  intro x hx
  unfold c90Tr at hx
  rcases List.mem_append.1 hx with hx | hx
  · rcases List.mem_append.1 hx with hx | hx
    · exact hs 5 x hx
    · rw [List.mem_singleton.1 hx]
      refine ⟨by simp [c90A], Or.inl rfl, ?_⟩
      intro y rc he
      simp only [c90A, LPAnswer.optimal.injEq] at he
      obtain ⟨_, rfl⟩ := he
      right
      intro a u v ha hu hv
      have h0 := roundDouble_rounding.mono 0 _ (c90_rc a ha u hu v hv)
      have h1 : roundDouble 0 = 0 := by exact_mod_cast roundDouble_rounding.int 0 (by norm_num)
      rw [h1] at h0
      exact le_trans (by norm_num) h0
  · exact hs 10 x hx

/-- **C90 is false in full**: the LP solver is exact but for rounding its results to doubles.  Two agents, seven nodes, weights up to
196609.  The LP optimum is a combination of two optimal solutions of cost 589824, with values 0.1 and 0.9; summed up in floating
point it costs 589824 + 2^-32, and 2^-32 is more than the tolerance 1e-10.  The lower bound becomes 589825, which is what the
heuristic has found: the search ends at once and calls a solution optimal that is not. -/
theorem C90_refuted : ∃ (e : BEnv) (rows : Nat) (w : Weights) (starts ends : List Nat) (t t' : Nat) (r : ResState)
    (tr : List (Nat × Inp)) (s : BState) (P : Paths) (c : ℚ),
    e.Good rows w starts ends ∧ e.fl = roundDouble ∧ createInitialResult e.mode e.m t ResState.init = .ok (r, t') ∧ e.m.n ≤ t ∧ e.mode = .sum ∧
    RoundedRun e id r tr s ∧ (∀ x ∈ tr, x.2.Calm e False) ∧ (∀ k < e.threads, (s.wk k).pc = .left) ∧
    e.Feasible P ∧ IsObjective e.mode e.m.w P c ∧ c < s.res.upper ∧ c < s.res.lower ∧ s.finish false = .ok s.res := by
  obtain ⟨r, t', hr, hrun, _⟩ := exStart_run (e := c90Env) (t := 7) (by decide +kernel)
  have hst : RoundedRun c90Env id r [] (exStart c90Env 7) := .start _ hrun.start_eq
  have hq1 : quietF c90Env (exStart c90Env 7) (steps 0 5) = true := by decide +kernel
  have hrun1 := hst.quiet _ hq1
  rw [execF_early _ _ (by decide +kernel)] at hrun1
  have hok : c90A.OkRounded c90Env c90rS 0 := by
    unfold Inp.OkRounded
    split
    · exact ⟨c90X, c90Rc, certB_exact c90_cert, rfl, rfl⟩
    · trivial
  have hrun2 := RoundedRun.step _ _ 0 c90A hrun1 (show 0 < 1 by norm_num) hok
  have hq : quietF c90Env (c90rS.stepF c90Env id 0 c90A) (steps 0 10) = true := by decide +kernel
  have hl : (match (c90rT.wk 0).pc with | .left => true | _ => false) = true := by decide +kernel
  have hv : c90rT.res.upper = 589825 ∧ c90rT.res.lower = 589825 ∧ c90Env.m.n ≤ 7 ∧
      ¬ c90rT.res.getBounds.Lower < c90rT.res.getBounds.Upper := by decide +kernel
  obtain ⟨v1, v2, v3, v4⟩ := hv
  have hfeas : feasB c90Env.m [[0, 4, 5, 6, 1], [2, 3]] = true := by decide +kernel
  have hobj : calcObjective .sum [[0, 4, 5, 6, 1], [2, 3]] (fun _ => c90Env.m.w) = 589824 := by decide +kernel
  refine ⟨c90Env, 7, c90W, [0, 2], [1, 3], 7, t', r, c90Tr, c90rT, [[0, 4, 5, 6, 1], [2, 3]], 589824, c90_good, rfl, hr, v3, rfl, hrun2.quiet _ hq, c90_calm, ?_,
    feasB_sound hfeas, hobj ▸ isObjective_calc _ _ _, by rw [v1]; norm_num, by rw [v2]; norm_num, if_neg v4⟩
  intro k hk
  have : k = 0 := by have : k < 1 := hk; omega
  subst this
  split at hl
  · assumption
  · simp at hl

end Mtsp
