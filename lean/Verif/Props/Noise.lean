import Verif.Spec.Noise
import Verif.Props.SearchRefuted

/-! C72: numerical noise of the LP solver. -/

namespace Mtsp

theorem OnGrid.gap {d : Nat} (hd : 0 < d) (hd9 : d ≤ 10 ^ 9) {a : ℚ} (ha : OnGrid d a) (m : ℤ) (h : (m : ℚ) < a) : (m : ℚ) + 1 / 10 ^ 9 ≤ a := by
  obtain ⟨k, rfl⟩ := ha
  have hdq : (0 : ℚ) < d := by exact_mod_cast hd
  have hd9q : (d : ℚ) ≤ 10 ^ 9 := by exact_mod_cast hd9
  have h1 : (m * d : ℤ) < k := by
    have := (lt_div_iff₀ hdq).1 h
    exact_mod_cast this
  have h2 : ((m * d : ℤ) : ℚ) + 1 ≤ k := by exact_mod_cast h1
  push_cast at h2
  rw [le_div_iff₀ hdq]
  have : (1 : ℚ) / 10 ^ 9 * d ≤ 1 := by rw [div_mul_eq_mul_div, one_mul, div_le_one (by norm_num)]; exact hd9q
  nlinarith

theorem OnGrid.neg {d : Nat} {a : ℚ} (h : OnGrid d a) : OnGrid d (-a) := by
  obtain ⟨k, rfl⟩ := h
  exact ⟨-k, by push_cast; ring⟩

/-- small noise is within the contract of the LP solver -/
theorem LPProb.Within.approx {p : LPProb} {ε : ℚ} {y rc x : Nat → ℚ} (h : p.Within ε y rc x) (hε : ε ≤ lpNoise) : p.Approx y rc x := by
  obtain ⟨d, hd, hd9, hobj, hx⟩ := h.grid
  have hn : lpNoise = 1 / (4 * 10 ^ 10) := rfl
  refine ⟨h.admits, h.least, fun z hz v hv => (h.dual z hz v hv).trans (by linarith), h.value.trans hε, ?_, ?_, ?_, ?_⟩
  · intro k
    have hv := abs_le.1 (h.value.trans hε)
    constructor
    · intro hk
      have h1 : (k : ℚ) < p.obj.eval x := by
        by_contra hc
        push Not at hc
        rw [hn] at hv; norm_num at hv hk ⊢; linarith [hv.1, hv.2]
      have := hobj.gap hd hd9 k h1
      norm_num at this ⊢; linarith
    · intro hk
      have h1 : (k : ℚ) < p.obj.eval x := by norm_num at hk; linarith
      have := hobj.gap hd hd9 k h1
      rw [hn] at hv; norm_num at hv this ⊢; linarith [hv.1, hv.2]
  · intro i hi
    refine ((h.near i hi).trans hε).trans ?_
    rw [hn]; norm_num
  · intro i hi
    have hv := abs_le.1 ((h.near i hi).trans hε)
    obtain ⟨x0, _, hg⟩ := hx i hi
    rw [hn] at hv
    constructor
    · intro hy
      by_contra hc
      have := hg.gap hd hd9 0 (by push_cast; exact lt_of_le_of_ne x0 (Ne.symm hc))
      norm_num at this hv hy; linarith [hv.1, hv.2]
    · intro h0
      rw [h0] at hv; norm_num at hv ⊢; linarith [hv.1, hv.2]
  · intro i hi
    have hv := abs_le.1 ((h.near i hi).trans hε)
    obtain ⟨_, x1, hg⟩ := hx i hi
    rw [hn] at hv
    constructor
    · intro hy
      by_contra hc
      have := hg.neg.gap hd hd9 (-1) (by push_cast; exact neg_lt_neg (lt_of_le_of_ne x1 hc))
      norm_num at this hv hy; linarith [hv.1, hv.2]
    · intro h0
      rw [h0] at hv; norm_num at hv ⊢; linarith [hv.1, hv.2]

theorem LPAnswer.CorrectWithin.correct {p : LPProb} {ε : ℚ} {a : LPAnswer} (h : a.CorrectWithin p ε) (hε : ε ≤ lpNoise) : a.Correct p := by
  cases a with
  | optimal y rc => exact ⟨h.1, h.2.choose, h.2.choose_spec.approx hε⟩
  | _ => exact h

section
variable {e : BEnv} {ε : ℚ} {rows : Nat} {w : Weights} {starts ends : List Nat} {t t' : Nat} {r : ResState} {tr : List (Nat × Inp)} {s : BState}

theorem NoisyRun.run (h : NoisyRun e ε r tr s) (hε : ε ≤ lpNoise) : BRun e r tr s := by
  induction h with
  | start s hs => exact .start s hs
  | step tr s t i _ ht hi ih =>
    refine .step tr s t i ih ht ?_
    unfold Inp.OkWithin at hi
    unfold Inp.Ok
    split
    · next lb hp => rw [hp] at hi; exact hi.correct hε
    · trivial

/-- **C72, small noise (partial).** If everything the LP solver returns is within 2.5e-11 of an exact optimum, the reported lower
bound is one, and a search that ends without a deadline has found an optimum. -/
theorem C72_small_noise_partial (g : e.Good rows w starts ends)
    (hr : createInitialResult e.mode e.m t ResState.init = .ok (r, t')) (run : NoisyRun e ε r tr s) (hε : ε ≤ 1 / (4 * 10 ^ 10))
    (hcalm : ∀ x ∈ tr, x.2.Calm e False) :
    (∀ P c, e.Feasible P → IsObjective e.mode e.m.w P c → s.res.lower ≤ c) ∧
    (e.m.n ≤ t → e.mode = .sum ∨ 0 ≤ r.upper → (∀ u < e.threads, (s.wk u).pc = .left) → e.Optimal s.res) := by
  have hrun := run.run hε
  refine ⟨fun P c hP hc => ?_, fun ht hp hl => C62_complete_search_partial g hr ht hp hrun hcalm hl⟩
  exact C42_lower_bound_partial g hr hrun (fun x hx => ⟨(hcalm x hx).1, Or.inl ((hcalm x hx).2.1.resolve_right id), (hcalm x hx).2.2⟩) hP hc

theorem NoisyRun.quiet (h : NoisyRun e ε r tr s) :
    ∀ (tr' : List (Nat × Inp)), quietB e s tr' = true → NoisyRun e ε r (tr ++ tr') (exec e s tr') := by
  intro tr'
  induction tr' generalizing tr s with
  | nil => intro _; simpa [exec] using h
  | cons x tr' ih =>
    intro hq
    simp only [quietB, Bool.and_eq_true, decide_eq_true_eq, Bool.not_eq_true'] at hq
    have hok : x.2.OkWithin e ε s x.1 := by
      unfold Inp.OkWithin
      split
      · rename_i hp; have := hq.1.2; rw [hp] at this; simp [Pc.isSolve] at this
      · trivial
    have := ih (NoisyRun.step _ _ x.1 x.2 h hq.1.1 hok) hq.2
    simpa [exec] using this

end

/-! ### noise above the tolerance -/

/-- as `c41W`, with weight 1 instead of 9: the optimum costs 0, what the heuristic finds costs 1 -/
def c72W : Weights := fun u v => if (u, v) ∈ [(0, 5), (5, 4), (4, 1), (2, 3), (2, 5), (5, 3), (0, 1)] then 0 else 1

def c72Env : BEnv := { exEnv .sum 1 6 c72W [0, 2] [1, 3] with gh := ghHalves }

/-- just before the LP of the root is solved -/
def c72S : BState := exec c72Env (exStart c72Env 6) (steps 0 5)

/-- the optimal point, but for the arc from node 0 to node 4 (weight 1), which has the value `δ` instead of 0 -/
def c72Y (δ : ℚ) : Nat → ℚ := fun i => if i = 4 then δ else c41Y i

def c72A (δ : ℚ) : Inp := ⟨false, .optimal (c72Y δ) (rcOf (c72Env.prob (c72S.wk 0)) []), 1000⟩

def c72T (δ : ℚ) : BState := exec c72Env (c72S.step c72Env 0 (c72A δ)) (steps 0 10)

def c72Tr (δ : ℚ) : List (Nat × Inp) := ([] ++ steps 0 5) ++ [(0, c72A δ)] ++ steps 0 10

theorem c72_cert : certB (c72Env.prob (c72S.wk 0)) c41Y [] = true := by decide +kernel

theorem c72_noise {δ : ℚ} (h0δ : 0 ≤ δ) (hδ1 : δ ≤ 1) (hev : (c72Env.prob (c72S.wk 0)).obj.eval (c72Y δ) = δ) :
    (c72Env.prob (c72S.wk 0)).Within δ (c72Y δ) (rcOf (c72Env.prob (c72S.wk 0)) []) c41Y ∧
    (c72Env.prob (c72S.wk 0)).InBounds (c72Y δ) := by
  have hx := certB_exact c72_cert
  obtain ⟨hb, x, hap⟩ := hx.correct
  have h0 : (c72Env.prob (c72S.wk 0)).obj.eval c41Y = 0 := by decide +kernel
  have hpos : ∀ i < (c72Env.prob (c72S.wk 0)).cols.nVars, 0 ≤ rcOf (c72Env.prob (c72S.wk 0)) [] i ∧
      ∃ l u, (c72Env.prob (c72S.wk 0)).cols.bounds i = (some l, some u) := by
    intro i hi
    refine ⟨?_, hx.finite i hi⟩
    have : ∀ i < (c72Env.prob (c72S.wk 0)).cols.nVars, 0 ≤ rcOf (c72Env.prob (c72S.wk 0)) [] i := by decide +kernel
    exact this i hi
  have hkey : ∀ z, (c72Env.prob (c72S.wk 0)).Admits z → (c72Env.prob (c72S.wk 0)).obj.eval c41Y +
      ∑ i ∈ Finset.range (c72Env.prob (c72S.wk 0)).cols.nVars, rcOf (c72Env.prob (c72S.wk 0)) [] i * (z i - c41Y i) ≤ (c72Env.prob (c72S.wk 0)).obj.eval z := by
    intro z hz
    have h1 := hx.dual z hz.rows
    have h2 : ∑ i ∈ Finset.range (c72Env.prob (c72S.wk 0)).cols.nVars, rcOf (c72Env.prob (c72S.wk 0)) [] i * (z i - c41Y i) =
        ∑ i ∈ Finset.range (c72Env.prob (c72S.wk 0)).cols.nVars, rcOf (c72Env.prob (c72S.wk 0)) [] i * z i -
        ∑ i ∈ Finset.range (c72Env.prob (c72S.wk 0)).cols.nVars, rcOf (c72Env.prob (c72S.wk 0)) [] i * c41Y i := by
      rw [← Finset.sum_sub_distrib]; exact Finset.sum_congr rfl fun i _ => by ring
    linarith
  have hterm : ∀ z, (c72Env.prob (c72S.wk 0)).Admits z → ∀ i < (c72Env.prob (c72S.wk 0)).cols.nVars,
      0 ≤ rcOf (c72Env.prob (c72S.wk 0)) [] i * (z i - c41Y i) := by
    intro z hz i hi
    obtain ⟨_, l, u, hlu⟩ := hpos i hi
    have := hz.bounds i hi l u hlu
    exact hx.sign i hi l u hlu (z i) this.1 this.2
  refine ⟨⟨hx.admits, ?_, ?_, ?_, ?_, ?_⟩, ?_⟩
  · intro z hz
    have := hkey z hz
    have h2 := Finset.sum_nonneg fun i hi => hterm z hz i (Finset.mem_range.1 hi)
    linarith
  · refine ⟨1, by norm_num, by norm_num, ⟨0, by rw [h0]; norm_num⟩, fun i _ => ?_⟩
    unfold c41Y
    split
    · exact ⟨by norm_num, le_refl _, 1, by norm_num⟩
    · exact ⟨le_refl _, by norm_num, 0, by norm_num⟩
  · intro z hz v hv
    have h1 := hkey z hz
    have h2 := Finset.single_le_sum (f := fun i => rcOf (c72Env.prob (c72S.wk 0)) [] i * (z i - c41Y i))
      (fun i hi => hterm z hz i (Finset.mem_range.1 hi)) (Finset.mem_range.2 hv)
    linarith
  · rw [h0, hev, sub_zero, abs_of_nonneg h0δ]
  · intro i _
    unfold c72Y
    split
    · next h =>
      rw [h, show c41Y 4 = 0 from by decide, sub_zero, abs_of_nonneg h0δ]
    · rw [sub_self, abs_zero]; exact h0δ
  · intro i hi l u hlu
    by_cases h4 : i = 4
    · subst h4
      have hb4 : (c72Env.prob (c72S.wk 0)).cols.bounds 4 = (some 0, some 1) := by decide +kernel
      rw [hb4] at hlu
      simp only [Prod.mk.injEq, Option.some.injEq] at hlu
      rw [← hlu.1, ← hlu.2]
      exact ⟨h0δ, hδ1⟩
    · have := hx.admits.bounds i hi l u hlu
      rw [show c72Y δ i = c41Y i from if_neg h4]; exact this

theorem c72_good : c72Env.Good 6 c72W [0, 2] [1, 3] :=
  { exEnv_good (mode := .sum) (threads := 1) (by decide +kernel) with ghOk := ghHalves_correct.proper }

theorem c72_calm (δ : ℚ) : ∀ x ∈ c72Tr δ, x.2.Calm c72Env False := by
  have hs : ∀ n, ∀ x ∈ steps 0 n, x.2.Calm c72Env False := by
    intro n x hx
    have : x = (0, ⟨false, .infeasible, 1000⟩) := List.eq_of_mem_replicate hx
    subst this
    exact ⟨by simp, Or.inl rfl, by simp⟩
  intro x hx
  unfold c72Tr at hx
  rcases List.mem_append.1 hx with hx | hx
  · rcases List.mem_append.1 hx with hx | hx
    · exact hs 5 x hx
    · rw [List.mem_singleton.1 hx]
      refine ⟨by simp [c72A], Or.inl rfl, ?_⟩
      intro y rc he
      simp only [c72A, LPAnswer.optimal.injEq] at he
      obtain ⟨_, rfl⟩ := he
      right
      have key : ∀ a < c72Env.m.starts.length, ∀ u < c72Env.m.n, ∀ v ∈ c72Env.m.starts,
          0 ≤ rcOf (c72Env.prob (c72S.wk 0)) [] (varId c72Env.m.n a u v) := by decide +kernel
      exact fun a u v ha hu hv => le_trans (by norm_num) (key a ha u hu v hv)
  · exact hs 10 x hx

/-- the execution in which the LP solver's answer has the noise `δ` -/
theorem c72_run {δ : ℚ} (h0 : 0 ≤ δ) (h1 : δ ≤ 1) (hev : (c72Env.prob (c72S.wk 0)).obj.eval (c72Y δ) = δ)
    (hq : quietB c72Env (c72S.step c72Env 0 (c72A δ)) (steps 0 10) = true)
    (hl : (match ((c72T δ).wk 0).pc with | .left => true | _ => false) = true) :
    ∃ r t', createInitialResult c72Env.mode c72Env.m 6 ResState.init = .ok (r, t') ∧ NoisyRun c72Env δ r (c72Tr δ) (c72T δ) ∧
    (∀ k < c72Env.threads, ((c72T δ).wk k).pc = .left) := by
  obtain ⟨r, t', hr, hrun, _⟩ := exStart_run (e := c72Env) (t := 6) (by decide +kernel)
  have hst : NoisyRun c72Env δ r [] (exStart c72Env 6) := .start _ hrun.start_eq
  have hq1 : quietB c72Env (exStart c72Env 6) (steps 0 5) = true := by decide +kernel
  have hrun1 := hst.quiet _ hq1
  have hok : (c72A δ).OkWithin c72Env δ c72S 0 := by
    unfold Inp.OkWithin
    split
    · exact ⟨(c72_noise h0 h1 hev).2, _, (c72_noise h0 h1 hev).1⟩
    · trivial
  have hrun2 := NoisyRun.step _ _ 0 (c72A δ) hrun1 (show 0 < 1 by norm_num) hok
  refine ⟨r, t', hr, hrun2.quiet _ hq, ?_⟩
  intro k hk
  have : k = 0 := by have : k < 1 := hk; omega
  subst this
  split at hl
  · assumption
  · simp at hl

/-- **C72 is false in full**: noise of 2e-10, far below what the LP solver itself tolerates (CLP's default is 1e-7).  Two agents,
six nodes; the optimum costs 0, the heuristic's solution 1.  The LP solver returns the optimum of the root, but for one arc of
weight 1 whose value is 2e-10 instead of 0.  The objective value 2e-10 is rounded up to the lower bound 1, and the search ends
with both bounds 1, no deadline involved. -/
theorem C72_refuted : ∃ (e : BEnv) (rows : Nat) (w : Weights) (starts ends : List Nat) (t t' : Nat) (r : ResState)
    (tr : List (Nat × Inp)) (s : BState) (P : Paths) (c : ℚ),
    e.Good rows w starts ends ∧ createInitialResult e.mode e.m t ResState.init = .ok (r, t') ∧ e.m.n ≤ t ∧ e.mode = .sum ∧
    NoisyRun e (2 / 10 ^ 10) r tr s ∧ (∀ x ∈ tr, x.2.Calm e False) ∧ (∀ k < e.threads, (s.wk k).pc = .left) ∧
    e.Feasible P ∧ IsObjective e.mode e.m.w P c ∧ c < s.res.upper ∧ c < s.res.lower ∧ s.finish false = .ok s.res := by
  obtain ⟨r, t', hr, hrun, hl⟩ := c72_run (δ := 2 / 10 ^ 10) (by norm_num) (by norm_num) (by decide +kernel) (by decide +kernel) (by decide +kernel)
  have hv : (c72T (2 / 10 ^ 10)).res.upper = 1 ∧ (c72T (2 / 10 ^ 10)).res.lower = 1 ∧ c72Env.m.n ≤ 6 ∧
      ¬ (c72T (2 / 10 ^ 10)).res.getBounds.Lower < (c72T (2 / 10 ^ 10)).res.getBounds.Upper := by decide +kernel
  obtain ⟨v1, v2, v3, v4⟩ := hv
  have hfeas : feasB c72Env.m [[0, 5, 4, 1], [2, 3]] = true := by decide +kernel
  have hobj : calcObjective .sum [[0, 5, 4, 1], [2, 3]] (fun _ => c72Env.m.w) = 0 := by decide +kernel
  refine ⟨c72Env, 6, c72W, [0, 2], [1, 3], 6, t', r, _, _, [[0, 5, 4, 1], [2, 3]], 0, c72_good, hr, v3, rfl, hrun, c72_calm _, hl,
    feasB_sound hfeas, hobj ▸ isObjective_calc _ _ _, by rw [v1]; norm_num, by rw [v2]; norm_num, if_neg v4⟩

/-- the same execution with noise 1e-11: the hypotheses of `C72_small_noise_partial` are met, and the optimum is found -/
example : c72Env.Optimal (c72T (1 / 10 ^ 11)).res ∧ (c72T (1 / 10 ^ 11)).res.upper = 0 := by
  obtain ⟨r, t', hr, hrun, hl⟩ := c72_run (δ := 1 / 10 ^ 11) (by norm_num) (by norm_num) (by decide +kernel) (by decide +kernel) (by decide +kernel)
  exact ⟨(C72_small_noise_partial c72_good hr hrun (by norm_num) (c72_calm _)).2 (by decide +kernel) (Or.inl rfl) hl, by decide +kernel⟩

end Mtsp
