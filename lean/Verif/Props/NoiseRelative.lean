import Verif.Props.Noise

/-! C72: noise of the relative size of a rounding error. -/

namespace Mtsp

/-- an answer near a certified optimum -/
theorem within_of_cert {p : LPProb} {x y : Nat → ℚ} {mult : List ℚ} {ε : ℚ} (hc : certB p x mult = true) (hε : 0 ≤ ε)
    (hgrid : OnGrid 1 (p.obj.eval x)) (h01 : ∀ i, x i = 0 ∨ x i = 1)
    (hval : |p.obj.eval y - p.obj.eval x| ≤ ε) (hnear : ∀ i, |y i - x i| ≤ ε) : p.Within ε y (rcOf p mult) x := by
  have hx := certB_exact hc
  have hkey : ∀ z, p.Admits z → p.obj.eval x + ∑ i ∈ Finset.range p.cols.nVars, rcOf p mult i * (z i - x i) ≤ p.obj.eval z := by
    intro z hz
    have h1 := hx.dual z hz.rows
    have h2 : ∑ i ∈ Finset.range p.cols.nVars, rcOf p mult i * (z i - x i) =
        ∑ i ∈ Finset.range p.cols.nVars, rcOf p mult i * z i - ∑ i ∈ Finset.range p.cols.nVars, rcOf p mult i * x i := by
      rw [← Finset.sum_sub_distrib]; exact Finset.sum_congr rfl fun i _ => by ring
    linarith
  have hterm : ∀ z, p.Admits z → ∀ i < p.cols.nVars, 0 ≤ rcOf p mult i * (z i - x i) := by
    intro z hz i hi
    obtain ⟨l, u, hlu⟩ := hx.finite i hi
    have := hz.bounds i hi l u hlu
    exact hx.sign i hi l u hlu (z i) this.1 this.2
  refine ⟨hx.admits, ?_, ⟨1, by norm_num, by norm_num, hgrid, fun i _ => ?_⟩, ?_, hval, fun i _ => hnear i⟩
  · intro z hz
    have := hkey z hz
    have h2 := Finset.sum_nonneg fun i hi => hterm z hz i (Finset.mem_range.1 hi)
    linarith
  · rcases h01 i with h | h <;> rw [h]
    · exact ⟨le_refl _, by norm_num, 0, by norm_num⟩
    · exact ⟨by norm_num, le_refl _, 1, by norm_num⟩
  · intro z hz v hv
    have h1 := hkey z hz
    have h2 := Finset.single_le_sum (f := fun i => rcOf p mult i * (z i - x i))
      (fun i hi => hterm z hz i (Finset.mem_range.1 hi)) (Finset.mem_range.2 hv)
    linarith

/-- as `c72W`, but every arc into node 1 costs 2^22 more, so every solution does -/
def c72rW : Weights := fun u v => c72W u v + if v = 1 then 2 ^ 22 else 0

def c72rEnv : BEnv := { exEnv .sum 1 6 c72rW [0, 2] [1, 3] with gh := ghHalves }

/-- just before the LP of the root is solved -/
def c72rS : BState := exec c72rEnv (exStart c72rEnv 6) (steps 0 5)

/-- the optimal point, but for the arc from node 0 to node 1 (weight 2^22), which has the value 2^-52 instead of 0 -/
def c72rY : Nat → ℚ := fun i => if i = 1 then 1 / 2 ^ 52 else c41Y i

/-- row multipliers: 2^22 on the row that says that one arc of agent 0 enters node 1, without the loop -/
def c72rMult : List ℚ := c72rEnv.rows0.map fun r => if r.coefs.map Prod.fst = [1, 7, 13, 19, 25, 31] then 2 ^ 22 else if r.coefs = [(7, 1)] then -2 ^ 22 else 0

def c72rA : Inp := ⟨false, .optimal c72rY (rcOf (c72rEnv.prob (c72rS.wk 0)) c72rMult), 1000⟩

def c72rT : BState := exec c72rEnv (c72rS.step c72rEnv 0 c72rA) (steps 0 10)

def c72rTr : List (Nat × Inp) := ([] ++ steps 0 5) ++ [(0, c72rA)] ++ steps 0 10

theorem c72r_cert : certB (c72rEnv.prob (c72rS.wk 0)) c41Y c72rMult = true := by decide +kernel

theorem c72r_good : c72rEnv.Good 6 c72rW [0, 2] [1, 3] :=
  { exEnv_good (mode := .sum) (threads := 1) (by decide +kernel) with ghOk := ghHalves_correct.proper }

theorem c72r_calm : ∀ x ∈ c72rTr, x.2.Calm c72rEnv False := by
  have hs : ∀ n, ∀ x ∈ steps 0 n, x.2.Calm c72rEnv False := by
    intro n x hx
    have : x = (0, ⟨false, .infeasible, 1000⟩) := List.eq_of_mem_replicate hx
    subst this
    exact ⟨by simp, Or.inl rfl, by simp⟩
  intro x hx
  unfold c72rTr at hx
  rcases List.mem_append.1 hx with hx | hx
  · rcases List.mem_append.1 hx with hx | hx
    · exact hs 5 x hx
    · rw [List.mem_singleton.1 hx]
      refine ⟨by simp [c72rA], Or.inl rfl, ?_⟩
      intro y rc he
      simp only [c72rA, LPAnswer.optimal.injEq] at he
      obtain ⟨_, rfl⟩ := he
      right
      have key : ∀ a < c72rEnv.m.starts.length, ∀ u < c72rEnv.m.n, ∀ v ∈ c72rEnv.m.starts,
          0 ≤ rcOf (c72rEnv.prob (c72rS.wk 0)) c72rMult (varId c72rEnv.m.n a u v) := by decide +kernel
      exact fun a u v ha hu hv => le_trans (by norm_num) (key a ha u hu v hv)
  · exact hs 10 x hx

theorem c72r_noise : (c72rEnv.prob (c72rS.wk 0)).Within (1 / 2 ^ 30) c72rY (rcOf (c72rEnv.prob (c72rS.wk 0)) c72rMult) c41Y ∧
    (c72rEnv.prob (c72rS.wk 0)).InBounds c72rY := by
  have h0 : (c72rEnv.prob (c72rS.wk 0)).obj.eval c41Y = 2 ^ 22 := by decide +kernel
  have h1 : (c72rEnv.prob (c72rS.wk 0)).obj.eval c72rY = 2 ^ 22 + 1 / 2 ^ 30 := by decide +kernel
  refine ⟨within_of_cert c72r_cert (by positivity) ⟨2 ^ 22, by rw [h0]; norm_num⟩ ?_ ?_ ?_, ?_⟩
  · intro i; unfold c41Y; split <;> simp
  · rw [h0, h1, add_sub_cancel_left, abs_of_nonneg (by positivity)]
  · intro i
    unfold c72rY
    split
    · next h => rw [h, show c41Y 1 = 0 from by decide, sub_zero, abs_of_nonneg (by positivity)]; norm_num
    · rw [sub_self, abs_zero]; positivity
  · intro i hi l u hlu
    by_cases h4 : i = 1
    · subst h4
      have hb4 : (c72rEnv.prob (c72rS.wk 0)).cols.bounds 1 = (some 0, some 1) := by decide +kernel
      rw [hb4] at hlu
      simp only [Prod.mk.injEq, Option.some.injEq] at hlu
      rw [← hlu.1, ← hlu.2]
      exact ⟨by unfold c72rY; rw [if_pos rfl]; positivity, by unfold c72rY; rw [if_pos rfl]; norm_num⟩
    · have := (certB_exact c72r_cert).admits.bounds i hi l u hlu
      rw [show c72rY i = c41Y i from if_neg h4]; exact this

theorem c72r_run : ∃ r t', createInitialResult c72rEnv.mode c72rEnv.m 6 ResState.init = .ok (r, t') ∧
    NoisyRun c72rEnv (1 / 2 ^ 30) r c72rTr c72rT ∧ (∀ k < c72rEnv.threads, (c72rT.wk k).pc = .left) := by
  obtain ⟨r, t', hr, hrun, _⟩ := exStart_run (e := c72rEnv) (t := 6) (by decide +kernel)
  have hst : NoisyRun c72rEnv (1 / 2 ^ 30) r [] (exStart c72rEnv 6) := .start _ hrun.start_eq
  have hq1 : quietB c72rEnv (exStart c72rEnv 6) (steps 0 5) = true := by decide +kernel
  have hrun1 := hst.quiet _ hq1
  have hok : c72rA.OkWithin c72rEnv (1 / 2 ^ 30) c72rS 0 := by
    unfold Inp.OkWithin
    split
    · exact ⟨c72r_noise.2, _, c72r_noise.1⟩
    · trivial
  have hrun2 := NoisyRun.step _ _ 0 c72rA hrun1 (show 0 < 1 by norm_num) hok
  refine ⟨r, t', hr, hrun2.quiet _ (by decide +kernel), ?_⟩
  intro k hk
  have : k = 0 := by have : k < 1 := hk; omega
  subst this
  have hl : (match (c72rT.wk 0).pc with | .left => true | _ => false) = true := by decide +kernel
  split at hl
  · assumption
  · simp at hl

/-- **C72 is false in full, large costs.** The noise is at most 2^-52 of the optimal cost, which is one unit in the last
place of a double; the optimum costs 2^22 (about four million).  In fact every variable is within 2^-52 of its exact value.  The
search ends with both bounds 2^22 + 1. -/
theorem C72_refuted_relative : ∃ (e : BEnv) (rows : Nat) (w : Weights) (starts ends : List Nat) (t t' : Nat) (r : ResState)
    (tr : List (Nat × Inp)) (s : BState) (P : Paths) (c ε : ℚ),
    e.Good rows w starts ends ∧ createInitialResult e.mode e.m t ResState.init = .ok (r, t') ∧ e.m.n ≤ t ∧ e.mode = .sum ∧
    NoisyRun e ε r tr s ∧ ε ≤ c / 2 ^ 52 ∧ (∀ x ∈ tr, x.2.Calm e False) ∧ (∀ k < e.threads, (s.wk k).pc = .left) ∧
    e.Feasible P ∧ IsObjective e.mode e.m.w P c ∧ c < s.res.upper ∧ c < s.res.lower ∧ s.finish false = .ok s.res := by
  obtain ⟨r, t', hr, hrun, hl⟩ := c72r_run
  have hv : c72rT.res.upper = 2 ^ 22 + 1 ∧ c72rT.res.lower = 2 ^ 22 + 1 ∧ c72rEnv.m.n ≤ 6 ∧
      ¬ c72rT.res.getBounds.Lower < c72rT.res.getBounds.Upper := by decide +kernel
  obtain ⟨v1, v2, v3, v4⟩ := hv
  have hfeas : feasB c72rEnv.m [[0, 5, 4, 1], [2, 3]] = true := by decide +kernel
  have hobj : calcObjective .sum [[0, 5, 4, 1], [2, 3]] (fun _ => c72rEnv.m.w) = 2 ^ 22 := by decide +kernel
  refine ⟨c72rEnv, 6, c72rW, [0, 2], [1, 3], 6, t', r, _, _, [[0, 5, 4, 1], [2, 3]], 2 ^ 22, 1 / 2 ^ 30, c72r_good, hr, v3, rfl, hrun,
    by norm_num, c72r_calm, hl, feasB_sound hfeas, hobj ▸ isObjective_calc _ _ _, by rw [v1]; norm_num, by rw [v2]; norm_num, if_neg v4⟩

end Mtsp
