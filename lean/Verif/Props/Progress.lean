import Verif.Props.Failures
import Verif.Props.Locks

/-!
C95: what the solver knows never gets worse.  While the search is running, with any interleaving of any number of workers, the cost of
the best solution never increases, the stored paths are only replaced by paths with a smaller bound, and the lower bound is lowered
only together with the upper bound, and not below it.
-/

namespace Mtsp

/-- What is known at a later moment (`r'`) is not worse than what was known before (`r`). -/
structure ResState.NotWorse (r r' : ResState) : Prop where
  /-- the upper bound does not increase -/
  upper : r'.upper ≤ r.upper
  /-- other paths only with a smaller upper bound -/
  paths : r'.paths ≠ r.paths → r'.upper < r.upper
  /-- the lower bound does not decrease, except to a smaller upper bound -/
  lower : r'.lower < r.lower → r'.upper ≤ r'.lower ∧ r'.upper < r.upper
  /-- a deadline that has been noticed stays noticed -/
  late : r.timeoutHit = true → r'.timeoutHit = true

theorem ResState.NotWorse.refl (r : ResState) : r.NotWorse r := ⟨le_refl _, fun h => absurd rfl h, fun h => absurd h (lt_irrefl _), id⟩

theorem ResState.NotWorse.trans {r1 r2 r3 : ResState} (h : r1.NotWorse r2) (k : r2.NotWorse r3) : r1.NotWorse r3 := by
  refine ⟨k.upper.trans h.upper, ?_, ?_, fun x => k.late (h.late x)⟩
  · intro hp
    by_cases h1 : r2.paths = r1.paths
    · exact (k.paths (by rw [h1]; exact hp)).trans_le h.upper
    · exact k.upper.trans_lt (h.paths h1)
  · intro hl
    by_cases h1 : r3.lower < r2.lower
    · obtain ⟨a, b⟩ := k.lower h1
      exact ⟨a, b.trans_le h.upper⟩
    · have h2 : r2.lower ≤ r3.lower := not_lt.mp h1
      obtain ⟨a, b⟩ := h.lower (h2.trans_lt hl)
      exact ⟨k.upper.trans (a.trans h2), k.upper.trans_lt b⟩

theorem ResState.notWorse_step (r : ResState) (hr : r.lower ≤ r.upper) (op : ResOp) : r.NotWorse (r.step op).1 := by
  cases op with
  | getBounds => exact .refl r
  | isTimeoutHit => exact .refl r
  | setTimeoutHit => exact ⟨le_refl _, fun h => absurd rfl h, fun h => absurd h (lt_irrefl _), fun _ => rfl⟩
  | updUpper v p =>
    unfold ResState.step ResState.updateUpperBound
    dsimp only
    split
    · rename_i hv
      refine ⟨hv.le, fun _ => hv, fun hl => ⟨?_, hv⟩, id⟩
      dsimp only at hl ⊢
      rcases min_lt_iff.mp hl with h | h
      · exact absurd h (lt_irrefl _)
      · exact le_min h.le le_rfl
    · exact .refl r
  | updLower v =>
    unfold ResState.step ResState.updateLowerBound
    dsimp only
    split
    · rename_i hv
      refine ⟨le_refl _, fun h => absurd rfl h, fun hl => ?_, id⟩
      dsimp only at hl
      rcases min_lt_iff.mp hl with h | h
      · exact absurd h (not_lt.mpr hv)
      · exact absurd h (not_lt.mpr hr)
    · exact .refl r

theorem ResState.step_ordered (r : ResState) (hr : r.lower ≤ r.upper) (op : ResOp) : (r.step op).1.lower ≤ (r.step op).1.upper := by
  cases op with
  | getBounds => exact hr
  | isTimeoutHit => exact hr
  | setTimeoutHit => exact hr
  | updUpper v p =>
    unfold ResState.step ResState.updateUpperBound
    dsimp only
    split
    · exact min_le_right _ _
    · exact hr
  | updLower v =>
    unfold ResState.step ResState.updateLowerBound
    dsimp only
    split
    · exact min_le_right _ _
    · exact hr

/-- a step changes the result by at most one of its operations -/
theorem step_resOp (e : BEnv) (s : BState) (t : Nat) (i : Inp) : (s.step e t i).res = s.res ∨ ∃ op, (s.step e t i).res = (s.res.step op).1 := by
  rcases hc : (s.wk t).call e t i with _ | c
  · rw [step_alone hc]; exact .inl rfl
  · cases c with
    | queue op => rw [step_queue_call hc]; exact .inl rfl
    | result op => rw [step_result_call hc]; exact .inr ⟨op, rfl⟩
    | deque op => rw [step_deque_call hc]; exact .inl rfl
    | getPaths => exact absurd hc call_ne_getPaths

variable {e : BEnv} {r : ResState}

theorem run_ordered {tr : List (Nat × Inp)} {s : BState} (hr : r.lower ≤ r.upper) (h : BRun e r tr s) : s.res.lower ≤ s.res.upper := by
  induction h with
  | start s hs =>
    unfold BState.start at hs
    split at hs
    · simp at hs
    · split at hs
      · simp at hs
      · obtain rfl := Except.ok.inj hs
        exact hr
  | step tr s t i _ _ _ ih =>
    rcases step_resOp e s t i with h1 | ⟨op, h1⟩
    · rw [h1]; exact ih
    · rw [h1]; exact ResState.step_ordered _ ih op

/-- C95: at any later moment of the same execution nothing is worse than at an earlier one, whatever happened in between. -/
theorem C95_never_worse (hr : r.lower ≤ r.upper) {tr more : List (Nat × Inp)} {s s' : BState} (h : BRun e r tr s)
    (h' : BRun e r (tr ++ more) s') : s.res.NotWorse s'.res := by
  generalize hx : tr ++ more = tr' at h'
  induction h' generalizing more with
  | start s' hs =>
    obtain ⟨rfl, rfl⟩ := List.append_eq_nil_iff.mp hx
    rw [run_unique h (.start s' hs)]
    exact .refl _
  | step tr2 s2 t i h2 ht hi ih =>
    rcases List.eq_nil_or_concat more with rfl | ⟨more', x, rfl⟩
    · rw [List.append_nil] at hx
      subst hx
      rw [run_unique h (.step tr2 s2 t i h2 ht hi)]
      exact .refl _
    · rw [List.concat_eq_append, ← List.append_assoc] at hx
      obtain ⟨h3, -⟩ := List.append_inj' hx rfl
      refine (ih h3).trans ?_
      rcases step_resOp e s2 t i with h1 | ⟨op, h1⟩
      · rw [h1]; exact .refl _
      · rw [h1]; exact ResState.notWorse_step _ (run_ordered hr h2) op

theorem run_from_start {tr : List (Nat × Inp)} {s : BState} (hr : r.lower ≤ r.upper) (h : BRun e r tr s) : r.NotWorse s.res := by
  have h0 : ∃ s0, BState.start e r = .ok s0 := by
    induction h with
    | start s hs => exact ⟨s, hs⟩
    | step _ _ _ _ _ _ _ ih => exact ih
  obtain ⟨s0, hs⟩ := h0
  have h1 : s0.res = r := by
    unfold BState.start at hs
    split at hs
    · simp at hs
    · split at hs
      · simp at hs
      · obtain rfl := Except.ok.inj hs
        rfl
  have := C95_never_worse hr (.start s0 hs) (more := tr) (by simpa using h)
  rwa [h1] at this

theorem initial_ordered {mode : Mode} {m : WM} {t t' : Nat} {r : ResState} (h : createInitialResult mode m t ResState.init = .ok (r, t')) :
    r.lower ≤ r.upper := by
  unfold createInitialResult at h
  split at h
  · simp at h
  · dsimp only at h
    split at h
    · simp at h
    · have h1 := congrArg Prod.fst (Except.ok.inj h)
      dsimp only at h1
      rw [← h1]
      refine ResState.step_ordered .init ?_ (.updUpper _ _)
      show -dblMax ≤ dblMax
      have := dblMax_pos
      linarith

theorem make_ordered {rows cols : Nat} {w : Weights} {starts ends : List Nat} {mode : Mode} {t : Nat} {S : Solver}
    (h : Solver.make rows cols w starts ends mode t = .ok S) : S.res.lower ≤ S.res.upper := by
  unfold Solver.make at h
  split at h
  · simp at h
  · split at h
    · simp at h
    · rename_i r t1 hi
      have hr := initial_ordered hi
      split at h
      · obtain rfl := Except.ok.inj h; exact hr
      · split at h
        · simp at h
        · split at h
          · obtain rfl := Except.ok.inj h; exact hr
          · obtain rfl := Except.ok.inj h; exact hr

/-- C95 for a whole call: what is reported at the end is not worse than what the construction left (`GetResult` before the call). -/
theorem C95_solve_never_worse {L : Lib} {given rows cols t : Nat} {w : Weights} {starts ends : List Nat} {mode : Mode} {S : Solver}
    {tr : List (Nat × Inp)} {r : ResState} (hmake : Solver.make rows cols w starts ends mode t = .ok S)
    (h : S.Solve L given tr (.ok r)) : S.res.NotWorse r := by
  have hS := make_ordered hmake
  have hset : ∀ x : ResState, x.NotWorse x.setTimeoutHit := fun x =>
    ⟨le_refl _, fun h => absurd rfl h, fun h => absurd h (lt_irrefl _), fun _ => rfl⟩
  cases h with
  | late => exact hset _
  | finished c tr s late r _ _ hrun _ _ hf =>
    have h1 := run_from_start hS hrun
    unfold BState.finish at hf
    split at hf
    · split at hf
      · obtain rfl := Except.ok.inj hf
        exact h1.trans (hset _)
      · simp at hf
    · obtain rfl := Except.ok.inj hf
      exact h1

/-! ### The hypotheses are met -/

/-- the search of C87's example is about to find a better solution, and then it has found it: the upper bound has become smaller and
the paths are others -/
example : ∃ (e : BEnv) (r : ResState) (tr more : List (Nat × Inp)) (s s' : BState), r.lower ≤ r.upper ∧ BRun e r tr s ∧
    BRun e r (tr ++ more) s' ∧ s'.res.upper < s.res.upper ∧ s'.res.paths ≠ s.res.paths := by
  obtain ⟨r, t', hr, hrun, _⟩ := exStart_run (e := c72Env) (t := 6) (by decide +kernel)
  have h1 := hrun.play c87Script c87_play
  have hs := c87_state
  simp only [Bool.and_eq_true, decide_eq_true_eq] at hs
  have h2 := h1.step _ _ 0 ⟨false, .infeasible, 1000⟩ (by decide) (Inp.ok_of_not_solve hs.1.1)
  have hres : (BState.step c72Env (play c72Env (exStart c72Env 6) c87Script) 0 ⟨false, .infeasible, 1000⟩).res
      = (c87S.res.step (.updUpper 0 [[0, 5, 4, 1], [2, 3]])).1 := by
    rw [show play c72Env (exStart c72Env 6) c87Script = c87S from rfl, step_result_call c87_calls]; rfl
  have hlt := hs.1.2
  refine ⟨c72Env, r, _, _, _, _, ?_, h1, h2, ?_, ?_⟩
  · exact (initial_ordered hr)
  · rw [hres]
    simp only [ResState.step, ResState.updateUpperBound, if_pos hlt]
    exact hlt
  · rw [hres]
    simp only [ResState.step, ResState.updateUpperBound, if_pos hlt]
    exact hs.2

/-- a whole call of the solver with a search: from no lower bound at all to an optimal solution of cost 0 -/
example : ∃ (L : Lib) (S : Solver) (tr : List (Nat × Inp)) (r : ResState),
    Solver.make c47Args.N c47Args.N c47Args.weight c47Args.startList c47Args.endList c47Args.opt 100 = .ok S ∧
    S.Solve L c47Args.threads tr (.ok r) ∧ r.lower = 0 ∧ r.upper = 0 ∧ S.res.lower < r.lower := by
  obtain ⟨tr, x, h1, h2, _⟩ := callB_sound (a := c47Args) (L := exLib) (t := 100) (script := idle 3) (late := false) (p := isRet 0 0 0 [0, 1, 2] [0])
    (by decide +kernel)
  obtain ⟨o, rfl, hlo, hu, _⟩ := isRet_ret h2
  have hT : c47Args.Typed := exArgs_typed (by decide) (by decide) (by decide)
  obtain ⟨hA, hr, _⟩ := call_success hT exLib_correct h1 (le_refl _)
  have hw := hT.intWeights hA.pointers.2.2.1
  have htry := h1.try hA
  generalize hx : CEnd.ret 0 o = x at htry
  cases htry with
  | ctor e _ =>
    exfalso
    rcases caught_codes e with h | h | h | h <;> rw [h] at hx <;> simp at hx
  | thrown S _ e _ _ =>
    exfalso
    rcases caught_codes e with h | h | h | h <;> rw [h] at hx <;> simp at hx
  | terminated => simp at hx
  | solved S _ r hm hs =>
    have hS := Solver.make_ok hw hT.size hm
    by_cases ht : 100 < S.m.n
    · rw [report_short hA.agents hS ht hw exLib_correct hs] at hx; simp at hx
    · obtain ⟨o', k1, k2, k3, _⟩ := report_spec hS (not_lt.1 ht) hw exLib_correct hs
      rw [k1] at hx
      simp only [CEnd.ret.injEq] at hx
      obtain ⟨-, rfl⟩ := hx
      have e1 : r.lower = 0 := by rw [hlo] at k2; exact (Option.some.inj k2).symm
      have e2 : r.upper = 0 := by rw [hu] at k3; exact (Option.some.inj k3).symm
      refine ⟨exLib, S, tr, r, hm, hs, e1, e2, ?_⟩
      rw [hS.lower, e1]
      have := dblMax_pos
      linarith

end Mtsp
