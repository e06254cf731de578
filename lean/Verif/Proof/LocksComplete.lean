import Verif.Proof.LocksSim

/-! Every execution of Model/BranchAndCut.lean can also happen statement by statement. -/

namespace Mtsp

def Instr.isWait {σ : Type} : Instr σ → Bool
  | .wait _ => true
  | _ => false

theorem run_isSome {σ : Type} {l : List (Instr σ)} (h : l.all (fun x => !x.isWait) = true) (x : σ) (r : Reg) : (Instr.run l x r).isSome = true := by
  induction l generalizing x r with
  | nil => rfl
  | cons a l ih =>
    simp only [List.all_cons, Bool.and_eq_true] at h
    cases a with
    | loc g => simp only [Instr.run]; split
               · rfl
               · exact ih h.2 _ _
    | lock => exact ih h.2 _ _
    | wait p => simp [Instr.isWait] at h
    | act g => simp only [Instr.run]; split
               · rfl
               · exact ih h.2 _ _
    | unlock => exact ih h.2 _ _

/-- only `Pop` waits -/
theorem body_noWait (e : BEnv) {c : Call} (h : ∀ t, c ≠ .queue (.pop t)) : (c.body e).all (fun x => !x.isWait) = true := by
  cases c with
  | queue op =>
    cases op with
    | pop t => exact (h t rfl).elim
    | _ => simp [Call.body, queueBody, getLowerBoundBody, clearAllBody, updateCurrentLowerBoundBody, pushBody,
        notifyDoneBody, calcBody, branchNodes, Call.obj, Obj.St, Instr.isWait]
  | result op => cases op <;> rfl
  | deque op => cases op <;> rfl
  | getPaths => rfl

/-- a function that would have to wait -/
theorem body_none (e : BEnv) (c : Call) (x : c.obj.St) (hx : Obj.Valid e c.obj x) (h : Instr.run (c.body e) x {} = none) :
    ∃ t, c = .queue (.pop t) ∧ c.atomic e x = (.q (.ok .blocked), x) := by
  by_cases hc : ∀ t, c ≠ .queue (.pop t)
  · have := run_isSome (body_noWait e hc) x {}
    rw [h] at this
    simp at this
  · push Not at hc
    obtain ⟨t, rfl⟩ := hc
    refine ⟨t, rfl, ?_⟩
    change QState at x
    change x.workedOn.length = e.threads at hx
    change Instr.run (popBody e.H e.threads t) x {} = none at h
    show (Ret.q (x.pop e.H t).1, (x.pop e.H t).2) = _
    unfold QState.pop
    rw [hx]
    by_cases h1 : t ≥ e.threads
    · exfalso
      have h2 := (Instr.run (popBody e.H e.threads t) x {}).isSome
      simp [popBody, Instr.run, h1] at h
    · rw [if_neg h1]
      by_cases h2 : (!x.cleared && x.heap.isEmpty && decide (x.count > 0)) = true
      · rw [if_pos h2]
        rfl
      · exfalso
        simp only [Bool.not_eq_true] at h2
        have h3 : Instr.run (popBody e.H e.threads t) x {} = Instr.run ((popBody e.H e.threads t).drop 3) x {} :=
          Eq.trans (run_loc (if_neg h1) rfl) (Eq.trans run_lock
            (run_pass (p := fun s : QState => !s.cleared && s.heap.isEmpty && decide (s.count > 0)) h2))
        have h4 := run_isSome (l := (popBody e.H e.threads t).drop 3) rfl x {}
        rw [← h3, h] at h4
        simp at h4

variable {e : BEnv} {obs : Call → Prop} {r0 : ResState}

/-- a function call is executed without interruption -/
theorem FRun.walk {t : Nat} {c : Call} {i : Inp} {x' : c.obj.St} {r' : Reg} : ∀ (l : List (Instr c.obj.St)) (r : Reg) (st : Stage) (f : FState),
    FRun e obs r0 f → f.fr t = some ⟨c, l, r, i⟩ → Instr.fits st l = true →
    (match st with | .before => f.own c.obj = none | _ => f.own c.obj = some t) → Instr.run l (f.sh c.obj) r = some (x', r') →
    ∃ f', FRun e obs r0 f' ∧ f'.sh = Function.update f.sh c.obj x' ∧ f'.own = Function.update f.own c.obj none ∧ f'.wk = f.wk ∧
      f'.fr = Function.update f.fr t (some ⟨c, [], r', i⟩) ∧ f'.seen = f.seen := by
  intro l
  induction l with
  | nil => intro r st f _ _ h; cases st <;> simp [Instr.fits] at h
  | cons a l ih =>
    intro r st f hf hfr hfit hown hrun
    cases a with
    | loc g =>
      cases st <;> simp only [Instr.fits, Bool.false_eq_true] at hfit
      simp only [Instr.run] at hrun
      have h1 := FRun.step f _ t hf (.micro _ (.loc c g l r i hfr))
      dsimp only at hown
      by_cases hl : (g r).leave = true
      · rw [if_pos hl] at hrun
        obtain ⟨rfl, rfl⟩ := Prod.mk.inj (Option.some.inj hrun)
        refine ⟨_, h1, (Function.update_eq_self _ _).symm, ?_, rfl, ?_, rfl⟩
        · rw [← hown]; exact (Function.update_eq_self _ _).symm
        · simp [Instr.next, hl, hown]
      · rw [if_neg hl] at hrun
        simp only [Bool.not_eq_true] at hl
        obtain ⟨f', b1, b2, b3, b4, b5, b6⟩ := ih (g r) .before _ h1 (by simp [Instr.next, hl]) hfit hown hrun
        exact ⟨f', b1, b2, b3, b4, by rw [b5]; simp, b6⟩
    | lock =>
      cases st <;> simp only [Instr.fits, Bool.false_eq_true] at hfit
      have h1 := FRun.step f _ t hf (.micro _ (.lock c l r i hfr hown))
      obtain ⟨f', b1, b2, b3, b4, b5, b6⟩ := ih r .clean _ h1 (by simp) hfit (by simp) hrun
      exact ⟨f', b1, b2, by rw [b3]; simp, b4, by rw [b5]; simp, b6⟩
    | wait p =>
      cases st <;> simp only [Instr.fits, Bool.false_eq_true] at hfit
      simp only [Instr.run] at hrun
      split at hrun
      · simp at hrun
      · rename_i hp
        simp only [Bool.not_eq_true] at hp
        have h1 := FRun.step f _ t hf (.micro _ (.pass c p l r i hfr hp))
        obtain ⟨f', b1, b2, b3, b4, b5, b6⟩ := ih r .dirty _ h1 (by simp) hfit hown hrun
        exact ⟨f', b1, b2, b3, b4, by rw [b5]; simp, b6⟩
    | act g =>
      have key : f.own c.obj = some t → Instr.fits .dirty l = true → ∃ f', FRun e obs r0 f' ∧ f'.sh = Function.update f.sh c.obj x' ∧
          f'.own = Function.update f.own c.obj none ∧ f'.wk = f.wk ∧ f'.fr = Function.update f.fr t (some ⟨c, [], r', i⟩) ∧ f'.seen = f.seen := by
        intro hown hfit
        simp only [Instr.run] at hrun
        have h1 := FRun.step f _ t hf (.micro _ (.act c g l r i hfr))
        by_cases hl : (g (f.sh c.obj) r).2.leave = true
        · rw [if_pos hl] at hrun
          have h2 := Option.some.inj hrun
          have h3 := FRun.step _ _ t h1 (.micro _ (.unlock c [] (g (f.sh c.obj) r).2 i (by simp [Instr.next, hl, hown])))
          refine ⟨_, h3, ?_, rfl, rfl, ?_, rfl⟩
          · rw [h2]
          · simp [h2]
        · rw [if_neg hl] at hrun
          simp only [Bool.not_eq_true] at hl
          obtain ⟨f', b1, b2, b3, b4, b5, b6⟩ := ih (g (f.sh c.obj) r).2 .dirty _ h1 (by simp [Instr.next, hl]) hfit hown (by simpa using hrun)
          exact ⟨f', b1, by rw [b2]; simp, b3, b4, by rw [b5]; simp, b6⟩
      cases st <;> simp only [Instr.fits, Bool.false_eq_true] at hfit
      · exact key hown hfit
      · exact key hown hfit
    | unlock =>
      have key : l = [] → ∃ f', FRun e obs r0 f' ∧ f'.sh = Function.update f.sh c.obj x' ∧
          f'.own = Function.update f.own c.obj none ∧ f'.wk = f.wk ∧ f'.fr = Function.update f.fr t (some ⟨c, [], r', i⟩) ∧ f'.seen = f.seen := by
        rintro rfl
        obtain ⟨rfl, rfl⟩ := Prod.mk.inj (Option.some.inj hrun)
        exact ⟨_, FRun.step _ _ t hf (.micro _ (.unlock c [] r i hfr)), (Function.update_eq_self _ _).symm, rfl, rfl, rfl, rfl⟩
      cases st <;> simp only [Instr.fits, Bool.false_eq_true, List.isEmpty_iff] at hfit
      · exact key hfit
      · exact key hfit

/-- a pending push is a push -/
def Worker.NoPop (w : Worker) : Prop :=
  match w.pc with
  | .push op => ∀ t, op ≠ .pop t
  | .pushCuts _ op => ∀ t, op ≠ .pop t
  | _ => True

theorem evaluate_noPop (w : Worker) (lb ub : ℚ) (y rc : Nat → ℚ) : (w.evaluate e lb ub y rc).NoPop := by
  unfold Worker.evaluate
  split
  · simp [Worker.NoPop]
  · split
    · simp [Worker.NoPop]
    · dsimp only
      split
      · simp [Worker.NoPop]
      · split
        · simp [Worker.NoPop]
        · split <;> simp [Worker.NoPop]

theorem resume_noPop {t : Nat} {i : Inp} {w : Worker} (h : w.NoPop) (x : Ret) : (w.resume e t i x).NoPop := by
  unfold Worker.resume
  split
  · simp [Worker.NoPop]
  · simp [Worker.NoPop]
  · split <;> try (simp [Worker.NoPop]; done)
    · split
      · split <;> simp [Worker.NoPop]
      · split <;> simp [Worker.NoPop]
    · exact h
  · split
    · split <;> simp [Worker.NoPop]
    · simp [Worker.NoPop]
    · rename_i hp
      unfold Worker.NoPop at h
      rw [hp] at h
      exact h
    · exact h
  · split
    · split_ifs <;> simp [Worker.NoPop]
    · split_ifs <;> simp [Worker.NoPop]
    · split_ifs
      · simp [Worker.NoPop]
      · exact evaluate_noPop ..
    · exact evaluate_noPop ..
    · split_ifs <;> simp [Worker.NoPop]
    · simp [Worker.NoPop]
    · exact h
  · exact h

theorem alone_noPop {i : Inp} {w : Worker} (h : w.NoPop) : (w.alone e i).NoPop := by
  unfold Worker.alone
  split
  · split <;> simp [Worker.NoPop]
  · split
    · simp [Worker.NoPop]
    · exact h
  · split
    · simp [Worker.NoPop]
    · exact h
  · exact h

theorem run_noPop {tr : List (Nat × Inp)} {s : BState} (h : BRun e r0 tr s) (u : Nat) : (s.wk u).NoPop := by
  induction h with
  | start s hs =>
    unfold BState.start at hs
    split at hs
    · simp at hs
    · split at hs
      · simp at hs
      · simp only [Except.ok.injEq] at hs
        rw [← hs]
        simp [Worker.NoPop]
  | step tr s t i _ _ _ ih =>
    by_cases hu : u = t
    · subst hu
      cases hc : (s.wk u).call e u i with
      | none => rw [step_alone hc]; simpa [BState.put] using alone_noPop ih
      | some c => rw [step_call hc]; simpa [BState.put] using resume_noPop ih _
    · cases hc : (s.wk t).call e t i with
      | none => rw [step_alone hc]; simpa [BState.put, hu] using ih
      | some c => rw [step_call hc]; simpa [BState.put, hu] using ih

theorem call_pop {t u : Nat} {i : Inp} {w : Worker} (h : w.NoPop) (hc : w.call e t i = some (.queue (.pop u))) : w.pc = .pop := by
  unfold Worker.call at hc
  unfold Worker.NoPop at h
  cases hp : w.pc <;> rw [hp] at hc h <;> dsimp only at hc h <;> try (simp at hc; done)
  · split at hc <;> simp at hc
  · simp only [Option.some.injEq, Call.queue.injEq] at hc
    exact (h u hc).elim
  · split at hc <;> simp at hc

theorem FState.eq_of {f : FState} {s : BState} (h1 : f.sh = s.sh) (h2 : f.own = fun _ => none) (h3 : f.wk = s.wk) (h4 : f.fr = fun _ => none)
    (h5 : f.seen = []) : f = FState.of s := by
  cases f
  subst h1; subst h2; subst h3; subst h4; subst h5
  rfl

/-- every execution of Model/BranchAndCut.lean can happen statement by statement -/
theorem BRun.fine {tr : List (Nat × Inp)} {s : BState} (h : BRun e r0 tr s) : FRun e obs r0 (FState.of s) := by
  induction h with
  | start s hs => exact .start s hs
  | step tr s t i h ht hi ih =>
    cases hc : (s.wk t).call e t i with
    | none =>
      rw [step_alone hc]
      have h1 := FRun.step _ _ t ih (.alone (f := FState.of s) i ht rfl hi hc)
      convert h1 using 1
      refine (FState.eq_of ?_ ?_ ?_ ?_ ?_).symm
      · exact (BState.sh_put _ _).symm
      all_goals rfl
    | some c =>
      have hl : c.Locks := by
        cases c with
        | getPaths => exact (call_ne_getPaths hc).elim
        | _ => trivial
      have h1 := FRun.step _ _ t ih (.enter (f := FState.of s) i c ht rfl hi hc)
      cases hr : Instr.run (c.body e) (s.sh c.obj) {} with
      | none =>
        obtain ⟨u, rfl, h2⟩ := body_none e c _ (run_valid h _) hr
        have hp := call_pop (run_noPop h t) hc
        rw [step_call hc, h2, Function.update_eq_self]
        have : (s.wk t).resume e t i (.q (.ok .blocked)) = s.wk t := by
          unfold Worker.resume
          rw [hp]
        dsimp only
        rw [this, Function.update_eq_self]
        exact ih
      | some y =>
        obtain ⟨x', r'⟩ := y
        have ha := body_run e c _ (run_valid h _) hr
        obtain ⟨f', b1, b2, b3, b4, b5, b6⟩ := FRun.walk (t := t) (i := i) (c.body e) {} .before _ h1 (by simp) (body_fits e c hl) rfl hr
        have h2 := FRun.step _ _ t b1 (.ret c r' i ht (by rw [b5]; simp))
        rw [step_call hc, ha]
        convert h2 using 1
        refine (FState.eq_of ?_ ?_ ?_ ?_ ?_).symm
        · rw [BState.sh_put]; exact b2
        · show f'.own = _
          rw [b3]
          funext o
          by_cases ho : o = c.obj
          · subst ho; simp
          · simp [FState.of, ho]
        · show Function.update f'.wk t _ = Function.update s.wk t _
          rw [b4]
          rfl
        · show Function.update f'.fr t none = _
          rw [b5]
          funext u
          by_cases hu : u = t
          · subst hu; simp
          · simp [FState.of, hu]
        · exact b6

end Mtsp
