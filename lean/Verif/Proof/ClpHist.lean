import Verif.Proof.ClpRun
import Verif.Proof.BnBRes

/-! Replaying a worker's calls on CLP. -/

namespace Mtsp

section
variable {e : BEnv} {rows : Nat} {w : Weights} {starts ends : List Nat}

theorem LPHistory.brun {r : ResState} {u : Nat} {tr : List (Nat × Inp)} {s : BState} {ops : List ClpOp} (h : LPHistory e r u tr s ops) :
    BRun e r tr s := by
  induction h with
  | start s h => exact .start s h
  | step tr s ops t i _ ht hi ih => exact .step tr s t i ih ht hi

theorem start_worker {r : ResState} {s : BState} (h : BState.start e r = .ok s) (u : Nat) : s.wk u = ⟨.head, [], ⟨e.cols, [], []⟩⟩ := by
  unfold BState.start at h
  split at h
  · simp at h
  · split at h
    · simp at h
    · simp only [Except.ok.injEq] at h; subst h; rfl

theorem history_mirrors (g : e.Good rows w starts ends) (hst : e.Started) {C0 : Clp} (hb : Clp.build e.mode e.m e.cols = .ok C0)
    (hsz : (entriesBound e.m.starts.length e.m.n e.m.deps.arcs.length : ℤ) ≤ intMax) {r : ResState} {u : Nat}
    {tr : List (Nat × Inp)} {s : BState} {ops : List ClpOp} (h : LPHistory e r u tr s ops) (hu : u < e.threads) (hsm : SmallBatches ops) :
    ∃ C, Clp.run ops C0 = .ok C ∧ C.Mirrors e (s.wk u) := by
  induction h with
  | start s h =>
    obtain ⟨C, hC, h1, h2, h3, h4⟩ := build_mirrors g hsz
    rw [hb] at hC
    simp only [Except.ok.injEq] at hC
    subst hC
    refine ⟨_, rfl, ?_⟩
    rw [start_worker h u]
    exact ⟨h1, by simpa using h2, h3, h4⟩
  | step tr s ops t i hh ht hi ih =>
    obtain ⟨C, hC, hm⟩ := ih (fun cs hcs => hsm cs (List.mem_append_left _ hcs))
    by_cases htu : t = u
    swap
    · rw [if_neg htu, List.append_nil]
      rw [step_other s i (fun h => htu h.symm)]
      exact ⟨C, hC, hm⟩
    · subst htu
      rw [if_pos rfl] at hsm ⊢
      obtain ⟨_, all, hg⟩ := run_ginv g hst hh.brun
      obtain ⟨_, all', hg'⟩ := run_ginv g hst (BRun.step tr s t i hh.brun ht hi)
      obtain ⟨hfix, o, ho, hpc⟩ := hg.wk t ht
      rw [clp_run_append, hC]
      simp only [Except.bind]
      by_cases hp : (s.wk t).pc = .pop
      · simp only [PcOk, hp] at hpc
        subst hpc
        rcases pop_cases e.H s.q t hg.q (by rw [hg.len]; exact ht) with ⟨_, _, _, ep⟩ | ⟨_, ep⟩ | ⟨_, d, r', l, hh', hpm, hheap, _, ep⟩
        · simp only [BState.lpCalls, BState.step, hp, ep]
          exact ⟨C, rfl, hm⟩
        · simp only [BState.lpCalls, BState.step, hp, ep]
          refine ⟨C, rfl, ?_⟩
          simpa [BState.goto, BState.setWk] using (⟨hm.cols, hm.rows, hm.obj, hm.offset⟩ : C.Mirrors e { s.wk t with pc := .left })
        · obtain ⟨M1, M2, e1, e2, w2, b2, n2, s2⟩ := unfix_both (fun i hi => g.bin i (by rw [g.nBin] at hi; exact hi)) hfix
          simp only [BState.lpCalls, BState.step, hp, ep]
          rcases Bool.eq_false_or_eq_true d.isResult with hres | hres
          · rw [if_pos hres, if_pos hres]
            have hskip : (s.wk t).fix.skip = .ok ⟨M2, (s.wk t).fix.fixed0, (s.wk t).fix.fixed1⟩ := by
              simp [FixState.skip, e1, e2, bind, Except.bind, pure, Except.pure]
            rw [hskip]
            refine ⟨{ C with cols := M2 }, by simp [Clp.run, Clp.step, hm.cols, e1, e2, Except.map], ?_⟩
            simpa [BState.setWk] using
              (⟨rfl, hm.rows, hm.obj, hm.offset⟩ : Clp.Mirrors e { s.wk t with pc := .resRead d.lb, fix := ⟨M2, (s.wk t).fix.fixed0, (s.wk t).fix.fixed1⟩ } { C with cols := M2 })
          · have hnr : ¬ d.isResult = true := by rw [hres]; simp
            rw [if_neg hnr, if_neg hnr]
            have hnode := hg.heap d (by rw [hh']; exact List.mem_cons_self) hres
            obtain ⟨M3, e3, w3, b3, n3, s3⟩ := fixAll_spec 0 d.fixed0 M2 w2 (fun i hi => by rw [b2]; exact hnode.bin0 i hi)
            obtain ⟨M4, e4, w4, b4, n4, s4⟩ := fixAll_spec 1 d.fixed1 M3 w3 (fun i hi => by rw [b3, b2]; exact hnode.bin1 i hi)
            have hload : (s.wk t).fix.load d.fixed0 d.fixed1 = .ok ⟨M4, d.fixed0, d.fixed1⟩ := by
              simp [FixState.load, e1, e2, e3, e4, bind, Except.bind, pure, Except.pure]
            rw [hload]
            refine ⟨{ C with cols := M4 }, by simp [Clp.run, Clp.step, hm.cols, e1, e2, e3, e4, Except.map], ?_⟩
            simpa [BState.setWk] using
              (⟨rfl, hm.rows, hm.obj, hm.offset⟩ : Clp.Mirrors e { s.wk t with pc := .read d.lb, fix := ⟨M4, d.fixed0, d.fixed1⟩ } { C with cols := M4 })
      · by_cases hr : ∃ lb, (s.wk t).pc = .read lb
        · obtain ⟨lb, hr⟩ := hr
          have hsub := hg'.sub ht
          have hcuts' : ∀ c ∈ ((s.step e t i).wk t).cuts, CutOk e c := fun c hc => hg'.cuts c (hsub c hc)
          have hspare := (hfix.spare g).1
          simp only [BState.lpCalls, hr] at hsm ⊢
          simp only [BState.step, hr] at hcuts' ⊢
          cases hd : s.deque.step (.read t) with
          | mk o d =>
            cases o with
            | error er =>
              simp only [hd]
              exact ⟨C, rfl, by simpa [BState.goto, BState.setWk] using (⟨hm.cols, hm.rows, hm.obj, hm.offset⟩ : C.Mirrors e { s.wk t with pc := .crashed er })⟩
            | ok cs =>
              simp only [hd] at hsm hcuts' ⊢
              obtain ⟨l1, l2⟩ := hsm cs (List.mem_append_right _ (List.mem_singleton.2 rfl))
              have hfits : ∀ c ∈ cs, c.Fits C.ncols := by
                intro c hc
                have := (hcuts' c (by simpa [BState.setWk] using Or.inr hc)).1
                refine this.mono (le_trans g.le_nVars ?_)
                unfold Clp.ncols
                rw [hm.cols, ← hfix.nVars]; exact hspare
              refine ⟨{ C with rows := C.rows ++ cs.map LinCon.toRow }, ?_, ?_⟩
              · simp only [Clp.run, Clp.step]
                rw [addConstraints_eq hfits, if_neg (by omega), if_pos l2]
              · refine ⟨?_, ?_, hm.obj, hm.offset⟩
                · simpa [BState.setWk] using hm.cols
                · simp [BState.setWk, hm.rows, List.append_assoc]
        · push Not at hr
          obtain ⟨h1, h2⟩ := step_lp_same (e := e) s t i hp hr
          have hcalls : s.lpCalls e t = [] := by
            unfold BState.lpCalls
            split
            · next h => exact absurd h hp
            · next lb h => exact absurd h (hr lb)
            · rfl
          rw [hcalls]
          exact ⟨C, rfl, ⟨by rw [h2]; exact hm.cols, by rw [h1]; exact hm.rows, hm.obj, hm.offset⟩⟩
end

end Mtsp
