import Verif.Proof.BnBInv

/-! Every step keeps the invariant. -/

namespace Mtsp

section
variable {e : BEnv} {rows : Nat} {w : Weights} {starts ends : List Nat}

/-- the constructor got past its heuristic -/
def BEnv.Started (e : BEnv) : Prop := ∃ (t t' : Nat) (r : ResState), createInitialResult e.mode e.m t ResState.init = .ok (r, t')

theorem exploit_ok (g : e.Good rows w starts ends) (hst : e.Started) {y : Nat → ℚ} (hy : ∀ i < e.B, 0 ≤ y i ∧ y i ≤ 1) (t : Nat) :
    ∃ r, exploitCandidateF e.fl e.mode e.m (fun a u v => y (varId e.m.n a u v)) t = .ok r := by
  obtain ⟨t0, t0', r0, h0⟩ := hst
  rcases exploitF_cases g.flOk g.make g.weights g.n_le19 (mode := e.mode) (t := t)
    (x := fun a u v => y (varId e.m.n a u v)) (fun _ _ _ ha hu hv => hy _ (varId_lt ha hu hv)) with ⟨_, hex⟩ | ⟨_, h⟩ | ⟨_, P, t', _, _, h⟩
  · have := (C25_incompatible_iff (mode := e.mode) (t := t0) g.make g.smallDeltas .incompatible).2 ⟨rfl, hex⟩
    unfold createInitialResult at h0
    rw [this] at h0; simp at h0
  · exact ⟨_, h⟩
  · exact ⟨_, h⟩

/-- a correct LP answer is never "unbounded" -/
theorem not_unbounded (g : e.Good rows w starts ends) {wk : Worker} (h : Loaded e wk) : ¬ LPAnswer.Correct (e.prob wk) .unbounded := by
  intro hu
  obtain ⟨z, hz, hlt⟩ := hu 0
  have hb : InBox e wk.fix.fixed0 wk.fix.fixed1 z := by
    intro i hi l u hlu
    exact hz.bounds i (by rw [show (e.prob wk).cols.nVars = wk.fix.model.nVars from rfl, h.nVars]; exact hi) l u
      (by rw [← hlu]; exact h.box i)
  have := obj_nonneg g (cuts := wk.cuts) hz.rows hb
  exact absurd hlt (not_lt.2 this)

theorem load_fixed {s s' : FixState} {f0 f1 : List Nat} (h : s.load f0 f1 = .ok s') : s'.fixed0 = f0 ∧ s'.fixed1 = f1 := by
  unfold FixState.load at h
  simp only [bind, Except.bind, pure, Except.pure] at h
  split at h
  · simp at h
  split at h
  · simp at h
  split at h
  · simp at h
  split at h
  · simp at h
  simp only [Except.ok.injEq] at h
  subst h
  exact ⟨rfl, rfl⟩

theorem step_ginv (g : e.Good rows w starts ends) (hst : e.Started) {bad : Prop} {s : BState} {all : List LinCon}
    (h : GInv e bad s all) (hthr : 0 < e.threads) {t : Nat} (ht : t < e.threads) {i : Inp} (hi : i.Ok e s t) :
    ∃ all', GInv e (bad ∨ i.ans = .error) (s.step e t i) all' := by
  have h := h.bad_mono (Or.inl : bad → bad ∨ i.ans = .error)
  have hbad : i.ans = .error → bad ∨ i.ans = .error := Or.inr
  generalize (bad ∨ i.ans = .error) = bad' at h hbad ⊢
  obtain ⟨hfix, o, ho, hpc⟩ := h.wk t ht
  have hsub := h.sub ht
  have hcuts : ∀ c ∈ (s.wk t).cuts, CutOk e c := fun c hc => h.cuts c (hsub c hc)
  obtain ⟨lbq, hlbq, _⟩ := calcLB_spec s.q h.q
  cases hp : (s.wk t).pc with
  | head =>
    simp only [PcOk, hp] at hpc
    simp only [BState.step, hp, hlbq]
    exact ⟨all, h.updW rfl hfix ho (by simp only [PcOk]; exact hpc)⟩
  | headUpd l =>
    simp only [PcOk, hp] at hpc
    simp only [BState.step, hp]
    refine ⟨all, ?_⟩
    split
    · exact h.updW rfl hfix ho (by simp only [PcOk]; exact hpc)
    · split
      · exact h.updW rfl hfix ho (by simp only [PcOk]; exact hpc)
      · exact h.updW rfl hfix ho (by simp only [PcOk]; exact hpc)
  | clear =>
    simp only [PcOk, hp] at hpc
    simp only [BState.step, hp]
    exact ⟨all, h.upd (q' := s.q.clearAll) ⟨h.q.heap, h.q.count, h.q.rangeH, h.q.rangeW⟩ rfl (fun _ _ => rfl) h.heap rfl hfix ho
      (by simp only [PcOk]; exact hpc)⟩
  | pop =>
    simp only [PcOk, hp] at hpc
    subst hpc
    simp only [BState.step, hp]
    refine ⟨all, ?_⟩
    have hqi := Mtsp.step_inv e.H s.q (.pop t) h.q (fun _ => ho)
    rcases pop_cases e.H s.q t h.q (by rw [h.len]; exact ht) with ⟨_, _, _, ep⟩ | ⟨_, ep⟩ | ⟨_, d, r, l, hh, hpm, hheap, _, ep⟩
    · rw [ep]; exact h
    · rw [ep]; exact h.updW rfl hfix ho (by simp only [PcOk])
    · simp only [QState.step, ep] at hqi
      rw [ep]
      dsimp only
      have hset : (s.q.workedOn.set t (some d.lb))[t]? = some (some d.lb) := by
        rw [List.getElem?_set_self (by rw [h.len]; exact ht)]
      have hheap' : ∀ d' ∈ r, d'.isResult = false → NodeOk e all d'.lb d'.fixed0 d'.fixed1 := fun d' hd' =>
        h.heap d' (by rw [hh]; exact List.mem_cons_of_mem _ (hpm.mem_iff.1 hd'))
      rcases Bool.eq_false_or_eq_true d.isResult with hres | hres
      · rw [if_pos hres]
        obtain ⟨M1, M2, e1, e2, w2, b2, n2, s2⟩ := unfix_both (fun i hi => g.bin i (by rw [g.nBin] at hi; exact hi)) hfix
        have hskip : (s.wk t).fix.skip = .ok ⟨M2, (s.wk t).fix.fixed0, (s.wk t).fix.fixed1⟩ := by
          simp [FixState.skip, e1, e2, bind, Except.bind, pure, Except.pure]
        rw [hskip]
        exact h.upd hqi (by simp) (fun u hu => List.getElem?_set_ne (fun hc => hu hc.symm)) hheap' rfl
          ⟨w2, b2, n2, hfix.bin0, hfix.bin1, fun i _ _ => s2 i⟩ hset (by simp only [PcOk])
      · rw [if_neg (by rw [hres]; simp)]
        have hnode := h.heap d (by rw [hh]; exact List.mem_cons_self) hres
        obtain ⟨f, hf, hfi, hfb⟩ := load_spec (fun i hi => g.bin i (by rw [g.nBin] at hi; exact hi)) hfix hnode.bin0 hnode.bin1
        obtain ⟨hf0, hf1⟩ := load_fixed hf
        rw [hf]
        refine h.upd hqi (by simp) (fun u hu => List.getElem?_set_ne (fun hc => hu hc.symm)) hheap' rfl hfi hset ?_
        simp only [PcOk]
        refine ⟨trivial, ⟨hfi.nVars, hfi.nBin, ?_⟩, ?_⟩
        · intro i; dsimp only; rw [hfb i, hf0, hf1]; rfl
        · rw [hf0, hf1]; exact hnode
  | resRead lb =>
    simp only [PcOk, hp] at hpc
    simp only [BState.step, hp, hlbq]
    exact ⟨all, h.updW rfl hfix ho (by simp only [PcOk]; exact hpc)⟩
  | resUpd lb l =>
    simp only [PcOk, hp] at hpc
    simp only [BState.step, hp]
    refine ⟨all, ?_⟩
    split
    · exact h.updW rfl hfix ho (by simp only [PcOk]; exact hpc)
    · exact h.updW rfl hfix ho (by simp only [PcOk]; exact ⟨_, hpc⟩)
  | read lb =>
    simp only [PcOk, hp] at hpc
    obtain ⟨ho', hload, hnode⟩ := hpc
    obtain ⟨seen, hcd, hw⟩ := h.deq
    obtain ⟨⟨cs, hcs, hall⟩, hcd'⟩ := hcd.step hthr (.read t) (by rintro _ ⟨⟩; exact ht)
    have hst : s.deque.step (.read t) = (.ok cs, (s.deque.step (.read t)).2) := Prod.ext hcs rfl
    simp only [BState.step, hp]
    rw [hst]
    refine ⟨all, h.q, h.len, ⟨_, hcd', ?_⟩, h.cuts, h.heap, ?_⟩
    · intro u hu
      simp only [BState.setWk]
      by_cases hut : u = t
      · subst hut; simp only [if_true]; rw [hw u hu]; exact hall u rfl
      · rw [if_neg hut]; rw [if_neg (fun hc => hut hc.symm)]; exact hw u hu
    · intro u hu
      simp only [BState.setWk]
      by_cases hut : u = t
      · subst hut
        simp only [if_true]
        have hcuts' : (s.wk u).cuts ++ cs = all := by rw [hw u hu]; exact hall u rfl
        refine ⟨hfix, o, ho, ?_⟩
        by_cases h0 : u = 0
        · simp only [PcOk, if_pos h0]
          exact ⟨ho', ⟨hload.nVars, hload.nBin, hload.box⟩, by rw [hcuts']; exact hnode⟩
        · simp only [PcOk, if_neg h0]
          exact ⟨ho', ⟨hload.nVars, hload.nBin, hload.box⟩, by rw [hcuts']; exact hnode⟩
      · simp only [if_neg hut]; exact h.wk u hu
  | compact lb =>
    simp only [PcOk, hp] at hpc
    obtain ⟨ho', hload, hnode⟩ := hpc
    obtain ⟨seen, hcd, hw⟩ := h.deq
    obtain ⟨⟨cs, hcs, _⟩, hcd'⟩ := hcd.step hthr .compact (by simp)
    have hst : s.deque.step .compact = (.ok cs, (s.deque.step .compact).2) := Prod.ext hcs rfl
    simp only [BState.step, hp]
    rw [hst]
    refine ⟨all, h.q, h.len, ⟨_, hcd', ?_⟩, h.cuts, h.heap, ?_⟩
    · intro u hu
      simp only [BState.goto, BState.setWk]
      by_cases hut : u = t
      · subst hut; simp only [if_true]; exact hw u hu
      · rw [if_neg hut]; exact hw u hu
    · intro u hu
      simp only [BState.goto, BState.setWk]
      by_cases hut : u = t
      · subst hut
        simp only [if_true]
        exact ⟨hfix, o, ho, by simp only [PcOk]; exact ⟨ho', ⟨hload.nVars, hload.nBin, hload.box⟩, hnode⟩⟩
      · simp only [if_neg hut]; exact h.wk u hu
  | solve lb =>
    simp only [PcOk, hp] at hpc
    obtain ⟨ho', hload, hnode⟩ := hpc
    simp only [Inp.Ok, hp] at hi
    simp only [BState.step, hp]
    refine ⟨all, ?_⟩
    cases hans : i.ans with
    | unbounded => rw [hans] at hi; exact absurd hi (not_unbounded g hload)
    | error =>
      dsimp only
      exact h.updW rfl hfix ho (by simp only [PcOk]; exact ⟨trivial, hbad hans⟩)
    | timeout => exact h.updW rfl hfix ho (by simp only [PcOk]; exact ⟨_, ho'⟩)
    | infeasible => exact h.updW rfl hfix ho (by simp only [PcOk]; exact ⟨_, ho'⟩)
    | optimal y rc =>
      rw [hans] at hi
      have hs : Solved e (s.wk t) y rc := ⟨hload.nVars, hload.nBin, hload.box, hi⟩
      refine h.updW rfl hfix ho ?_
      simp only [PcOk]
      obtain ⟨x, hx⟩ := hs.opt g
      exact ⟨⟨hload.nVars, hload.nBin, hload.box, hi⟩, trivial, lb, ho', by rw [hx.ceil]; exact hnode.bound x hx.sat hx.inBox⟩
  | raise lb y rc =>
    simp only [PcOk, hp] at hpc
    obtain ⟨hs, hlb, v, ho', hv⟩ := hpc
    subst ho'
    have hrange := hs.range g hfix (fun c hc => (hcuts c hc).1.local)
    rw [← hlb] at hrange
    have hqi := Mtsp.step_inv e.H s.q (.updateCurrentLowerBound t lb) h.q hrange
    have hq : s.q.updateCurrentLowerBound t lb = (.ok .unit, { s.q with workedOn := s.q.workedOn.set t (some lb) }) := by
      unfold QState.updateCurrentLowerBound
      rw [ho]; dsimp only; rw [if_neg (not_lt.2 hv)]
    simp only [QState.step, hq] at hqi
    simp only [BState.step, hp, hq]
    refine ⟨all, h.upd hqi (by simp) (fun u hu => List.getElem?_set_ne (fun hc => hu hc.symm)) h.heap rfl hfix
      (List.getElem?_set_self (by rw [h.len]; exact ht)) ?_⟩
    simp only [PcOk]
    exact ⟨⟨hs.nVars, hs.nBin, hs.box, hs.ans⟩, hlb, trivial⟩
  | getLB lb y rc =>
    simp only [PcOk, hp] at hpc
    obtain ⟨hs, hlb, ho'⟩ := hpc
    simp only [BState.step, hp, hlbq]
    exact ⟨all, h.updW rfl hfix ho (by simp only [PcOk]; exact ⟨⟨hs.nVars, hs.nBin, hs.box, hs.ans⟩, hlb, ho'⟩)⟩
  | updLB lb l y rc =>
    simp only [PcOk, hp] at hpc
    obtain ⟨hs, hlb, ho'⟩ := hpc
    simp only [BState.step, hp]
    refine ⟨all, ?_⟩
    split
    · exact h.updW rfl hfix ho (by simp only [PcOk]; exact ⟨⟨hs.nVars, hs.nBin, hs.box, hs.ans⟩, hlb, ho'⟩)
    · obtain ⟨a, b, c⟩ := evaluate_ok g bad' (ub := (s.res.updateLowerBound l).2.Upper) hs hlb hfix hcuts hsub
      exact h.updW a b ho (by rw [ho']; exact c)
  | exploit lb y rc =>
    simp only [PcOk, hp] at hpc
    obtain ⟨hs, hlb, ho'⟩ := hpc
    obtain ⟨r, hr⟩ := exploit_ok g hst (fun i hi => hs.inBox.bin g hi) i.ticks
    simp only [BState.step, hp, hr]
    refine ⟨all, ?_⟩
    rcases r with ⟨_ | ⟨v, p⟩, tk⟩
    · obtain ⟨a, b, c⟩ := evaluate_ok g bad' (ub := s.res.getBounds.Upper) hs hlb hfix hcuts hsub
      exact h.updW a b ho (by rw [ho']; exact c)
    · obtain ⟨a, b, c⟩ := evaluate_ok g bad' (ub := (s.res.updateUpperBound v p).2.Upper) hs hlb hfix hcuts hsub
      exact h.updW a b ho (by rw [ho']; exact c)
  | pushCuts cs op =>
    simp only [PcOk, hp] at hpc
    obtain ⟨hcs, hop⟩ := hpc
    obtain ⟨seen, hcd, hw⟩ := h.deq
    obtain ⟨⟨x, hx, _⟩, hcd'⟩ := hcd.step hthr (.push cs) (by simp)
    have hst : s.deque.step (.push cs) = (.ok x, (s.deque.step (.push cs)).2) := Prod.ext hx rfl
    simp only [BState.step, hp]
    rw [hst]
    have hmono : ∀ c ∈ all, c ∈ all ++ cs := fun c hc => List.mem_append_left _ hc
    refine ⟨all ++ cs, h.q, h.len, ⟨_, hcd', ?_⟩, ?_, fun d hd hr => (h.heap d hd hr).mono hmono, ?_⟩
    · intro u hu
      simp only [BState.goto, BState.setWk]
      by_cases hut : u = t
      · subst hut; simp only [if_true]; exact hw u hu
      · rw [if_neg hut]; exact hw u hu
    · intro c hc
      rcases List.mem_append.1 hc with hc | hc
      · exact h.cuts c hc
      · exact hcs c hc
    · intro u hu
      simp only [BState.goto, BState.setWk]
      by_cases hut : u = t
      · subst hut
        simp only [if_true]
        exact ⟨hfix, o, ho, by simp only [PcOk]; exact hop.mono hmono⟩
      · simp only [if_neg hut]
        obtain ⟨h1, o', h2, h3⟩ := h.wk u hu
        exact ⟨h1, o', h2, h3.mono id hmono⟩
  | push op =>
    simp only [PcOk, hp] at hpc
    obtain ⟨nodes, q', hq, hqi, hwo, _, _, hlbs, _, hok, hheap⟩ := op_step (H := e.H) h.q ho hpc
    simp only [BState.step, hp, hq]
    refine ⟨all, h.upd hqi (by rw [hwo]) (fun u _ => by rw [hwo]) ?_ rfl hfix (by rw [hwo]; exact ho) ?_⟩
    · intro d hd hr
      rcases hheap with ⟨_, hh⟩ | ⟨_, hh⟩
      · rw [hh] at hd; exact h.heap d hd hr
      · rcases List.mem_append.1 (hh.mem_iff.1 hd) with hd | hd
        · exact h.heap d hd hr
        · exact hok d hd hr
    · simp only [PcOk]
      cases op with
      | pushResult v => exact ⟨v, hpc⟩
      | push v f0 f1 => exact ⟨v, hpc.1⟩
      | pushBranch v f0 f1 var rec0 => exact ⟨v, hpc.1⟩
      | _ => exact absurd hpc (by simp [OpOk])
  | getUpper lb y =>
    simp only [PcOk, hp] at hpc
    simp only [BState.step, hp]
    refine ⟨all, ?_⟩
    split
    · exact h.updW rfl hfix ho (by simp only [PcOk]; exact hpc)
    · exact h.updW rfl hfix ho (by simp only [PcOk]; exact hpc.1)
  | setUpper lb y =>
    simp only [PcOk, hp] at hpc
    simp only [BState.step, hp]
    rw [(C21_paths_mapped_back g.make _ hpc.2.feasible.1.lt).1]
    exact ⟨all, h.updW rfl hfix ho (by simp only [PcOk]; exact hpc.1)⟩
  | done =>
    simp only [PcOk, hp] at hpc
    obtain ⟨v, rfl⟩ := hpc
    have hqi := Mtsp.step_inv e.H s.q (.done t) h.q trivial
    have hq : s.q.notifyDone t = (.ok .unit, { s.q with workedOn := s.q.workedOn.set t none, count := s.q.count - 1 }) := by
      unfold QState.notifyDone
      rw [ho]
    simp only [QState.step, hq] at hqi
    simp only [BState.step, hp, hq]
    refine ⟨all, h.upd hqi (by simp) (fun u hu => List.getElem?_set_ne (fun hc => hu hc.symm)) h.heap rfl hfix
      (List.getElem?_set_self (by rw [h.len]; exact ht)) ?_⟩
    simp only [PcOk]
  | left => simp only [BState.step, hp]; exact ⟨all, h⟩
  | crashed er => simp only [BState.step, hp]; exact ⟨all, h⟩

/-- the invariant holds in every execution -/
theorem run_ginv (g : e.Good rows w starts ends) (hst : e.Started) {r : ResState} {tr : List (Nat × Inp)} {s : BState}
    (h : BRun e r tr s) : 0 < e.threads ∧ ∃ all, GInv e (∃ x ∈ tr, x.2.ans = .error) s all := by
  induction h with
  | start s h =>
    obtain ⟨h1, _, _, _, h2, _⟩ := start_inv g h
    exact ⟨h2, [], h1.bad_mono False.elim⟩
  | step tr s t i _ ht hi ih =>
    obtain ⟨h0, all, h1⟩ := ih
    obtain ⟨all', h2⟩ := step_ginv g hst h1 h0 ht hi
    refine ⟨h0, all', h2.bad_mono ?_⟩
    rintro (⟨x, hx, he⟩ | he)
    · exact ⟨x, List.mem_append_left _ hx, he⟩
    · exact ⟨(t, i), List.mem_append_right _ (List.mem_singleton.2 rfl), he⟩

end
end Mtsp
