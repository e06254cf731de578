import Verif.Proof.Solved
import Verif.Props.EndToEnd
import Verif.Props.Termination

/-! C63: without a deadline the solver finishes SOLVED - as far as it is true. -/

namespace Mtsp
open Relation

section
variable {e : BEnv} {rows : Nat} {w : Weights} {starts ends : List Nat} {P : Paths} {c : ℚ} {t t' : Nat} {r : ResState}
  {tr : List (Nat × Inp)} {s : BState}

theorem step_upper_le (g : e.Good rows w starts ends) (hst : e.Started) {bad : Prop} {all : List LinCon}
    (h : GInv e bad s all) {u : Nat} (hu : u < e.threads) (i : Inp) : (s.step e u i).res.upper ≤ s.res.upper := by
  rcases step_result g hst h hu i with ⟨_, h1⟩ | ⟨v, Q, h1, _⟩
  · exact h1.le
  · rw [h1]
    unfold ResState.updateUpperBound
    dsimp only
    split
    · rename_i hlt; exact hlt.le
    · exact le_refl _

theorem run_kinv (g : e.Good rows w starts ends) (hP : e.Feasible P) (h3 : 3 ≤ e.m.n) (hc : IsObjective e.mode e.m.w P c)
    (hr : createInitialResult e.mode e.m t ResState.init = .ok (r, t')) (h : BRun e r tr s) (hcalm : ∀ x ∈ tr, x.2.Plain e)
    (hcu : c ≤ s.res.upper) : KInv e P c s := by
  induction h with
  | start s h =>
    obtain ⟨_, hres, hheap, hcl, _, hwk⟩ := start_inv g h
    refine ⟨by rw [hres]; exact (initial_result g hr).2, ?_, ?_, ?_⟩
    · exact Or.inr (Or.inl ⟨{ lb := 0 }, by rw [hheap]; simp, Or.inl ⟨rfl, by simp [Obeys]⟩⟩)
    · rintro (hh | ⟨u, _, hh⟩)
      · rw [hcl] at hh; simp at hh
      · rw [hwk u] at hh; simp at hh
    · intro u _; rw [hwk u]; trivial
  | step tr s u i hrun hu hi ih =>
    obtain ⟨_, all, hg⟩ := run_ginv g ⟨t, t', r, hr⟩ hrun
    have hle := step_upper_le g ⟨t, t', r, hr⟩ hg hu i
    exact step_kinv g ⟨t, t', r, hr⟩ hP h3 hc hg (ih (fun x hx => hcalm x (List.mem_append_left _ hx)) (hcu.trans hle)) hu hi
      (hcalm _ (List.mem_append_right _ (List.mem_singleton.2 rfl))) hcu

/-- **C63 (partial).** If all workers have left the loop, the deadline was never noticed, and no reduced cost passed the test of
reduced cost fixing only because the LP value had been rounded up, then the lower bound has reached the upper bound - provided
some feasible solution costs no more than the upper bound, that is, provided the stored paths violate no dependency (or are
no better than some that violate none).  Missing: rounding (`C63_refuted_rounding`), two nodes (`C63_refuted`). -/
theorem C63_bounds_meet_partial (g : e.Good rows w starts ends)
    (hr : createInitialResult e.mode e.m t ResState.init = .ok (r, t')) (run : BRun e r tr s) (hcalm : ∀ x ∈ tr, x.2.Plain e)
    (hleft : ∀ u < e.threads, (s.wk u).pc = .left) (h3 : 3 ≤ e.m.n) (hP : e.Feasible P) (hc : IsObjective e.mode e.m.w P c)
    (hcu : c ≤ s.res.upper) : s.res.upper ≤ s.res.lower ∧ s.finish false = .ok s.res := by
  have hk := run_kinv g hP h3 hc hr run hcalm hcu
  obtain ⟨hthr, _⟩ := run_ginv g ⟨t, t', r, hr⟩ run
  have key : s.res.Closed := by
    rcases run_leftok g ⟨t, t', r, hr⟩ run ⟨0, hthr, hleft 0 hthr⟩ with hcl | ⟨hh, _⟩
    · exact hk.clear (Or.inl hcl)
    · rcases hk.cov with h | (⟨d, hd, _⟩ | ⟨u, hu, hca⟩)
      · exact h
      · rw [hh] at hd; simp at hd
      · simp only [KCarry, hleft u hu] at hca
  refine ⟨key, ?_⟩
  unfold BState.finish
  exact if_neg (not_lt.2 key)

end

section
variable {e : BEnv} {rows : Nat} {w : Weights} {starts ends : List Nat} {t t' : Nat} {r : ResState} {who : Nat → Nat} {inp : Nat → Inp} {st : Nat → BState}

/-- the first `n` steps -/
theorem FairRun.prefix (f : FairRun e r who inp st) : ∀ n, ∃ tr, BRun e r tr (st n) ∧ ∀ x ∈ tr, ∃ k < n, x = (who k, inp k)
  | 0 => ⟨[], .start _ f.start, by simp⟩
  | n + 1 => by
    obtain ⟨tr, h1, h2⟩ := f.prefix n
    refine ⟨tr ++ [(who n, inp n)], by rw [f.step]; exact .step tr _ _ _ h1 (f.worker n) (f.ok n), ?_⟩
    intro x hx
    rcases List.mem_append.1 hx with hx | hx
    · obtain ⟨k, hk, h3⟩ := h2 x hx
      exact ⟨k, by omega, h3⟩
    · exact ⟨n, by omega, List.mem_singleton.1 hx⟩

/-- **C63 and C67 (partial) together.** Without dependencies between inner nodes and without a deadline, every fair execution with plain LP answers comes to
its end, and at the end the result is optimal with both bounds equal - if the reported comb cuts always include a violated one,
which is the case with at most five nodes (`combsProgress_small`) -, and the points of the LP solver satisfy its rows exactly. -/
theorem C63_fair_runs_are_solved_partial (g : e.Good rows w starts ends) (hr : createInitialResult e.mode e.m t ResState.init = .ok (r, t'))
    (ht : e.m.n ≤ t) (hpos : e.mode = .sum ∨ 0 ≤ r.upper) (h3 : 3 ≤ e.m.n) (hd : DepotDeps e.m.starts e.m.ends (DepIn e.m.n e.m.w)) (hcp : e.CombsProgress)
    (f : FairRun e r who inp st) (hrow : ∀ n, (inp n).OnRows e (st n) (who n)) (hplain : ∀ k, (inp k).Plain e ∧ (inp k).ans ≠ .error) :
    ∃ n, (∀ u < e.threads, ((st n).wk u).pc = .left) ∧ e.Optimal (st n).res ∧ (st n).res.lower = (st n).res.upper := by
  obtain ⟨n, hn | ⟨u, _, _, k, _, hk⟩⟩ := C67_search_ends_partial g hr hcp f hrow
  swap
  · exact absurd hk (hplain k).2
  obtain ⟨tr, hrun, htr⟩ := f.prefix n
  have hpl : ∀ x ∈ tr, x.2.Plain e := by
    intro x hx
    obtain ⟨k, _, rfl⟩ := htr x hx
    exact (hplain k).1
  have hopt := C62_complete_search_partial g hr ht hpos hrun (fun x hx => ⟨(hpl x hx).1, Or.inl (hpl x hx).2.1, fun y rc h => ((hpl x hx).2.2 y rc h).1⟩) hn
  obtain ⟨Q, q1, q2, q3, qg, q4, q5⟩ := hopt
  have hcl := (C63_bounds_meet_partial g hr hrun hpl hn h3 (q4 hd) q3 (le_refl _)).1
  have hlow := C42_lower_bound_partial g hr hrun
    (fun x hx => ⟨(hpl x hx).1, Or.inl (hpl x hx).2.1, fun y rc h => ((hpl x hx).2.2 y rc h).1⟩) (q4 hd) q3
  exact ⟨n, hn, ⟨Q, q1, q2, q3, qg, q4, q5⟩, le_antisymm hlow hcl⟩

end

/-! ### without dependencies agents are not tied together -/

theorem not_linked {starts ends : List Nat} (hn : (starts ++ ends).Nodup) {D : Nat → Nat → Prop} (hD : ∀ u v, ¬ D u v) {a b s s' : Nat}
    (hab : a < b) (ha : starts[a]? = some s) (hb : starts[b]? = some s') : ¬ Linked starts ends D s s' := by
  have hns := hn.of_append_left
  have hne := hn.of_append_right
  have hdis := List.disjoint_of_nodup_append hn
  have uniqS : ∀ {i j x : Nat}, starts[i]? = some x → starts[j]? = some x → i = j := by
    intro i j x hi hj
    exact (List.getElem?_inj (lt_length_of_some hi) hns).1 (by rw [hi, hj])
  have uniqE : ∀ {i j x : Nat}, ends[i]? = some x → ends[j]? = some x → i = j := by
    intro i j x hi hj
    exact (List.getElem?_inj (lt_length_of_some hi) hne).1 (by rw [hi, hj])
  have key : ∀ u v, Linked starts ends D u v → ∀ k : Nat, (starts[k]? = some u ∨ ends[k]? = some u) ↔ (starts[k]? = some v ∨ ends[k]? = some v) := by
    intro u v h
    induction h with
    | rel x y h =>
      intro k
      rcases h with h | ⟨i, h1, h2⟩
      · exact absurd h (hD _ _)
      · constructor
        · rintro (h | h)
          · right; rw [uniqS h h1]; exact h2
          · exact absurd (List.mem_of_getElem? h) (hdis (List.mem_of_getElem? h1))
        · rintro (h | h)
          · exact absurd (List.mem_of_getElem? h2) (hdis (List.mem_of_getElem? h))
          · left; rw [uniqE h h2]; exact h1
    | refl x => intro k; exact Iff.rfl
    | symm x y _ ih => intro k; exact (ih k).symm
    | trans x y z _ _ ih1 ih2 => intro k; exact (ih1 k).trans (ih2 k)
  intro hl
  rcases (key s s' hl a).1 (Or.inl ha) with h | h
  · have := uniqS h hb; omega
  · exact absurd (List.mem_of_getElem? h) (hdis (List.mem_of_getElem? hb))

section
variable {a : CArgs} {L : Lib} {t : Nat} {tr : List (Nat × Inp)} {x : CEnd}

/-- Nothing unusual happened: the constructor returned before the deadline, which was never noticed afterwards, and the LP solver
answered every LP, as in `Inp.Plain`: with several agents no negative reduced cost for an arc into a start, and no
reduced cost large enough for fixing a variable only because the LP value had been rounded up. -/
def CArgs.Plain (a : CArgs) (L : Lib) (t : Nat) (tr : List (Nat × Inp)) : Prop :=
  (∀ S, Solver.make a.N a.N a.weight a.startList a.endList a.opt t = .ok S → 0 < S.ticks) ∧
  ∀ i ∈ tr, i.2.ans ≠ .error ∧ ∀ S c, Solver.make a.N a.N a.weight a.startList a.endList a.opt t = .ok S → S.cols = some c →
    i.2.Plain (S.env L a.threads c)

theorem three_nodes {m : WM} (hA : a.Accepted) (hm : WM.make a.N a.N a.weight a.startList a.endList = .ok m)
    (h : 3 ≤ a.N ∨ a.startList = a.endList) : 3 ≤ m.n := by
  obtain ⟨h1, _, h3, h4, h5, h6, h7, h8, _⟩ := C18_own_starts_and_ends hm
  rcases h with h | h
  · omega
  · by_contra hcon
    obtain ⟨hn, hl⟩ := C33_small_instances hm hcon
    have hN : a.N = 2 := by have := hA.nodes; omega
    obtain ⟨p, hp⟩ := List.length_eq_one_iff.1 hl
    have hle : m.ends.length = 1 := by rw [h4, ← h, ← h3]; exact hl
    obtain ⟨q, hq⟩ := List.length_eq_one_iff.1 hle
    rw [hp, hq] at h1
    rw [hp] at h5
    rw [hq] at h6
    have hpn := (C18_own_starts_and_ends hm).2.1 p (by rw [hp]; simp)
    have hqn := (C18_own_starts_and_ends hm).2.1 q (by rw [hq]; simp)
    have e1 := h8 p (by omega)
    have e2 := h8 q (by omega)
    simp only [List.map_cons, List.map_nil] at h5 h6
    rw [e1] at h5
    rw [e2] at h6
    rw [← h5, ← h6] at h
    simp only [List.cons.injEq, and_true] at h
    simp [h] at h1

/-- the search of a plain call closes the gap -/
theorem plain_closed (hT : a.Typed) (hA : a.Accepted) (hL : L.Correct)
    (hd : OnlyDepotDeps a.N a.weight a.startList a.endList)
    (h3 : 3 ≤ a.N ∨ a.startList = a.endList) {S : Solver} (hm : Solver.make a.N a.N a.weight a.startList a.endList a.opt t = .ok S)
    (hplain : a.Plain L t tr) {c : LPModel} (hc : S.cols = some c) {s : BState} (hrun : BRun (S.env L a.threads c) S.res tr s)
    (hleft : ∀ u < threadCount L.hw a.threads, (s.wk u).pc = .left) : s.res.upper ≤ s.res.lower := by
  have hw := hT.intWeights hA.pointers.2.2.1
  have hS := Solver.make_ok hw hT.size hm
  have hpos := hplain.1 S hm
  have hn := (WM.size_le hS.make).trans hT.size
  have ht : S.m.n ≤ t := by
    by_contra hcon
    have := (hS.short (not_le.1 hcon)).2.2
    omega
  obtain ⟨t', hr0, c', hc', hcols⟩ := hS.going hpos
  rw [hc] at hc'
  simp only [Option.some.injEq] at hc'
  subst hc'
  have g := hS.good hw hL a.threads hcols
  have hr' : createInitialResult (S.env L a.threads c).mode (S.env L a.threads c).m t ResState.init = .ok (S.res, t') := by
    show createInitialResult S.mode S.m t ResState.init = .ok (S.res, t')
    rw [hS.mode_eq]; exact hr0
  have hdd := hd.depotDeps hS.make
  obtain ⟨Q, q1, q2, q3, q4⟩ := run_backed g hr' ht (Or.inr (initial_nonneg hS.make hw hn hdd ht hr0)) hrun
  have hQ : (S.env L a.threads c).Feasible Q := feasible_of_grouped (WM.inst hS.make) q1 q4 hdd
  exact (C63_bounds_meet_partial g hr' hrun (fun i hi => (hplain.2 i hi).2 S c hm hc) hleft (three_nodes hA hS.make h3) hQ q3 (le_refl _)).1

/-- **C63 (partial), end to end, with dependencies.** On an input that the constructor accepts, whose dependencies only say which agent
visits a node, with at least three nodes (or a closed tour) and at least one thread: if nothing unusual happens, every call that ends returns SOLVED. -/
theorem C63_accepted_ends_solved_partial (hT : a.Typed) (hA : a.Accepted) (hL : L.Correct) (hd : OnlyDepotDeps a.N a.weight a.startList a.endList)
    (h3 : 3 ≤ a.N ∨ a.startList = a.endList)
    (hok : ∃ S, Solver.make a.N a.N a.weight a.startList a.endList a.opt t = .ok S) (hthr : ¬ (a.threads = 0 ∧ L.hw = 0))
    (hplain : a.Plain L t tr) (h : a.Call L t tr x) : ∃ o, x = .ret 0 o := by
  have hw := hT.intWeights hA.pointers.2.2.1
  have htry := h.try hA
  cases htry with
  | ctor er hm =>
    obtain ⟨S, hS⟩ := hok
    rw [hm] at hS; simp at hS
  | thrown S _ er hm hs =>
    exfalso
    have hS := Solver.make_ok hw hT.size hm
    generalize ho : (Outcome.exc er : Outcome ResState) = o at hs
    cases hs with
    | late => simp at ho
    | finished => simp at ho
    | aborted => simp at ho
    | refused c er' hpos hc hst =>
      unfold BState.start QState.new at hst
      by_cases h0 : (S.env L a.threads c).threads = 0
      · have : threadCount L.hw a.threads = 0 := h0
        unfold threadCount at this
        split at this
        · omega
        · exact hthr ⟨by omega, this⟩
      · rw [if_neg h0] at hst
        have hlb : ¬ (0 : ℚ) < -dblMax := by have := dblMax_pos; push Not; linarith
        simp [QState.step, QState.push, QState.pushNodes, QState.calcLB, hlb] at hst
    | unfinished c _ s late er' hpos hc hrun hleft hlate hfin =>
      have := plain_closed hT hA hL hd h3 hm hplain hc hrun hleft
      rw [show s.finish late = .ok s.res from if_neg (not_lt.2 this)] at hfin
      simp at hfin
    | failed c _ s er' hpos hc hrun h1 hcr =>
      obtain ⟨t', hr0, c', hc', hcols⟩ := hS.going hpos
      rw [hc] at hc'
      simp only [Option.some.injEq] at hc'
      subst hc'
      have g := hS.good hw hL a.threads hcols
      obtain ⟨_, i, hi, he⟩ := C44_workers_never_fail g (show createInitialResult S.mode S.m t ResState.init = .ok (S.res, t') by rw [hS.mode_eq]; exact hr0) hrun
        (u := 0) (show 0 < threadCount L.hw a.threads by omega) hcr
      exact (hplain.2 i hi).1 he
  | terminated S _ hm hs =>
    exfalso
    have hS := Solver.make_ok hw hT.size hm
    generalize ho : (Outcome.terminated : Outcome ResState) = o at hs
    cases hs with
    | late => simp at ho
    | finished => simp at ho
    | refused => simp at ho
    | unfinished => simp at ho
    | failed => simp at ho
    | aborted c _ s er' u hpos hc hrun h2 hu hcr =>
      obtain ⟨t', hr0, c', hc', hcols⟩ := hS.going hpos
      rw [hc] at hc'
      simp only [Option.some.injEq] at hc'
      subst hc'
      have g := hS.good hw hL a.threads hcols
      obtain ⟨_, i, hi, he⟩ := C44_workers_never_fail g (show createInitialResult S.mode S.m t ResState.init = .ok (S.res, t') by rw [hS.mode_eq]; exact hr0) hrun hu hcr
      exact (hplain.2 i hi).1 he
  | solved S _ r hm hs =>
    have hS := Solver.make_ok hw hT.size hm
    have hpos := hplain.1 S hm
    have ht : S.m.n ≤ t := by
      by_contra hcon
      have := (hS.short (not_le.1 hcon)).2.2
      omega
    obtain ⟨o, h1, _⟩ := report_spec hS ht hw hL hs
    refine ⟨o, ?_⟩
    rw [h1]
    generalize ho : Outcome.ok r = oo at hs
    cases hs with
    | late h0 => omega
    | refused => simp at ho
    | unfinished => simp at ho
    | failed => simp at ho
    | aborted => simp at ho
    | finished c _ s late r' hpos hc hrun hleft hlate hfin =>
      have := plain_closed hT hA hL hd h3 hm hplain hc hrun hleft
      rw [show s.finish late = .ok s.res from if_neg (not_lt.2 this)] at hfin
      simp only [Except.ok.injEq, Outcome.ok.injEq] at hfin ho
      subst ho
      rw [← hfin, if_neg (not_lt.2 this)]

/-- **C63 (partial), end to end.** On an accepted input without dependencies, with at least three nodes (or a closed tour), with few
enough variables and at least one thread: if nothing unusual happens, every call that ends returns SOLVED. -/
theorem C63_ends_solved_partial (hT : a.Typed) (hA : a.Accepted) (hr : a.InRange) (hL : L.Correct) (hd : ∀ u v, ¬ a.Dep u v)
    (h3 : 3 ≤ a.N ∨ a.startList = a.endList)
    (hsize : ∀ m, WM.make a.N a.N a.weight a.startList a.endList = .ok m → a.A * m.n * m.n ≤ 2147483647) (hthr : ¬ (a.threads = 0 ∧ L.hw = 0))
    (hplain : a.Plain L t tr) (h : a.Call L t tr x) : ∃ o, x = .ret 0 o := by
  have hw := hT.intWeights hA.pointers.2.2.1
  refine C63_accepted_ends_solved_partial hT hA hL ⟨fun u v h => absurd h (hd u v), fun u v _ h => absurd h (hd u v)⟩ h3 ?_ hthr hplain h
  cases hm : Solver.make a.N a.N a.weight a.startList a.endList a.opt t with
  | ok S => exact ⟨S, rfl⟩
  | error er =>
    exfalso
    rcases Solver.make_error hw hT.size hm with h1 | ⟨m, h1, ⟨_, i, j, p, q, hij, h2, h4, h5⟩ | ⟨_, h2, _⟩⟩
    · rcases (make_rejects_iff (w := a.weight) (hA.valid hr)).1 (by rintro ⟨m, hm⟩; rw [h1] at hm; simp at hm) with ⟨v, h2⟩ | ⟨u, v, h2, _⟩ | ⟨u, v, h2, _⟩
      · cases h2 with
        | single h => exact hd _ _ h
        | tail _ h => exact hd _ _ h
      · exact hd _ _ h2
      · exact hd _ _ h2
    · refine not_linked (C18_own_starts_and_ends h1).1 (D := DepIn m.n m.w) ?_ hij h2 h4 h5
      rintro u v ⟨hu, hv, hwt⟩
      have := WM.weight_nonneg h1 hw hd hv hu
      have h4 : m.w v u = -1 := hwt
      rw [h4] at this
      norm_num at this
    · rw [a.startList_length] at h2
      have := hsize m h1
      omega

end

/-! ### the hypotheses can be met -/

/-- four nodes, one agent from 0 to 3 -/
def c63pArgs : CArgs := exArgs 1 4 [0] [3] [[0, 1, 1, 1], [1, 0, 1, 1], [1, 1, 0, 1], [1, 1, 1, 0]] 0

def c63pScript : List (Nat × Cue) := idle 5 ++ [(0, .opt c67Y [0, -1, -1, -1, 0, 0, 1, 0, 0, 1, 0, 0, 1, 0, 0])] ++ idle 10

/-- the LP value of `c67Y` is an integer -/
def c63pInt : Bool :=
  match Solver.make c63pArgs.N c63pArgs.N c63pArgs.weight c63pArgs.startList c63pArgs.endList c63pArgs.opt 100 with
  | .ok S => decide (0 < S.ticks) && decide ((createObjective S.mode S.m.starts.length S.m.n S.m.w).1.eval c67Y = 3) && decide (S.m.starts.length = 1)
  | .error _ => false

theorem c63p_int : c63pInt = true := by decide +kernel

/-- Non-vacuity of `C63_ends_solved_partial`: a call that solves one LP. -/
example : ∃ tr x, c63pArgs.Typed ∧ c63pArgs.Accepted ∧ c63pArgs.InRange ∧ (∀ u v, ¬ c63pArgs.Dep u v) ∧ c63pArgs.Plain exLib 100 tr ∧
    c63pArgs.Call exLib 100 tr x ∧ (∃ i ∈ tr, ∃ y rc, i.2.ans = .optimal y rc) ∧
    (∀ m, WM.make c63pArgs.N c63pArgs.N c63pArgs.weight c63pArgs.startList c63pArgs.endList = .ok m → c63pArgs.A * m.n * m.n ≤ 2147483647) := by
  have hb : callB c63pArgs exLib 100 c63pScript false (isCode 0) = true := by decide +kernel
  obtain ⟨tr, x, h1, h2, h3, _, h4, h5⟩ := callB_full hb
  have hint := c63p_int
  unfold c63pInt at hint
  refine ⟨tr, x, exArgs_typed (by decide) (by decide) (by decide), c63pArgs.accepted_iff.2 (by decide +kernel), ⟨by decide +kernel, by decide +kernel⟩, ?_, ⟨?_, ?_⟩,
    h1, ?_, ?_⟩
  · rintro u v ⟨hu, hv, hne, hw⟩
    have key : ∀ u < c63pArgs.N, ∀ v < c63pArgs.N, c63pArgs.weight v u ≠ -1 := by decide +kernel
    exact key u hu v hv hw
  · intro S hS
    rw [hS] at hint
    simp only [Bool.and_eq_true, decide_eq_true_eq] at hint
    exact hint.1.1
  · intro i hi
    obtain ⟨e1, e2, e3⟩ := h3 rfl i hi
    refine ⟨e3, fun S c hS _ => ⟨e2, e1, fun y rc he => ?_⟩⟩
    rw [hS] at hint
    simp only [Bool.and_eq_true, decide_eq_true_eq] at hint
    obtain ⟨z, hz, m, hzm⟩ := h4 i hi y rc he
    have hy : y = c67Y := by
      simp only [c63pScript, idle, List.mem_append, List.mem_replicate, List.mem_singleton] at hz
      rcases hz with (⟨_, rfl⟩ | rfl) | ⟨_, rfl⟩
      · simp at hzm
      · simp only [Cue.opt.injEq] at hzm; exact hzm.1.symm
      · simp at hzm
    subst hy
    exact ⟨Or.inl hint.2, rcExact_of_int ⟨3, by exact_mod_cast hint.1.2⟩ rc⟩
  · obtain ⟨i, hi, rc, he⟩ := h5 (0, .opt c67Y [0, -1, -1, -1, 0, 0, 1, 0, 0, 1, 0, 0, 1, 0, 0]) (by simp [c63pScript]) _ _ rfl
    exact ⟨i, hi, _, rc, he⟩
  · intro m hm
    have key : (match WM.make c63pArgs.N c63pArgs.N c63pArgs.weight c63pArgs.startList c63pArgs.endList with
      | .ok m => decide (c63pArgs.A * m.n * m.n ≤ 2147483647) | .error _ => true) = true := by decide +kernel
    rw [hm] at key
    simpa using key

/-- the constructor accepts `c64dArgs` in time -/
def c63dOk : Bool :=
  match Solver.make c64dArgs.N c64dArgs.N c64dArgs.weight c64dArgs.startList c64dArgs.endList c64dArgs.opt 100 with
  | .ok S => decide (0 < S.ticks)
  | .error _ => false

theorem c63d_ok : c63dOk = true := by decide +kernel

/-- Non-vacuity of `C63_accepted_ends_solved_partial`: a call with a dependency. -/
theorem c63d_case : ∃ tr x, c64dArgs.Typed ∧ c64dArgs.Accepted ∧ OnlyDepotDeps c64dArgs.N c64dArgs.weight c64dArgs.startList c64dArgs.endList ∧ c64dArgs.Dep 1 4 ∧
    3 ≤ c64dArgs.N ∧ (∃ S, Solver.make c64dArgs.N c64dArgs.N c64dArgs.weight c64dArgs.startList c64dArgs.endList c64dArgs.opt 100 = .ok S) ∧
    c64dArgs.Plain exLib 100 tr ∧ c64dArgs.Call exLib 100 tr x := by
  obtain ⟨tr, x, h1, h2, h3, _, h4, _⟩ := callB_full (a := c64dArgs) (L := exLib) (t := 100) (script := idle 3) (late := false)
    (p := isCode 0) (by decide +kernel)
  have hok := c63d_ok
  unfold c63dOk at hok
  have hdep : ∀ u < c64dArgs.N, ∀ v < c64dArgs.N, c64dArgs.weight v u = -1 → u = 1 ∧ v = 4 := by decide +kernel
  refine ⟨tr, x, exArgs_typed (by decide) (by decide) (by decide), c64dArgs.accepted_iff.2 (by decide +kernel), ?_, ⟨by decide, by decide, by decide, by decide +kernel⟩,
    by decide, ?_, ⟨?_, ?_⟩, h1⟩
  · refine ⟨?_, ?_⟩
    · rintro u v ⟨hu, hv, _, hw⟩
      obtain ⟨rfl, rfl⟩ := hdep u hu v hv hw
      exact Or.inl (by decide +kernel)
    · rintro u v b ⟨hu, hv, _, hw⟩ hb
      obtain ⟨rfl, rfl⟩ := hdep u hu v hv hw
      exact absurd (List.mem_of_getElem? hb) (by decide +kernel)
  · cases hm : Solver.make c64dArgs.N c64dArgs.N c64dArgs.weight c64dArgs.startList c64dArgs.endList c64dArgs.opt 100 with
    | ok S => exact ⟨S, rfl⟩
    | error er => rw [hm] at hok; simp at hok
  · intro S hS
    rw [hS] at hok
    simpa using hok
  · intro i hi
    obtain ⟨e1, e2, e3⟩ := h3 rfl i hi
    refine ⟨e3, fun S c hS _ => ⟨e2, e1, fun y rc he => ?_⟩⟩
    obtain ⟨z, hz, m, hzm⟩ := h4 i hi y rc he
    simp only [idle, List.mem_replicate] at hz
    rw [hz.2] at hzm
    simp at hzm

/-- non-vacuity of `C63_fair_runs_are_solved_partial`: two workers, four nodes -/
example : ∃ t t' r who inp st, createInitialResult c67Env.mode c67Env.m t ResState.init = .ok (r, t') ∧ c67Env.m.n ≤ t ∧ c67Env.mode = .sum ∧
    3 ≤ c67Env.m.n ∧ DepotDeps c67Env.m.starts c67Env.m.ends (DepIn c67Env.m.n c67Env.m.w) ∧ c67Env.CombsProgress ∧ FairRun c67Env r who inp st ∧
    (∀ n, (inp n).OnRows c67Env (st n) (who n)) ∧ ∀ k, (inp k).Plain c67Env ∧ (inp k).ans ≠ .error := by
  obtain ⟨r, t', hr, hrun, _⟩ := exStart_run (e := c67Env) (t := 20) (by decide +kernel)
  have hp : playB c67Env (exStart c67Env 20) c67Script = true := by decide +kernel
  have hl : (List.range 2).all (fun u => ((play c67Env (exStart c67Env 20) c67Script).wk u).pc.isLeft) = true := by decide +kernel
  obtain ⟨who, inp, st, _, hf, _, hrow, htr⟩ := play_fair hrun.start_eq hp (show 0 < 2 by norm_num)
    (fun u hu => Pc.isLeft_eq (List.all_eq_true.1 hl u (List.mem_range.2 hu))) false
  refine ⟨20, t', r, who, inp, st, hr, by decide +kernel, rfl, by decide +kernel, ?_, combsProgress_small c67_good c67_gh (by decide +kernel), hf, hrow, ?_⟩
  · rintro u v ⟨hu, hv, hw⟩
    have key : ∀ u < c67Env.m.n, ∀ v < c67Env.m.n, c67Env.m.w v u ≠ -1 := by decide +kernel
    exact absurd hw (key u hu v hv)
  · intro k
    rcases htr k with ⟨u, h⟩ | h
    · obtain ⟨e1, e2, e3⟩ := trace_early c67Script _ (by decide) _ h
      refine ⟨⟨e2, e1, fun y rc he => ⟨Or.inl (by decide +kernel), ?_⟩⟩, e3⟩
      obtain ⟨z, hz, m, hzm⟩ := trace_opt c67Script _ _ h y rc he
      have hy : y = c67Y := by
        simp only [c67Script, List.mem_append, List.mem_replicate, List.mem_cons, List.not_mem_nil, or_false] at hz
        rcases hz with ((rfl | rfl | rfl | rfl | rfl | rfl | rfl | rfl | rfl) | ⟨_, rfl⟩) | ⟨_, rfl⟩ <;> simp at hzm
        exact hzm.1.symm
      subst hy
      exact rcExact_of_int ⟨3, by
        have : c67Env.obj.eval c67Y = 3 := by decide +kernel
        exact_mod_cast this⟩ rc
    · rw [h]; exact ⟨⟨by simp, rfl, by simp⟩, by simp⟩

end Mtsp
