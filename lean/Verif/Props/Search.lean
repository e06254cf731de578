import Verif.Proof.BnBRes

/-! C41-C44, C62: the search. -/

namespace Mtsp

section
variable {e : BEnv} {rows : Nat} {w : Weights} {starts ends : List Nat} {P : Paths} {c : ℚ} {t t' : Nat} {r : ResState}
  {tr : List (Nat × Inp)} {s : BState}

/-! ### C44 -/

/-- **C44.** In every execution, whatever the schedule, the deadlines and the LP answers: no worker ever gets an error from
the queue, the constraint deque, a heuristic or the mapping back of paths; the only exception that can come up is the
one for an error reported by the LP solver itself. -/
theorem C44_workers_never_fail (g : e.Good rows w starts ends)
    (hr : createInitialResult e.mode e.m t ResState.init = .ok (r, t')) (run : BRun e r tr s)
    {u : Nat} (hu : u < e.threads) {er : Err} (hpc : (s.wk u).pc = .crashed er) :
    er = .logic "Unexpected error happened while solving LP" ∧ ∃ x ∈ tr, x.2.ans = .error := by
  obtain ⟨_, all, hg⟩ := run_ginv g ⟨t, t', r, hr⟩ run
  obtain ⟨_, o, _, hp⟩ := hg.wk u hu
  simp only [PcOk, hpc] at hp
  exact hp

/-! ### C41 -/

/-- a worker stands before reduced cost fixing, with the rounded bound, the LP optimum and its reduced costs -/
def BeforeFixing (wk : Worker) (lb : ℚ) (y rc : Nat → ℚ) : Prop :=
  wk.pc = .exploit lb y rc ∨ ∃ l, wk.pc = .updLB lb l y rc

theorem isPoint_solPoint {x : Nat → ℚ} (hx : IsPoint e.m.n e.m.starts e.m.ends P x) {i : Nat} (hi : i < e.B) : x i = solPoint e P c i := by
  obtain ⟨a, u, v, ha, hu, hv, hvar, _⟩ := (C53_numbering_bijective e.m.starts.length e.m.n).2 i hi
  have h1 := hx a u v ha hu hv
  have h2 := solPoint_isPoint P c a u v ha hu hv
  have hid : a * e.m.n * e.m.n + u * e.m.n + v = i := hvar
  rw [hid] at h1 h2
  by_cases h : Uses e.m.starts e.m.ends P a u v
  · rw [h1.1 h, h2.1 h]
  · rw [h1.2 h, h2.2 h]

/-- **C41 (partial).** In every execution: when a worker applies reduced cost fixing, every feasible solution of the node
that is better than the upper bound used survives; all variables it fixes to 0 (1) are 0 (1) in the solution.
Missing: with several agents, a negative reduced cost on an arc into a start node (these arcs connect an agent's end with
the next start and are always used), where it is false (`C41_refuted`). -/
theorem C41_improving_solutions_survive_partial (g : e.Good rows w starts ends)
    (hr : createInitialResult e.mode e.m t ResState.init = .ok (r, t')) (run : BRun e r tr s)
    {u : Nat} (hu : u < e.threads) {lb : ℚ} {y rc : Nat → ℚ} (hpc : BeforeFixing (s.wk u) lb y rc)
    {ub : ℚ} (hub : ∃ z : ℤ, ub = z) (hlt : lb < ub) (hmild : RcMild e rc)
    (hP : e.Feasible P) (hc : IsObjective e.mode e.m.w P c) (hcub : c < ub)
    {x : Nat → ℚ} (hx : IsPoint e.m.n e.m.starts e.m.ends P x)
    (h0 : ∀ i ∈ (s.wk u).fix.fixed0, x i = 0) (h1 : ∀ i ∈ (s.wk u).fix.fixed1, x i = 1)
    {f0 f1 : List Nat} (hfix : rcFix e (s.wk u).fix.model lb ub y rc (List.range (s.wk u).fix.model.nBin) ([], []) = .ok (f0, f1)) :
    (∀ i ∈ f0, x i = 0) ∧ (∀ i ∈ f1, x i = 1) := by
  obtain ⟨_, all, hg⟩ := run_ginv g ⟨t, t', r, hr⟩ run
  obtain ⟨hf, o, _, hp⟩ := hg.wk u hu
  have h3 : 3 ≤ e.m.n := by
    by_contra h3
    have := (run_sinv g h3 hr run).wk u hu
    rcases hpc with h | ⟨l, h⟩ <;> (rw [h] at this; exact this)
  have hs : Solved e (s.wk u) y rc ∧ lb = ceilBound (e.obj.eval y) := by
    rcases hpc with h | ⟨l, h⟩ <;> (simp only [PcOk, h] at hp; exact ⟨hp.1, hp.2.1⟩)
  obtain ⟨hs, rfl⟩ := hs
  have hcuts : ∀ k ∈ (s.wk u).cuts, CutOk e k := fun k hk => hg.cuts k (hg.sub hu k hk)
  have ho : Obeys e P c (s.wk u).fix.fixed0 (s.wk u).fix.fixed1 :=
    ⟨fun i hi => by rw [← isPoint_solPoint hx (g.nBin ▸ hf.bin0 i hi)]; exact h0 i hi,
     fun i hi => by rw [← isPoint_solPoint hx (g.nBin ▸ hf.bin1 i hi)]; exact h1 i hi⟩
  have hr' := rcFix_keeps g hP h3 hc hs hf hcuts ho hub hcub (not_le.2 hlt) hmild _ _ _ _
    (fun i hi => by rw [List.mem_range, hs.nBin, g.nBin] at hi; exact hi) ⟨by simp, by simp⟩ hfix
  obtain ⟨r0, e1, e2, e3⟩ := rcFix_ok g (s.wk u).fix.model (ceilBound (e.obj.eval y)) ub y rc (List.range (s.wk u).fix.model.nBin) ([], [])
    (fun i hi => by rw [List.mem_range, hs.nBin, g.nBin] at hi; exact hi) (by simp) (by simp)
  rw [hfix, Except.ok.injEq] at e1
  subst e1
  exact ⟨fun i hi => by rw [isPoint_solPoint (c := c) hx (e2 i hi)]; exact hr'.1 i hi,
    fun i hi => by rw [isPoint_solPoint (c := c) hx (e3 i hi).1]; exact hr'.2 i hi⟩

/-! ### C42 -/

/-- **C42 (partial).** At every moment of every execution the lower bound does not exceed the cost of any feasible solution,
provided no LP solve was cut off by the deadline, the deadline was noticed only in a single-threaded search, and no
negative reduced cost occurred on an arc into a start (or there is one agent).  Missing: LP timeouts and deadlines with
several threads: nodes are then dropped and the bound of the remaining ones is reported. -/
theorem C42_lower_bound_partial (g : e.Good rows w starts ends)
    (hr : createInitialResult e.mode e.m t ResState.init = .ok (r, t')) (run : BRun e r tr s)
    (hcalm : ∀ x ∈ tr, x.2.Calm e (e.threads = 1))
    (hP : e.Feasible P) (hc : IsObjective e.mode e.m.w P c) : s.res.lower ≤ c := by
  by_cases h3 : 3 ≤ e.m.n
  · exact (run_jinv g id hP h3 hc hr run hcalm).lower
  · exact (run_sinv g h3 hr run).lower.trans (small_objective g h3 hP hc)

/-! ### C43, C62 -/

/-- what the caller is told is true: the paths are those of a cover by one path per agent from start to end, the upper bound
is its cost, dependent nodes are on the same path, all dependencies are respected if they only say which agent visits a node, and
no feasible solution is cheaper -/
def BEnv.Optimal (e : BEnv) (r : ResState) : Prop :=
  ∃ Q, IsCover e.m.n e.m.starts e.m.ends Q ∧ r.paths = Q.map (·.map e.m.orig) ∧ IsObjective e.mode e.m.w Q r.upper ∧
    Grouped (DepIn e.m.n e.m.w) Q ∧ (DepotDeps e.m.starts e.m.ends (DepIn e.m.n e.m.w) → e.Feasible Q) ∧
    ∀ P c, e.Feasible P → IsObjective e.mode e.m.w P c → r.upper ≤ c

theorem run_backed (g : e.Good rows w starts ends)
    (hr : createInitialResult e.mode e.m t ResState.init = .ok (r, t')) (ht : e.m.n ≤ t) (hpos : e.mode = .sum ∨ 0 ≤ r.upper)
    (run : BRun e r tr s) : Backed e s.res := by
  rcases (run_result g hr run).2 with ⟨h1, h2⟩ | ⟨_, h⟩
  · obtain ⟨Q, q1, q2, q3, q4⟩ := initial_backed g hr ht hpos
    exact ⟨Q, q1, h1.trans q2, by rw [h2]; exact q3, q4⟩
  · exact h

/-- **C43 (partial).** If at some moment the lower bound has reached the upper bound, the reported paths are a cover whose
cost is the upper bound and no feasible solution is cheaper; dependent nodes are on the same path, and without dependencies between
inner nodes the paths are a feasible solution.
Missing: deadlines as in C42; the paths may violate a dependency between two inner nodes (`C43_refuted`). -/
theorem C43_solved_means_optimal_partial (g : e.Good rows w starts ends)
    (hr : createInitialResult e.mode e.m t ResState.init = .ok (r, t')) (ht : e.m.n ≤ t) (hpos : e.mode = .sum ∨ 0 ≤ r.upper)
    (run : BRun e r tr s) (hcalm : ∀ x ∈ tr, x.2.Calm e (e.threads = 1)) (hsolved : s.res.upper ≤ s.res.lower) :
    e.Optimal s.res := by
  obtain ⟨Q, q1, q2, q3, q4⟩ := run_backed g hr ht hpos run
  exact ⟨Q, q1, q2, q3, q4, feasible_of_grouped (WM.inst g.make) q1 q4,
    fun P c hP hc => hsolved.trans (C42_lower_bound_partial g hr run hcalm hP hc)⟩

/-- on two nodes there is only one cover -/
theorem small_cover (g : e.Good rows w starts ends) (h3 : ¬ 3 ≤ e.m.n) {Q Q' : Paths} (hQ : IsCover e.m.n e.m.starts e.m.ends Q)
    (hQ' : IsCover e.m.n e.m.starts e.m.ends Q') : Q = Q' := by
  obtain ⟨hn, hA⟩ := C33_small_instances g.make h3
  have hi := WM.inst g.make
  obtain ⟨x, hx⟩ := List.length_eq_one_iff.1 hA
  obtain ⟨y, hy⟩ := List.length_eq_one_iff.1 (hi.lenEq ▸ hA)
  have key : ∀ {R : Paths}, IsCover e.m.n e.m.starts e.m.ends R → R = [[x, y]] := by
    intro R hR
    obtain ⟨p, rfl⟩ := List.length_eq_one_iff.1 (show R.length = 1 by rw [hR.len, hA])
    have hh := hR.head 0 p rfl
    have hla := hR.last 0 p rfl
    have hp := hR.perm
    rw [hx] at hh; rw [hy] at hla; rw [hn] at hp
    have hlen := hp.length_eq
    simp at hlen hh hla
    match p, hlen, hh, hla with
    | [x', y'], _, hh, hla => simp at hh hla; subst hh hla; rfl
  rw [key hQ, key hQ']

theorem isObjective_unique {mode : Mode} {w : Weights} {P : Paths} {a b : ℚ} (ha : IsObjective mode w P a) (hb : IsObjective mode w P b) : a = b := by
  cases mode with
  | sum => exact Eq.trans ha (Eq.symm hb)
  | max => exact isMaxCost_unique ha hb

/-- **C62 (partial).** If all workers have left the loop and the deadline was never noticed, the search has found an optimum: the
stored paths are a cover whose cost is the upper bound, and no feasible solution is cheaper (whether or not the lower
bound has got there).  Missing: as in C41 for the reduced costs; the paths may violate a dependency between two inner
nodes. -/
theorem C62_complete_search_partial (g : e.Good rows w starts ends)
    (hr : createInitialResult e.mode e.m t ResState.init = .ok (r, t')) (ht : e.m.n ≤ t) (hpos : e.mode = .sum ∨ 0 ≤ r.upper)
    (run : BRun e r tr s) (hcalm : ∀ x ∈ tr, x.2.Calm e False) (hleft : ∀ u < e.threads, (s.wk u).pc = .left) :
    e.Optimal s.res := by
  obtain ⟨Q, q1, q2, q3, q4⟩ := run_backed g hr ht hpos run
  refine ⟨Q, q1, q2, q3, q4, feasible_of_grouped (WM.inst g.make) q1 q4, fun P c hP hc => ?_⟩
  by_cases h3 : 3 ≤ e.m.n
  · have hj := run_jinv (L := False) g False.elim hP h3 hc hr run hcalm
    obtain ⟨hthr, _⟩ := run_ginv g ⟨t, t', r, hr⟩ run
    have hlo := run_leftok g ⟨t, t', r, hr⟩ run ⟨0, hthr, hleft 0 hthr⟩
    rcases hlo with hcl | ⟨hh, _⟩
    · exact (hj.clear (Or.inl hcl)).resolve_right id
    · rcases hj.cov with h | (⟨d, hd, _⟩ | ⟨u, hu, o, _, hca⟩)
      · exact h
      · rw [hh] at hd; simp at hd
      · simp only [Carry, hleft u hu] at hca
  · rw [small_cover g h3 q1 hP.1] at q3
    exact (isObjective_unique q3 hc).le

end
end Mtsp
