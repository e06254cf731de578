import Verif.Proof.BnBRun

/-! The stored result in every execution; when the workers have left. -/

namespace Mtsp

section
variable {e : BEnv} {rows : Nat} {w : Weights} {starts ends : List Nat} {P : Paths} {c : ℚ}

theorem pathCost_le (g : e.Good rows w starts ends) : ∀ (p : List Nat), (∀ i ∈ p, i < e.m.n) → pathCost e.m.w p ≤ p.length * 2 ^ 31
  | [], _ => by simp [pathCost]
  | [x], _ => by simp [pathCost]
  | x :: x' :: p, h => by
    have h1 := pathCost_le g (x' :: p) (fun i hi => h i (List.mem_cons_of_mem _ hi))
    have h2 := (g.weight_range (h x List.mem_cons_self) (h x' (List.mem_cons_of_mem _ List.mem_cons_self))).2
    simp only [pathCost]
    rw [List.length_cons]
    push_cast
    linarith

theorem sum_map_le (f : List Nat → ℚ) (k : ℚ) : ∀ (l : Paths), (∀ p ∈ l, f p ≤ p.length * k) → (l.map f).sum ≤ l.flatten.length * k
  | [], _ => by simp
  | p :: l, h => by
    have h1 := sum_map_le f k l (fun q hq => h q (List.mem_cons_of_mem _ hq))
    have h2 := h p List.mem_cons_self
    simp only [List.map_cons, List.sum_cons, List.flatten_cons, List.length_append]
    push_cast
    linarith

theorem BEnv.Good.n_le (g : e.Good rows w starts ends) : e.m.n ≤ 2147483647 := by
  have h := g.size
  unfold BEnv.B at h
  have hA := WM.starts_pos g.make
  have hn : 0 < e.m.n := (WM.inst g.make).lt _ (List.mem_append_left _ (List.getElem_mem (h := hA))) |> fun h => by omega
  have h1 : 1 * e.m.n ≤ e.m.starts.length * e.m.n := Nat.mul_le_mul_right _ hA
  have h2 : e.m.n * 1 ≤ e.m.starts.length * e.m.n * e.m.n := Nat.mul_le_mul (by omega) hn
  omega

/-- no cover is as expensive as the initial upper bound -/
theorem cover_cost (g : e.Good rows w starts ends) {Q : Paths} (hQ : IsCover e.m.n e.m.starts e.m.ends Q) {v : ℚ}
    (hv : v = sumCost (fun _ => e.m.w) Q ∨ v = 0 ∨ ∃ (a : Nat) (p : List Nat), Q[a]? = some p ∧ pathCost e.m.w p = v) : v < dblMax := by
  have hbig := two70_lt
  have hn : (e.m.n : ℚ) ≤ 2147483647 := by exact_mod_cast g.n_le
  have h62 : (e.m.n : ℚ) * 2 ^ 31 ≤ 2 ^ 62 := by nlinarith
  have h70 : (2 : ℚ) ^ 62 ≤ 2 ^ 70 := by norm_num
  have hlen : (Q.flatten.length : ℚ) = e.m.n := by rw [hQ.perm.length_eq]; simp
  rcases hv with hv | hv | ⟨a, p, hp, hv⟩
  · have hs : sumCost (fun _ => e.m.w) Q = (Q.map fun p => pathCost e.m.w p).sum := by
      unfold sumCost
      congr 1
      apply List.ext_getElem?
      intro i
      simp
    have := sum_map_le (fun p => pathCost e.m.w p) (2 ^ 31) Q (fun p hp => pathCost_le g p (hQ.lt p hp))
    rw [hlen] at this
    rw [hv, hs]; linarith
  · have := dblMax_pos; linarith
  · have hm := List.mem_of_getElem? hp
    have h1 := pathCost_le g p (hQ.lt p hm)
    have h2 : (p.length : ℚ) ≤ e.m.n := by
      rw [← hlen]
      exact_mod_cast (List.sublist_flatten_of_mem hm).length_le
    rw [← hv]; nlinarith

/-- the stored paths are those of a cover of the preprocessed instance, the upper bound is its cost, and
dependent nodes are on the same path -/
def Backed (e : BEnv) (r : ResState) : Prop :=
  ∃ Q, IsCover e.m.n e.m.starts e.m.ends Q ∧ r.paths = Q.map (·.map e.m.orig) ∧ IsObjective e.mode e.m.w Q r.upper ∧
    Grouped (DepIn e.m.n e.m.w) Q

theorem initial_backed (g : e.Good rows w starts ends) {t t' : Nat} {r : ResState}
    (hr : createInitialResult e.mode e.m t ResState.init = .ok (r, t')) (ht : e.m.n ≤ t) (hpos : e.mode = .sum ∨ 0 ≤ r.upper) : Backed e r := by
  suffices hub : r.upper < dblMax by
    obtain ⟨P, h1, h2, h3, h4⟩ := C32_initial_bound_backed_partial g.make g.smallDeltas hr ht hub
    exact ⟨P, h1, h2, h4 hpos, h3⟩
  have hr0 := hr
  unfold createInitialResult at hr
  cases hn : nearestInsertion e.mode (fun _ => e.m.w) e.m.n e.m.starts e.m.ends e.m.deps t with
  | error er => rw [hn] at hr; simp at hr
  | ok x =>
    obtain ⟨⟨P0, obj⟩, t1⟩ := x
    rw [hn] at hr
    dsimp only at hr
    have hc := (C24_construction_covers g.make g.smallDeltas hn).1 ht
    have hA : 0 < P0.length := by rw [hc.len]; exact WM.starts_pos g.make
    have hc1 := C28_cover_preserved (mode := e.mode) (w := e.m.w) (deps := e.m.deps) (t := t1) hA hc
    have h29 := C29_improvement_exact (mode := e.mode) (w := e.m.w) (deps := e.m.deps) (t := t1) hA
    rw [(C21_paths_mapped_back g.make _ hc1.lt).1] at hr
    simp only [Except.ok.injEq, Prod.mk.injEq] at hr
    have hobj : obj < dblMax := by
      refine cover_cost g hc ?_
      cases hm : e.mode with
      | sum =>
        rw [hm] at hn
        exact Or.inl (C27_reported_objective g.make g.smallDeltas hn ht)
      | max =>
        rw [hm] at hn
        obtain ⟨⟨a, p, hp, h⟩, _⟩ := C27_reported_objective g.make g.smallDeltas hn ht
        exact Or.inr (Or.inr ⟨a, p, hp, h.symm⟩)
    have hlt : obj - (twoOpt e.mode P0 e.m.w e.m.deps t1).1.2 < dblMax := by
      have := h29.2
      linarith
    obtain ⟨rfl, _⟩ := hr
    unfold ResState.updateUpperBound ResState.init
    dsimp only
    rw [if_pos hlt]
    exact hlt

/-- what a step does to the stored paths and the upper bound: nothing, or a heuristic or integral solution is stored -/
theorem step_result (g : e.Good rows w starts ends) (hst : e.Started) {bad : Prop} {s : BState} {all : List LinCon}
    (h : GInv e bad s all) {t : Nat} (ht : t < e.threads) (i : Inp) :
    ((s.step e t i).res.paths = s.res.paths ∧ (s.step e t i).res.upper = s.res.upper) ∨
    ∃ v Q, (s.step e t i).res = (s.res.updateUpperBound v (Q.map (·.map e.m.orig))).1 ∧ IsCover e.m.n e.m.starts e.m.ends Q ∧
      IsObjective e.mode e.m.w Q v ∧ Grouped (DepIn e.m.n e.m.w) Q := by
  obtain ⟨hfix, o, ho, hpc⟩ := h.wk t ht
  have hlow : ∀ l, (s.res.updateLowerBound l).1.paths = s.res.paths ∧ (s.res.updateLowerBound l).1.upper = s.res.upper := by
    intro l
    unfold ResState.updateLowerBound
    dsimp only
    split <;> exact ⟨rfl, rfl⟩
  cases hp : (s.wk t).pc with
  | headUpd l =>
    left
    simp only [BState.step, hp]
    split
    · exact hlow l
    · split <;> exact hlow l
  | resUpd lb l =>
    left
    simp only [BState.step, hp]
    split <;> exact hlow l
  | updLB lb l y rc =>
    left
    simp only [BState.step, hp]
    split <;> exact hlow l
  | exploit lb y rc =>
    simp only [PcOk, hp] at hpc
    obtain ⟨hs, hlb, ho'⟩ := hpc
    obtain ⟨r, hr⟩ := exploit_ok g hst (fun i hi => hs.inBox.bin g hi) i.ticks
    simp only [BState.step, hp, hr]
    rcases r with ⟨_ | ⟨v, p⟩, tk⟩
    · exact Or.inl ⟨rfl, rfl⟩
    · right
      obtain ⟨Q, hQ, hpQ, hQo, hQg⟩ := g.heuristic_backed (fun i hi => hs.inBox.bin g hi) hr
      exact ⟨v, Q, by rw [← hpQ]; rfl, hQ, hQo, hQg⟩
  | setUpper lb y =>
    simp only [PcOk, hp] at hpc
    simp only [BState.step, hp]
    rw [(C21_paths_mapped_back g.make _ hpc.2.feasible.1.lt).1]
    right
    exact ⟨lb, _, rfl, hpc.2.feasible.1, hpc.2.cost, hpc.2.feasible.2.grouped⟩
  | head => left; simp only [BState.step, hp]; split <;> exact ⟨rfl, rfl⟩
  | clear => left; simp only [BState.step, hp]; exact ⟨rfl, rfl⟩
  | pop =>
    left; simp only [BState.step, hp]
    split
    · exact ⟨rfl, rfl⟩
    · exact ⟨rfl, rfl⟩
    · split
      · split <;> exact ⟨rfl, rfl⟩
      · split <;> exact ⟨rfl, rfl⟩
    · exact ⟨rfl, rfl⟩
  | resRead lb => left; simp only [BState.step, hp]; split <;> exact ⟨rfl, rfl⟩
  | read lb => left; simp only [BState.step, hp]; split <;> exact ⟨rfl, rfl⟩
  | compact lb => left; simp only [BState.step, hp]; split <;> exact ⟨rfl, rfl⟩
  | solve lb => left; simp only [BState.step, hp]; split <;> exact ⟨rfl, rfl⟩
  | raise lb y rc => left; simp only [BState.step, hp]; split <;> exact ⟨rfl, rfl⟩
  | getLB lb y rc => left; simp only [BState.step, hp]; split <;> exact ⟨rfl, rfl⟩
  | pushCuts cs op => left; simp only [BState.step, hp]; split <;> exact ⟨rfl, rfl⟩
  | push op => left; simp only [BState.step, hp]; split <;> exact ⟨rfl, rfl⟩
  | getUpper lb y => left; simp only [BState.step, hp]; split <;> exact ⟨rfl, rfl⟩
  | done => left; simp only [BState.step, hp]; split <;> exact ⟨rfl, rfl⟩
  | left => left; simp only [BState.step, hp]; exact ⟨trivial, trivial⟩
  | crashed er => left; simp only [BState.step, hp]; exact ⟨trivial, trivial⟩

/-- at every moment the stored result is the initial one or that of a cover found since -/
theorem run_result (g : e.Good rows w starts ends) {t t' : Nat} {r : ResState}
    (hr : createInitialResult e.mode e.m t ResState.init = .ok (r, t')) {tr : List (Nat × Inp)} {s : BState} (h : BRun e r tr s) :
    s.res.upper ≤ r.upper ∧ ((s.res.paths = r.paths ∧ s.res.upper = r.upper) ∨ (s.res.upper < r.upper ∧ Backed e s.res)) := by
  induction h with
  | start s h =>
    obtain ⟨_, hres, _⟩ := start_inv g h
    rw [hres]; exact ⟨le_refl _, Or.inl ⟨rfl, rfl⟩⟩
  | step tr s u i hrun hu hi ih =>
    obtain ⟨_, all, hg⟩ := run_ginv g ⟨t, t', r, hr⟩ hrun
    rcases step_result g ⟨t, t', r, hr⟩ hg hu i with ⟨h1, h2⟩ | ⟨v, Q, h1, h2, h3, hgr⟩
    · rw [h2]
      refine ⟨ih.1, ?_⟩
      rcases ih.2 with ⟨h3, h4⟩ | ⟨h4, Q, h5, h6, h7, h8⟩
      · exact Or.inl ⟨h1.trans h3, h4⟩
      · exact Or.inr ⟨h4, Q, h5, h1.trans h6, by rw [h2]; exact h7, h8⟩
    · rw [h1]
      unfold ResState.updateUpperBound
      dsimp only
      by_cases hlt : v < s.res.upper
      · rw [if_pos hlt]
        have := lt_of_lt_of_le hlt ih.1
        exact ⟨this.le, Or.inr ⟨this, Q, h2, rfl, h3, hgr⟩⟩
      · rw [if_neg hlt]; exact ih

/-! ### leaving -/

/-- once a worker has left, the queue is cleared or exhausted -/
def LeftOk (e : BEnv) (s : BState) : Prop :=
  (∃ t < e.threads, (s.wk t).pc = .left) → s.q.cleared = true ∨ (s.q.heap = [] ∧ s.q.count = 0)

theorem count_pos {q : QState} (hq : QInv q) {t : Nat} {v : ℚ} (h : q.workedOn[t]? = some (some v)) : 0 < q.count := by
  rw [hq.count]
  unfold activeCount
  exact List.countP_pos_iff.2 ⟨_, List.mem_of_getElem? h, rfl⟩

theorem evaluate_left (wk : Worker) (lb ub : ℚ) (y rc : Nat → ℚ) : (wk.evaluate e lb ub y rc).pc ≠ .left := by
  unfold Worker.evaluate
  split
  · simp
  split
  · simp
  dsimp only
  split
  · simp
  split
  · simp
  split <;> simp

theorem setWk_self (s : BState) (t : Nat) (w' : Worker) : ((s.setWk t w').wk t) = w' := by simp [BState.setWk]
theorem setWk_other (s : BState) {t u : Nat} (w' : Worker) (h : u ≠ t) : ((s.setWk t w').wk u) = s.wk u := by simp [BState.setWk, h]

/-- other workers are not affected by a step -/
theorem step_other (s : BState) {t u : Nat} (i : Inp) (h : u ≠ t) : (s.step e t i).wk u = s.wk u := by
  unfold BState.step
  split
  all_goals try dsimp only
  all_goals repeat' split
  all_goals simp [BState.goto, BState.setWk, h]

theorem step_leftok (g : e.Good rows w starts ends) (hst : e.Started) {bad : Prop} {s : BState} {all : List LinCon}
    (h : GInv e bad s all) (j : LeftOk e s) {t : Nat} (ht : t < e.threads) {i : Inp} : LeftOk e (s.step e t i) := by
  obtain ⟨hfix, o, ho, hpc⟩ := h.wk t ht
  -- a busy worker: if somebody has left, the queue is cleared
  have busy : ∀ {v : ℚ}, o = some v → (∃ u < e.threads, u ≠ t ∧ (s.wk u).pc = .left) → s.q.cleared = true := by
    intro v hv ⟨u, hu, _, hl⟩
    subst hv
    have := count_pos h.q ho
    rcases j ⟨u, hu, hl⟩ with h | ⟨_, h⟩
    · exact h
    · omega
  have main : ∀ {s' : BState}, (∀ u, u ≠ t → s'.wk u = s.wk u) → (s'.wk t).pc ≠ .left →
      ((∃ u < e.threads, u ≠ t ∧ (s.wk u).pc = .left) → s'.q.cleared = true ∨ (s'.q.heap = [] ∧ s'.q.count = 0)) → LeftOk e s' := by
    intro s' hoth hne hq ⟨u, hu, hl⟩
    by_cases hut : u = t
    · subst hut; exact absurd hl hne
    · rw [hoth u hut] at hl; exact hq ⟨u, hu, hut, hl⟩
  have same : ∀ {s' : BState}, (∀ u, u ≠ t → s'.wk u = s.wk u) → (s'.wk t).pc ≠ .left → s'.q = s.q → LeftOk e s' := by
    intro s' hoth hne hq
    refine main hoth hne ?_
    rintro ⟨u, hu, _, hl⟩
    rw [hq]; exact j ⟨u, hu, hl⟩
  have hoth : ∀ u, u ≠ t → (s.step e t i).wk u = s.wk u := fun u hu => step_other s i hu
  cases hp : (s.wk t).pc with
  | head =>
    refine same hoth ?_ ?_
    · simp only [BState.step, hp]; split <;> simp [BState.goto, BState.setWk]
    · simp only [BState.step, hp]; split <;> rfl
  | headUpd l =>
    refine same hoth ?_ ?_
    · simp only [BState.step, hp]; split
      · simp [BState.goto, BState.setWk]
      · split <;> simp [BState.goto, BState.setWk]
    · simp only [BState.step, hp]; split
      · rfl
      · split <;> rfl
  | clear => intro _; left; simp only [BState.step, hp]; rfl
  | pop =>
    rcases pop_cases e.H s.q t h.q (by rw [h.len]; exact ht) with ⟨_, _, _, ep⟩ | ⟨hc, ep⟩ | ⟨hc, d, r, l, hh, hpm, hheap, _, ep⟩
    · simp only [BState.step, hp, ep]; exact j
    · intro _; simp only [BState.step, hp, ep]; exact hc
    · have hn : ¬ ∃ u < e.threads, u ≠ t ∧ (s.wk u).pc = .left := by
        rintro ⟨u, hu, _, hl⟩
        rcases j ⟨u, hu, hl⟩ with h | ⟨h, _⟩
        · rw [hc] at h; simp at h
        · rw [hh] at h; simp at h
      refine main hoth ?_ (fun hex => absurd hex hn)
      simp only [BState.step, hp, ep]
      split
      · split <;> simp [BState.goto, BState.setWk]
      · split <;> simp [BState.goto, BState.setWk]
  | resRead lb =>
    refine same hoth ?_ ?_
    · simp only [BState.step, hp]; split <;> simp [BState.goto, BState.setWk]
    · simp only [BState.step, hp]; split <;> rfl
  | resUpd lb l =>
    refine same hoth ?_ ?_
    · simp only [BState.step, hp]; split <;> simp [BState.goto, BState.setWk]
    · simp only [BState.step, hp]; split <;> rfl
  | read lb =>
    refine same hoth ?_ ?_
    · simp only [BState.step, hp]; split
      · simp [BState.goto, BState.setWk]
      · simp only [BState.setWk, if_true]; split <;> simp
    · simp only [BState.step, hp]; split <;> rfl
  | compact lb =>
    refine same hoth ?_ ?_
    · simp only [BState.step, hp]; split <;> simp [BState.goto, BState.setWk]
    · simp only [BState.step, hp]; split <;> rfl
  | solve lb =>
    refine same hoth ?_ ?_
    · simp only [BState.step, hp]; split <;> simp [BState.goto, BState.setWk]
    · simp only [BState.step, hp]; split <;> rfl
  | raise lb y rc =>
    simp only [PcOk, hp] at hpc
    obtain ⟨_, _, v, ho', _⟩ := hpc
    refine main hoth ?_ (fun hex => Or.inl ?_)
    · simp only [BState.step, hp]; split <;> simp [BState.goto, BState.setWk]
    · have hc := busy ho' hex
      have hq : (s.q.updateCurrentLowerBound t lb).2.cleared = s.q.cleared := by
        unfold QState.updateCurrentLowerBound
        split
        · rfl
        · rfl
        · split <;> rfl
      simp only [BState.step, hp]
      split
      next heq => rw [heq] at hq; exact hq.trans hc
      next heq => rw [heq] at hq; exact hq.trans hc
  | getLB lb y rc =>
    refine same hoth ?_ ?_
    · simp only [BState.step, hp]; split <;> simp [BState.goto, BState.setWk]
    · simp only [BState.step, hp]; split <;> rfl
  | updLB lb l y rc =>
    refine same hoth ?_ ?_
    · simp only [BState.step, hp]; split
      · simp [BState.goto, BState.setWk]
      · simp only [BState.setWk, if_true]; exact evaluate_left _ _ _ _ _
    · simp only [BState.step, hp]; split <;> rfl
  | exploit lb y rc =>
    refine same hoth ?_ ?_
    · simp only [BState.step, hp]; split
      · simp [BState.goto, BState.setWk]
      · simp only [BState.setWk, if_true]; exact evaluate_left _ _ _ _ _
      · simp only [BState.setWk, if_true]; exact evaluate_left _ _ _ _ _
    · simp only [BState.step, hp]; split <;> rfl
  | pushCuts cs op =>
    refine same hoth ?_ ?_
    · simp only [BState.step, hp]; split <;> simp [BState.goto, BState.setWk]
    · simp only [BState.step, hp]; split <;> rfl
  | push op =>
    simp only [PcOk, hp] at hpc
    have hv : ∃ v, o = some v := by
      cases op with
      | pushResult v => exact ⟨v, hpc⟩
      | push v f0 f1 => exact ⟨v, hpc.1⟩
      | pushBranch v f0 f1 var rec0 => exact ⟨v, hpc.1⟩
      | _ => exact absurd hpc (by simp [OpOk])
    obtain ⟨v, hv⟩ := hv
    obtain ⟨nodes, q', hq, _, _, hcle, _⟩ := op_step (H := e.H) h.q ho hpc
    refine main hoth ?_ (fun hex => Or.inl ?_)
    · simp only [BState.step, hp]; split <;> simp [BState.goto, BState.setWk]
    · simp only [BState.step, hp, hq]
      exact hcle.trans (busy hv hex)
  | getUpper lb y =>
    refine same hoth ?_ ?_
    · simp only [BState.step, hp]; split <;> simp [BState.goto, BState.setWk]
    · simp only [BState.step, hp]; split <;> rfl
  | setUpper lb y =>
    refine same hoth ?_ ?_
    · simp only [BState.step, hp]; split <;> simp [BState.goto, BState.setWk]
    · simp only [BState.step, hp]; split <;> rfl
  | done =>
    simp only [PcOk, hp] at hpc
    obtain ⟨v, rfl⟩ := hpc
    have hq : s.q.notifyDone t = (.ok .unit, { s.q with workedOn := s.q.workedOn.set t none, count := s.q.count - 1 }) := by
      unfold QState.notifyDone
      rw [ho]
    refine main hoth ?_ (fun hex => Or.inl ?_)
    · simp only [BState.step, hp, hq]; simp [BState.goto, BState.setWk]
    · simp only [BState.step, hp, hq]
      exact busy rfl hex
  | left => simp only [BState.step, hp]; exact j
  | crashed er => simp only [BState.step, hp]; exact j

theorem run_leftok (g : e.Good rows w starts ends) (hst : e.Started) {r : ResState} {tr : List (Nat × Inp)} {s : BState}
    (h : BRun e r tr s) : LeftOk e s := by
  induction h with
  | start s h =>
    obtain ⟨_, _, _, _, _, hwk⟩ := start_inv g h
    rintro ⟨u, _, hl⟩
    rw [hwk u] at hl; simp at hl
  | step tr s u i hrun hu hi ih =>
    obtain ⟨_, all, hg⟩ := run_ginv g hst hrun
    exact step_leftok g hst hg ih hu

end
end Mtsp
