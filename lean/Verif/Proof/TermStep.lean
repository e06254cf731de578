import Verif.Proof.TermMeasure

/-! Every step decreases the measure, or is one of a few that go around in circles. -/

namespace Mtsp

/-- the steps that keep the measure -/
inductive Spin (e : BEnv) (s : BState) (t : Nat) : BState → Prop
  | head (l : ℚ) : (s.wk t).pc = .head → s.q.calcLB = .ok l → Spin e s t (s.goto t (.headUpd l))
  | headUpd (l : ℚ) : (s.wk t).pc = .headUpd l → (s.res.updateLowerBound l).2.Lower < (s.res.updateLowerBound l).2.Upper →
      Spin e s t ({ s with res := (s.res.updateLowerBound l).1 }.goto t .pop)
  | blocked : (s.wk t).pc = .pop → s.q.heap = [] → 0 < s.q.count → Spin e s t s
  | pop (d : SData) (r l : List SData) (f : FixState) : (s.wk t).pc = .pop → s.q.heap = d :: l → r.Perm l → (∀ y ∈ r, d.lb ≤ y.lb) →
      Spin e s t ({ s with q := { s.q with heap := r, workedOn := s.q.workedOn.set t (some d.lb), count := s.q.count + 1 } }.setWk t
        { s.wk t with pc := .resRead d.lb, fix := f })
  | resRead (lb l : ℚ) : (s.wk t).pc = .resRead lb → s.q.calcLB = .ok l → Spin e s t (s.goto t (.resUpd lb l))
  | resUpd (lb l : ℚ) : (s.wk t).pc = .resUpd lb l → lb > (s.res.updateLowerBound l).2.Lower →
      Spin e s t ({ s with res := (s.res.updateLowerBound l).1 }.goto t (.push (.pushResult lb)))
  | push (op : QOp) (nodes : List SData) (q : QState) (v : ℚ) : (s.wk t).pc = .push op → s.q.workedOn[t]? = some (some v) → (∀ d ∈ nodes, d.lb = v) →
      q.workedOn = s.q.workedOn → q.heap = s.q.heap ∨ q.heap.Perm (s.q.heap ++ nodes) → Spin e s t ({ s with q := q }.goto t .done)
  | done (c : Nat) : (s.wk t).pc = .done → Spin e s t ({ s with q := { s.q with workedOn := s.q.workedOn.set t none, count := c } }.goto t .head)
  | left : (s.wk t).pc = .left → Spin e s t s
  | crashed (er : Err) : (s.wk t).pc = .crashed er → Spin e s t s

section
variable {e : BEnv} {rows : Nat} {w : Weights} {starts ends : List Nat}

/-- the solver's point the worker is dealing with satisfies the rows -/
def PcRows (e : BEnv) (wk : Worker) : Prop :=
  match wk.pc with
  | .raise _ y _ | .getLB _ y _ | .updLB _ _ y _ | .exploit _ y _ => SatAll (e.rows0 ++ wk.cuts) y
  | _ => True

/-- what is going to be added is new to the worker -/
def Novel (e : BEnv) (S : Finset LinCon) (wk : Worker) : Prop :=
  (∀ cs op, wk.pc = .pushCuts cs op → ∃ c ∈ cs, c ∈ S ∧ c ∉ wk.cuts) ∧ PcRows e wk

theorem nodeW_node (B : Nat) (lb : ℚ) (f0 f1 : List Nat) : nodeW B { lb := lb, fixed0 := f0, fixed1 := f1 } = 2 * 3 ^ unf B f0 f1 := by
  simp [nodeW]

/-- no arc is used more than once -/
theorem arcUse_le {m : WM} {cols : Nat} {y : Nat → ℚ} (h : WM.make rows cols w starts ends = .ok m) (hy : ∀ i < m.starts.length * m.n * m.n, 0 ≤ y i)
    (hrows : ∀ c ∈ buildConstraints m.n m.starts m.ends m.deps.arcs, c.Sat y) : ∀ u < m.n, ∀ v < m.n, arcUse m.starts.length m.n y u v ≤ 3 / 2 := by
  intro u hu v hv
  have hd := ((rows_iff _ _ _ _ _).1 hrows).degOut u hu
  have h1 : ∑ a ∈ Finset.range m.starts.length, y (varId m.n a u v) ≤ ∑ a ∈ Finset.range m.starts.length, outA m.n y a u := by
    unfold outA
    refine Finset.sum_le_sum fun a ha => ?_
    exact Finset.single_le_sum (f := fun v => y (varId m.n a u v)) (fun v' hv' => hy _ (varId_lt (Finset.mem_range.1 ha) hu (Finset.mem_range.1 hv'))) (Finset.mem_range.2 hv)
  rw [hd] at h1
  show ∑ a ∈ Finset.range m.starts.length, y (varId m.n a u v) ≤ 3 / 2
  linarith

theorem evaluate_mu (g : e.Good rows w starts ends) (hcp : e.CombsProgress) {S : Finset LinCon} (hS : ∀ y, ∀ c ∈ separate e y, c ∈ S)
    {wk : Worker} {y rc : Nat → ℚ} {lb ub : ℚ} (hs : Solved e wk y rc)
    (hsat : SatAll (e.rows0 ++ wk.cuts) y) :
    Novel e S (wk.evaluate e lb ub y rc) ∧ (wk.evaluate e lb ub y rc).cuts = wk.cuts ∧
    rankF (wk.evaluate e lb ub y rc).pc + 40 * held e.B (wk.evaluate e lb ub y rc) < 5 + 40 * (2 * 3 ^ unf e.B wk.fix.fixed0 wk.fix.fixed1) ∧
    rankN (wk.evaluate e lb ub y rc).pc + 40 * held e.B (wk.evaluate e lb ub y rc) < 21 + 40 * (2 * 3 ^ unf e.B wk.fix.fixed0 wk.fix.fixed1) := by
  have hbin : ∀ i < e.B, 0 ≤ y i ∧ y i ≤ 1 := fun i hi => hs.inBox.bin g hi
  have hpos3 : 0 < 3 ^ unf e.B wk.fix.fixed0 wk.fix.fixed1 := Nat.pow_pos (by decide)
  unfold Worker.evaluate
  by_cases hge : lb ≥ ub
  · rw [if_pos hge]
    refine ⟨⟨by intro cs op h; simp at h, trivial⟩, rfl, ?_, ?_⟩ <;> simp [rankF, rankN, held, opW, submittedNodes, nodeW] <;> omega
  rw [if_neg hge]
  obtain ⟨⟨e0, e1⟩, hr, hb0, hb1⟩ := rcFix_ok g wk.fix.model lb ub y rc (List.range wk.fix.model.nBin) ([], [])
    (fun i hi => by rw [List.mem_range, hs.nBin, g.nBin] at hi; exact hi) (by simp) (by simp)
  rw [hr]
  dsimp only
  cases hsep : separate e y with
  | cons c cs =>
    dsimp only
    have hle : unf e.B (wk.fix.fixed0 ++ e0) (wk.fix.fixed1 ++ e1) ≤ unf e.B wk.fix.fixed0 wk.fix.fixed1 :=
      unf_mono (fun i h => List.mem_append_left _ h) (fun i h => List.mem_append_left _ h)
    have hp : 3 ^ unf e.B (wk.fix.fixed0 ++ e0) (wk.fix.fixed1 ++ e1) ≤ 3 ^ unf e.B wk.fix.fixed0 wk.fix.fixed1 := Nat.pow_le_pow_right (by decide) hle
    refine ⟨⟨?_, trivial⟩, rfl, ?_, ?_⟩
    · intro cs' op h
      simp only [Pc.pushCuts.injEq] at h
      obtain ⟨h1, _⟩ := h
      dsimp only
      have hex : ∃ c' ∈ separate e y, ¬ c'.Sat y := by
        have hcuts := hsep
        unfold separate at hcuts ⊢
        obtain ⟨v1, v2, v3, v4⟩ := C89_cuts_are_violated g.precise g.make g.swOk g.mfOk g.size (fun i hi => (hbin i hi).1)
          (arcUse_le g.make (fun i hi => (hbin i hi).1) fun c hc => hsat c (List.mem_append_left _ (List.mem_append_right _ hc)))
        split at hcuts
        · rename_i c' hc'
          exact ⟨c', by simp, (v1 c' hc').1⟩
        rename_i hu
        split at hcuts
        · rename_i c' hc'
          exact ⟨c', by simp, (v4 c' hc').1⟩
        split at hcuts
        · rename_i c' hc'
          exact ⟨c', by simp, (v2 c' hc').1⟩
        split at hcuts
        · rename_i c' hc'
          exact ⟨c', by simp, (v3 c' hc').1⟩
        exact hcp y hbin (fun c hc => hsat c (List.mem_append_left _ hc)) hu (by rw [hcuts]; simp)
      obtain ⟨c', hc', hv⟩ := hex
      exact ⟨c', by rw [← h1, ← hsep]; exact hc', hS y c' hc', fun hm => hv (hsat c' (List.mem_append_right _ hm))⟩
    · simp only [rankF, held, opW, submittedNodes, FixState.remember, List.map_cons, List.map_nil, List.sum_cons, List.sum_nil, nodeW_node]
      omega
    · simp only [rankN, held, opW, submittedNodes, FixState.remember, List.map_cons, List.map_nil, List.sum_cons, List.sum_nil, nodeW_node]
      omega
  | nil =>
    dsimp only
    cases hfr : findFractional e.fl wk.fix.model.nBin y with
    | none =>
      dsimp only
      refine ⟨⟨by intro cs op h; simp at h, trivial⟩, rfl, ?_, ?_⟩ <;> simp [rankF, rankN, held] <;> omega
    | some v =>
      dsimp only
      obtain ⟨hv, hvf, _⟩ := (findFractional_spec g.precise _ _).2 v hfr
      rw [hs.nBin, g.nBin] at hv
      obtain ⟨r, hr, hrb⟩ := calcFixable_bin g hv
      rw [hr]
      dsimp only
      have hn : v < e.cols.nVars := lt_of_lt_of_le hv g.le_nVars
      have hpos : (0 : ℚ) < 1 / 10 ^ 10 := by norm_num
      have hfr1 := hvf.1
      have hfr2 := hvf.2
      have hv1 : v ∉ wk.fix.fixed1 := by
        intro h1
        have := hs.inBox v hn 1 1 (by unfold nodeBounds; rw [if_pos h1])
        linarith [this.1]
      have hv0 : v ∉ wk.fix.fixed0 := by
        intro hmem
        have := hs.inBox v hn 0 0 (by unfold nodeBounds; rw [if_neg hv1, if_pos hmem])
        linarith [this.2]
      have l1 : unf e.B (wk.fix.fixed0 ++ e0 ++ [v]) (wk.fix.fixed1 ++ e1) < unf e.B wk.fix.fixed0 wk.fix.fixed1 :=
        unf_lt (fun i h => by simp [h]) (fun i h => by simp [h]) hv hv0 hv1 (Or.inl (by simp))
      have l2 : unf e.B (wk.fix.fixed0 ++ e0 ++ r) (wk.fix.fixed1 ++ e1 ++ [v]) < unf e.B wk.fix.fixed0 wk.fix.fixed1 :=
        unf_lt (fun i h => by simp [h]) (fun i h => by simp [h]) hv hv0 hv1 (Or.inr (by simp))
      have p1 := Nat.pow_le_pow_right (n := 3) (by decide) (Nat.succ_le_of_lt l1)
      have p2 := Nat.pow_le_pow_right (n := 3) (by decide) (Nat.succ_le_of_lt l2)
      rw [Nat.pow_succ] at p1 p2
      have z1 : 0 < 3 ^ unf e.B (wk.fix.fixed0 ++ e0 ++ [v]) (wk.fix.fixed1 ++ e1) := Nat.pow_pos (by decide)
      have z2 : 0 < 3 ^ unf e.B (wk.fix.fixed0 ++ e0 ++ r) (wk.fix.fixed1 ++ e1 ++ [v]) := Nat.pow_pos (by decide)
      refine ⟨⟨by intro cs op h; simp at h, trivial⟩, rfl, ?_, ?_⟩
      · simp only [rankF, held, opW, submittedNodes, FixState.remember, List.map_cons, List.map_nil, List.sum_cons, List.sum_nil, nodeW_node]
        omega
      · simp only [rankN, held, opW, submittedNodes, FixState.remember, List.map_cons, List.map_nil, List.sum_cons, List.sum_nil, nodeW_node]
        omega

set_option maxHeartbeats 1000000 in
/-- Every step keeps the novelty of the cuts on their way, and decreases the measure or spins. -/
theorem step_mu (g : e.Good rows w starts ends) (hst : e.Started) (hcp : e.CombsProgress) {S : Finset LinCon}
    (hS : ∀ y, ∀ c ∈ separate e y, c ∈ S) {bad : Prop} {s : BState} {all : List LinCon}
    (h : GInv e bad s all) (hthr : 0 < e.threads) (hnov : ∀ u < e.threads, Novel e S (s.wk u)) {t : Nat} (ht : t < e.threads) {i : Inp} (hi : i.Ok e s t) (hrow : i.OnRows e s t) :
    (∀ u < e.threads, Novel e S ((s.step e t i).wk u)) ∧
    ((s.step e t i).mu S e.B e.threads < s.mu S e.B e.threads ∨
      ((s.step e t i).mu S e.B e.threads ≤ s.mu S e.B e.threads ∧ Spin e s t (s.step e t i))) := by
  obtain ⟨hfix, o, ho, hpc⟩ := h.wk t ht
  obtain ⟨lbq, hlbq, _⟩ := calcLB_spec s.q h.q
  -- other workers keep what they are about to add
  have hN : ∀ {q' : QState} {r' : ResState} {d' : CDeque LinCon} {w' : Worker}, Novel e S w' →
      ∀ u < e.threads, Novel e S ((⟨q', r', d', fun u => if u = t then w' else s.wk u⟩ : BState).wk u) := by
    intro q' r' d' w' hw u hu
    dsimp only
    by_cases hut : u = t
    · rw [if_pos hut]; exact hw
    · rw [if_neg hut]; exact hnov u hu
  have triv : ∀ {w' : Worker}, (∀ cs op, w'.pc ≠ .pushCuts cs op) → PcRows e w' → Novel e S w' := fun h h' => ⟨fun cs op he => absurd he (h cs op), h'⟩
  have hR := (hnov t ht).2
  cases hp : (s.wk t).pc with
  | head =>
    simp only [BState.step, hp, hlbq]
    refine ⟨hN (triv (by simp) (by simp [PcRows])), Or.inr ⟨mu_upd_le ht rfl ?_ ?_, .head _ hp hlbq⟩⟩ <;> simp [rankF, rankN, held, hp]
  | headUpd l =>
    simp only [BState.step, hp]
    split
    · refine ⟨hN (triv (by simp) (by simp [PcRows])), Or.inl (mu_upd_lt ht rfl ?_ ?_)⟩ <;> simp [rankF, rankN, held, hp]
    · rename_i hlt
      split
      · refine ⟨hN (triv (by simp) (by simp [PcRows])), Or.inl (mu_upd_lt ht rfl ?_ ?_)⟩ <;> simp [rankF, rankN, held, hp]
      · refine ⟨hN (triv (by simp) (by simp [PcRows])), Or.inr ⟨mu_upd_le ht rfl ?_ ?_, .headUpd _ hp (not_le.1 hlt)⟩⟩ <;> simp [rankF, rankN, held, hp]
  | clear =>
    simp only [BState.step, hp]
    refine ⟨hN (triv (by simp) (by simp [PcRows])), Or.inl (mu_upd_lt ht rfl ?_ ?_)⟩ <;> simp [rankF, rankN, held, hp, heapW, QState.clearAll]
  | pop =>
    simp only [PcOk, hp] at hpc
    subst hpc
    simp only [BState.step, hp]
    rcases pop_cases e.H s.q t h.q (by rw [h.len]; exact ht) with ⟨_, hh, hc, ep⟩ | ⟨_, ep⟩ | ⟨_, d, r, l, hh, hpm, _, hmin, ep⟩
    · rw [ep]; exact ⟨hnov, Or.inr ⟨le_refl _, .blocked hp hh hc⟩⟩
    · rw [ep]
      refine ⟨hN (triv (by simp) (by simp [PcRows])), Or.inl (mu_upd_lt ht rfl ?_ ?_)⟩ <;> simp [rankF, rankN, held, hp]
    · rw [ep]
      dsimp only
      have hW : heapW e.B s.q = nodeW e.B d + (r.map (nodeW e.B)).sum := by
        unfold heapW
        rw [hh, List.map_cons, List.sum_cons, (hpm.map _).sum_eq]
      rcases Bool.eq_false_or_eq_true d.isResult with hres | hres
      · rw [if_pos hres]
        obtain ⟨M1, M2, e1, e2, w2, b2, n2, s2⟩ := unfix_both (fun i hi => g.bin i (by rw [g.nBin] at hi; exact hi)) hfix
        have hskip : (s.wk t).fix.skip = .ok ⟨M2, (s.wk t).fix.fixed0, (s.wk t).fix.fixed1⟩ := by
          simp [FixState.skip, e1, e2, bind, Except.bind, pure, Except.pure]
        rw [hskip]
        have hd : nodeW e.B d = 1 := by simp [nodeW, hres]
        refine ⟨hN (triv (by simp) (by simp [PcRows])), Or.inr ⟨?_, Spin.pop d r l ⟨M2, (s.wk t).fix.fixed0, (s.wk t).fix.fixed1⟩ hp hh hpm hmin⟩⟩
        refine mu_upd_le (s := s) (q' := { s.q with heap := r, workedOn := s.q.workedOn.set t (some d.lb), count := s.q.count + 1 }) (r' := s.res)
          (w' := { s.wk t with pc := .resRead d.lb, fix := ⟨M2, (s.wk t).fix.fixed0, (s.wk t).fix.fixed1⟩ }) ht rfl ?_ ?_
        · rw [hW, hd]; simp only [rankF, held, hp, heapW]; omega
        · rw [hW, hd]; simp only [rankN, held, hp, heapW]; omega
      · rw [if_neg (by rw [hres]; simp)]
        have hnode := h.heap d (by rw [hh]; exact List.mem_cons_self) hres
        obtain ⟨f, hf, hfi, hfb⟩ := load_spec (fun i hi => g.bin i (by rw [g.nBin] at hi; exact hi)) hfix hnode.bin0 hnode.bin1
        obtain ⟨hf0, hf1⟩ := load_fixed hf
        rw [hf]
        have hd : nodeW e.B d = 2 * 3 ^ unf e.B d.fixed0 d.fixed1 := by simp [nodeW, hres]
        refine ⟨hN (triv (by simp) (by simp [PcRows])), Or.inl ?_⟩
        refine mu_upd_lt (s := s) (q' := { s.q with heap := r, workedOn := s.q.workedOn.set t (some d.lb), count := s.q.count + 1 }) (r' := s.res)
          (w' := { s.wk t with pc := .read d.lb, fix := f }) ht rfl ?_ ?_
        · rw [hW, hd]; simp only [rankF, held, hp, heapW, hf0, hf1]; omega
        · rw [hW, hd]; simp only [rankN, held, hp, heapW, hf0, hf1]; omega
  | resRead lb =>
    simp only [BState.step, hp, hlbq]
    refine ⟨hN (triv (by simp) (by simp [PcRows])), Or.inr ⟨mu_upd_le ht rfl ?_ ?_, .resRead _ _ hp hlbq⟩⟩ <;> simp [rankF, rankN, held, hp]
  | resUpd lb l =>
    simp only [BState.step, hp]
    split
    · rename_i hlt
      refine ⟨hN (triv (by simp) (by simp [PcRows])), Or.inr ⟨mu_upd_le ht rfl ?_ ?_, .resUpd _ _ hp hlt⟩⟩ <;>
        simp [rankF, rankN, held, hp, opW, submittedNodes, nodeW]
    · refine ⟨hN (triv (by simp) (by simp [PcRows])), Or.inl (mu_upd_lt ht rfl ?_ ?_)⟩ <;> simp [rankF, rankN, held, hp]
  | read lb =>
    obtain ⟨seen, hcd, hw⟩ := h.deq
    obtain ⟨p1, p2, p3⟩ := pend_read hcd ht s.q s.res (fun u => if u = t then { s.wk t with cuts := (s.wk t).cuts ++ s.pend t, pc := if t = 0 then .compact lb else .solve lb } else s.wk u)
    have hstp : s.deque.step (.read t) = (.ok (s.pend t), (s.deque.step (.read t)).2) := Prod.ext p1 rfl
    simp only [BState.step, hp]
    rw [hstp]
    dsimp only
    refine ⟨hN (triv (by intro cs op; dsimp only; split <;> simp) (by by_cases h0 : t = 0 <;> simp [PcRows, h0])), Or.inl ?_⟩
    refine mu_lt ht (fun u _ hu => ?_) ?_
    · unfold BState.wm BState.fresh BState.setWk
      dsimp only
      rw [p3 u hu]
      simp only [if_neg hu]
      exact le_of_eq (by congr)
    · have hnf : ¬ BState.fresh S (⟨s.q, s.res, (s.deque.step (.read t)).2, fun u => if u = t then { s.wk t with cuts := (s.wk t).cuts ++ s.pend t, pc := if t = 0 then .compact lb else .solve lb } else s.wk u⟩ : BState) t := by
        unfold BState.fresh
        rw [p2]
        simp
      unfold BState.setWk
      dsimp only
      unfold BState.wm
      rw [if_neg hnf]
      simp only [if_true]
      have hheld : held e.B { s.wk t with cuts := (s.wk t).cuts ++ s.pend t, pc := if t = 0 then .compact lb else .solve lb } = held e.B (s.wk t) := by
        unfold held
        rw [hp]
        dsimp only
        by_cases h0 : t = 0
        · rw [if_pos h0]
        · rw [if_neg h0]
      rw [hheld]
      have hrank : rankN (if t = 0 then Pc.compact lb else Pc.solve lb) ≤ 26 := by split <;> simp [rankN]
      by_cases hf : s.fresh S t
      · rw [if_pos hf]
        have : missing S ((s.wk t).cuts ++ s.pend t) < missing S (s.wk t).cuts := by
          obtain ⟨c, hc1, hc2, hc3⟩ := hf
          refine Finset.card_lt_card ⟨fun x hx => ?_, fun hsub => ?_⟩
          · rw [Finset.mem_filter] at hx ⊢
            exact ⟨hx.1, fun hm => hx.2 (List.mem_append_left _ hm)⟩
          · have := hsub (Finset.mem_filter.2 ⟨hc2, hc3⟩)
            rw [Finset.mem_filter] at this
            exact this.2 (List.mem_append_right _ hc1)
        omega
      · rw [if_neg hf]
        have : missing S ((s.wk t).cuts ++ s.pend t) ≤ missing S (s.wk t).cuts := by
          refine Finset.card_le_card fun x hx => ?_
          rw [Finset.mem_filter] at hx ⊢
          exact ⟨hx.1, fun hm => hx.2 (List.mem_append_left _ hm)⟩
        have : rankN (s.wk t).pc = 27 := by rw [hp]; rfl
        omega
  | compact lb =>
    obtain ⟨seen, hcd, hw⟩ := h.deq
    obtain ⟨⟨cs, hcs, _⟩, _⟩ := hcd.step hthr .compact (by simp)
    have hstp : s.deque.step .compact = (.ok cs, (s.deque.step .compact).2) := Prod.ext hcs rfl
    simp only [BState.step, hp]
    rw [hstp]
    dsimp only
    refine ⟨hN (triv (by simp) (by simp [PcRows])), Or.inl ?_⟩
    have pc' := fun u hu => pend_compact (u := u) hcd hthr s.q s.res (fun u => if u = t then { s.wk t with pc := .solve lb } else s.wk u) hu
    refine mu_lt ht (fun u hu' hu => ?_) ?_
    · unfold BState.wm BState.fresh BState.goto BState.setWk
      dsimp only
      rw [pc' u hu']
      simp only [if_neg hu]
      exact le_of_eq (by congr)
    · unfold BState.wm BState.fresh BState.goto BState.setWk
      dsimp only
      rw [pc' t ht]
      simp only [if_true, held, hp, rankF, rankN]
      split <;> omega
  | solve lb =>
    simp only [PcOk, hp] at hpc
    obtain ⟨ho', hload, hnode⟩ := hpc
    simp only [Inp.Ok, hp] at hi
    simp only [BState.step, hp]
    have hpos3 : 0 < 3 ^ unf e.B (s.wk t).fix.fixed0 (s.wk t).fix.fixed1 := Nat.pow_pos (by decide)
    cases hans : i.ans with
    | unbounded => rw [hans] at hi; exact absurd hi (not_unbounded g hload)
    | error => refine ⟨hN (triv (by simp) (by simp [PcRows])), Or.inl (mu_upd_lt ht rfl ?_ ?_)⟩ <;> simp [rankF, rankN, held, hp] <;> omega
    | timeout => refine ⟨hN (triv (by simp) (by simp [PcRows])), Or.inl (mu_upd_lt ht rfl ?_ ?_)⟩ <;> simp [rankF, rankN, held, hp] <;> omega
    | infeasible => refine ⟨hN (triv (by simp) (by simp [PcRows])), Or.inl (mu_upd_lt ht rfl ?_ ?_)⟩ <;> simp [rankF, rankN, held, hp] <;> omega
    | optimal y rc => refine ⟨hN (triv (by simp) (hrow lb hp y rc hans)), Or.inl (mu_upd_lt ht rfl ?_ ?_)⟩ <;> simp [rankF, rankN, held, hp]
  | raise lb y rc =>
    have hsat : SatAll (e.rows0 ++ (s.wk t).cuts) y := by simpa only [PcRows, hp] using hR
    simp only [PcOk, hp] at hpc
    obtain ⟨hs, hlb, v, ho', hv⟩ := hpc
    subst ho'
    have hq : s.q.updateCurrentLowerBound t lb = (.ok .unit, { s.q with workedOn := s.q.workedOn.set t (some lb) }) := by
      unfold QState.updateCurrentLowerBound
      rw [ho]; dsimp only; rw [if_neg (not_lt.2 hv)]
    simp only [BState.step, hp, hq]
    refine ⟨hN (triv (by simp) hsat), Or.inl (mu_upd_lt ht rfl ?_ ?_)⟩ <;> simp [rankF, rankN, held, hp, heapW]
  | getLB lb y rc =>
    have hsat : SatAll (e.rows0 ++ (s.wk t).cuts) y := by simpa only [PcRows, hp] using hR
    simp only [BState.step, hp, hlbq]
    refine ⟨hN (triv (by simp) hsat), Or.inl (mu_upd_lt ht rfl ?_ ?_)⟩ <;> simp [rankF, rankN, held, hp]
  | updLB lb l y rc =>
    have hsat : SatAll (e.rows0 ++ (s.wk t).cuts) y := by simpa only [PcRows, hp] using hR
    simp only [PcOk, hp] at hpc
    obtain ⟨hs, hlb, ho'⟩ := hpc
    simp only [BState.step, hp]
    split
    · refine ⟨hN (triv (by simp) hsat), Or.inl (mu_upd_lt ht rfl ?_ ?_)⟩ <;> simp [rankF, rankN, held, hp]
    · obtain ⟨a, b, c, d⟩ := evaluate_mu g hcp hS (ub := (s.res.updateLowerBound l).2.Upper) (lb := lb) hs hsat
      refine ⟨hN a, Or.inl (mu_upd_lt ht b ?_ ?_)⟩
      · simp only [held, hp, rankF] at c ⊢; omega
      · simp only [held, hp, rankN] at d ⊢; omega
  | exploit lb y rc =>
    have hsat : SatAll (e.rows0 ++ (s.wk t).cuts) y := by simpa only [PcRows, hp] using hR
    simp only [PcOk, hp] at hpc
    obtain ⟨hs, hlb, ho'⟩ := hpc
    obtain ⟨r, hr⟩ := exploit_ok g hst (fun i hi => hs.inBox.bin g hi) i.ticks
    simp only [BState.step, hp, hr]
    rcases r with ⟨_ | ⟨v, p⟩, tk⟩
    · obtain ⟨a, b, c, d⟩ := evaluate_mu g hcp hS (ub := s.res.getBounds.Upper) (lb := lb) hs hsat
      refine ⟨hN a, Or.inl (mu_upd_lt ht b ?_ ?_)⟩
      · simp only [held, hp, rankF] at c ⊢; omega
      · simp only [held, hp, rankN] at d ⊢; omega
    · obtain ⟨a, b, c, d⟩ := evaluate_mu g hcp hS (ub := (s.res.updateUpperBound v p).2.Upper) (lb := lb) hs hsat
      refine ⟨hN a, Or.inl (mu_upd_lt ht b ?_ ?_)⟩
      · simp only [held, hp, rankF] at c ⊢; omega
      · simp only [held, hp, rankN] at d ⊢; omega
  | pushCuts cs op =>
    obtain ⟨seen, hcd, hw⟩ := h.deq
    obtain ⟨c, hc1, hc2, hc3⟩ := (hnov t ht).1 cs op hp
    have hstp : s.deque.step (.push cs) = (.ok [], (s.deque.step (.push cs)).2) := rfl
    simp only [BState.step, hp]
    rw [hstp]
    dsimp only
    refine ⟨hN (triv (by simp) (by simp [PcRows])), Or.inl ?_⟩
    have pc' := fun u hu => pend_push (u := u) hcd hu cs s.q s.res (fun u => if u = t then { s.wk t with pc := .push op } else s.wk u)
    refine mu_lt ht (fun u hu' hu => ?_) ?_
    · unfold BState.wm BState.fresh BState.goto BState.setWk
      dsimp only
      rw [pc' u hu']
      simp only [if_neg hu]
      have hr := rankF_le (s.wk u).pc
      by_cases hf : ∃ c ∈ s.pend u, c ∈ S ∧ c ∉ (s.wk u).cuts
      · obtain ⟨c, h1, h2⟩ := hf
        rw [if_pos ⟨c, List.mem_append_left _ h1, h2⟩, if_pos ⟨c, h1, h2⟩]
      · rw [if_neg hf]
        split <;> omega
    · unfold BState.wm BState.fresh BState.goto BState.setWk
      dsimp only
      rw [pc' t ht]
      simp only [if_true]
      rw [if_pos ⟨c, List.mem_append_right _ hc1, hc2, hc3⟩]
      simp only [held, hp, rankF, rankN]
      split <;> omega
  | push op =>
    simp only [PcOk, hp] at hpc
    obtain ⟨nodes, q', hq, hqi, hwo, _, _, hlbs, hnodes, hok, hheap⟩ := op_step (H := e.H) h.q ho hpc
    simp only [BState.step, hp, hq]
    have hov : ∃ v, o = some v := by
      cases op with
      | pushResult v => exact ⟨v, hpc⟩
      | push v f0 f1 => exact ⟨v, hpc.1⟩
      | pushBranch v f0 f1 var rec0 => exact ⟨v, hpc.1⟩
      | _ => exact absurd hpc (by simp [OpOk])
    obtain ⟨v, rfl⟩ := hov
    have hle : heapW e.B q' ≤ heapW e.B s.q + opW e.B op := by
      unfold heapW opW
      rw [← hnodes]
      rcases hheap with ⟨_, hh⟩ | ⟨_, hh⟩
      · rw [hh]; omega
      · rw [(hh.map _).sum_eq, List.map_append, List.sum_append]
    refine ⟨hN (triv (by simp) (by simp [PcRows])), Or.inr ⟨mu_upd_le (s := s) (q' := q') (r' := s.res) (w' := { s.wk t with pc := .done }) ht rfl ?_ ?_,
      .push op nodes q' v hp ho (fun d hd => ?_) hwo ?_⟩⟩
    · simp only [held, hp, rankF]; omega
    · simp only [held, hp, rankN]; omega
    · have := hlbs d hd
      simp only [Option.some.injEq] at this
      exact this.symm
    · rcases hheap with ⟨_, hh⟩ | ⟨_, hh⟩
      · exact Or.inl hh
      · exact Or.inr hh
  | getUpper lb y =>
    simp only [BState.step, hp]
    split
    · refine ⟨hN (triv (by simp) (by simp [PcRows])), Or.inl (mu_upd_lt ht rfl ?_ ?_)⟩ <;> simp [rankF, rankN, held, hp]
    · refine ⟨hN (triv (by simp) (by simp [PcRows])), Or.inl (mu_upd_lt ht rfl ?_ ?_)⟩ <;> simp [rankF, rankN, held, hp, opW, submittedNodes, nodeW]
  | setUpper lb y =>
    simp only [PcOk, hp] at hpc
    simp only [BState.step, hp]
    rw [(C21_paths_mapped_back g.make _ hpc.2.feasible.1.lt).1]
    refine ⟨hN (triv (by simp) (by simp [PcRows])), Or.inl (mu_upd_lt ht rfl ?_ ?_)⟩ <;> simp [rankF, rankN, held, hp, opW, submittedNodes, nodeW]
  | done =>
    simp only [PcOk, hp] at hpc
    obtain ⟨v, rfl⟩ := hpc
    have hq : s.q.notifyDone t = (.ok .unit, { s.q with workedOn := s.q.workedOn.set t none, count := s.q.count - 1 }) := by
      unfold QState.notifyDone
      rw [ho]
    simp only [BState.step, hp, hq]
    refine ⟨hN (triv (by simp) (by simp [PcRows])), Or.inr ⟨?_, .done _ hp⟩⟩
    refine mu_upd_le (s := s) (q' := { s.q with workedOn := s.q.workedOn.set t none, count := s.q.count - 1 }) (r' := s.res)
      (w' := { s.wk t with pc := .head }) ht rfl ?_ ?_ <;> simp [rankF, rankN, held, hp, heapW]
  | left => simp only [BState.step, hp]; exact ⟨hnov, Or.inr ⟨le_refl _, .left hp⟩⟩
  | crashed er => simp only [BState.step, hp]; exact ⟨hnov, Or.inr ⟨le_refl _, .crashed er hp⟩⟩

end
end Mtsp
