import Verif.Proof.BnBSol

/-! A solution is never lost unless it is not better than the upper bound. -/

namespace Mtsp

section
variable {e : BEnv} {rows : Nat} {w : Weights} {starts ends : List Nat} {P : Paths} {c : ℚ} {L : Prop}

/-- the worker works on a subtree with the solution, or is about to report a bound at most its cost -/
def Carry (e : BEnv) (P : Paths) (c : ℚ) (o : Option ℚ) (wk : Worker) : Prop :=
  match wk.pc with
  | .read _ | .compact _ | .solve _ | .raise _ _ _ | .getLB _ _ _ | .updLB _ _ _ _ | .exploit _ _ _ =>
    Obeys e P c wk.fix.fixed0 wk.fix.fixed1
  | .pushCuts _ op | .push op => ∃ d ∈ submittedNodes (op, .ok .unit), d.isResult = false ∧ Obeys e P c d.fixed0 d.fixed1
  | .getUpper lb _ | .setUpper lb _ => lb ≤ c
  | .crashed _ => ∃ v, o = some v ∧ v ≤ c
  | _ => False

/-- the queue or a worker has a node with the solution -/
def Cov (e : BEnv) (P : Paths) (c : ℚ) (s : BState) : Prop :=
  (∃ d ∈ s.q.heap, d.isResult = false ∧ Obeys e P c d.fixed0 d.fixed1) ∨
  (∃ t < e.threads, ∃ o, s.q.workedOn[t]? = some o ∧ Carry e P c o (s.wk t))

/-- a bound read from the queue and not yet reported -/
def Pc.flight : Pc → Option ℚ
  | .headUpd l => some l
  | .resUpd _ l => some l
  | .updLB _ l _ _ => some l
  | _ => none

/-- the rule for reduced costs holds for what the worker has -/
def PcMild (e : BEnv) : Pc → Prop
  | .raise _ _ rc | .getLB _ _ rc | .updLB _ _ _ rc | .exploit _ _ rc => RcMild e rc
  | _ => True

/-- invariant for one feasible solution; `L`: leaving early because of the deadline is possible -/
structure JInv (e : BEnv) (L : Prop) (P : Paths) (c : ℚ) (s : BState) : Prop where
  one : L → e.threads = 1
  lower : s.res.lower ≤ c
  upper : ∃ z : ℤ, s.res.upper = z
  cov : s.res.upper ≤ c ∨ Cov e P c s
  flight : ∀ t < e.threads, ∀ l, (s.wk t).pc.flight = some l → l ≤ c ∨ s.res.upper ≤ c
  clear : (s.q.cleared = true ∨ ∃ t < e.threads, (s.wk t).pc = .clear) → s.res.upper ≤ c ∨ L
  left : s.q.cleared = true → L → (s.wk 0).pc = .left
  mild : ∀ t < e.threads, PcMild e (s.wk t).pc

theorem submitted_le (g : e.Good rows w starts ends) (hP : e.Feasible P) (h3 : 3 ≤ e.m.n) (hc : IsObjective e.mode e.m.w P c)
    {all : List LinCon} (hcuts : ∀ k ∈ all, CutOk e k) {o : Option ℚ} {op : QOp} (hop : OpOk e all o op)
    (h : ∃ d ∈ submittedNodes (op, .ok .unit), d.isResult = false ∧ Obeys e P c d.fixed0 d.fixed1) : ∃ v, o = some v ∧ v ≤ c := by
  obtain ⟨d, hd, hr, ho⟩ := h
  cases op with
  | pushResult v => simp only [submittedNodes, List.mem_singleton] at hd; subst hd; simp at hr
  | push v f0 f1 =>
    simp only [submittedNodes, List.mem_singleton] at hd; subst hd
    exact ⟨v, hop.1, hop.2.le g hP h3 hc hcuts ho⟩
  | pushBranch v f0 f1 var rec0 =>
    have hn := hop.2 d hd
    have hle := hn.le g hP h3 hc hcuts ho
    refine ⟨v, hop.1, ?_⟩
    simp only [submittedNodes, List.mem_cons, List.not_mem_nil, or_false] at hd
    rcases hd with rfl | rfl <;> exact hle
  | _ => exact absurd hop (by simp [OpOk])

theorem carry_le (g : e.Good rows w starts ends) (hP : e.Feasible P) (h3 : 3 ≤ e.m.n) (hc : IsObjective e.mode e.m.w P c)
    {bad : Prop} {all : List LinCon} (hcuts : ∀ k ∈ all, CutOk e k) {wk : Worker} (hsub : ∀ k ∈ wk.cuts, k ∈ all)
    (hf : FixInv e.cols wk.fix) {o : Option ℚ} (hpc : PcOk e bad all o wk) (h : Carry e P c o wk) : ∃ v, o = some v ∧ v ≤ c := by
  have hcuts' : ∀ k ∈ wk.cuts, CutOk e k := fun k hk => hcuts k (hsub k hk)
  have hsolved : ∀ {y rc : Nat → ℚ}, Solved e wk y rc → Obeys e P c wk.fix.fixed0 wk.fix.fixed1 → ceilBound (e.obj.eval y) ≤ c := by
    intro y rc hs ho
    have := hs.nodeOk g (cuts := wk.cuts) (fun _ h => h) hf.bin0 hf.bin1 (fun _ h => h) (fun _ h => h) (fun _ h => Or.inl h)
    exact this.le g hP h3 hc hcuts' ho
  cases hp : wk.pc with
  | read lb =>
    simp only [PcOk, hp] at hpc; simp only [Carry, hp] at h
    exact ⟨lb, hpc.1, hpc.2.2.le g hP h3 hc hcuts h⟩
  | compact lb =>
    simp only [PcOk, hp] at hpc; simp only [Carry, hp] at h
    exact ⟨lb, hpc.1, hpc.2.2.le g hP h3 hc hcuts' h⟩
  | solve lb =>
    simp only [PcOk, hp] at hpc; simp only [Carry, hp] at h
    exact ⟨lb, hpc.1, hpc.2.2.le g hP h3 hc hcuts' h⟩
  | raise lb y rc =>
    simp only [PcOk, hp] at hpc; simp only [Carry, hp] at h
    obtain ⟨hs, hlb, v, ho, hv⟩ := hpc
    exact ⟨v, ho, hv.trans (by rw [hlb]; exact hsolved hs h)⟩
  | getLB lb y rc =>
    simp only [PcOk, hp] at hpc; simp only [Carry, hp] at h
    exact ⟨lb, hpc.2.2, by rw [hpc.2.1]; exact hsolved hpc.1 h⟩
  | updLB lb l y rc =>
    simp only [PcOk, hp] at hpc; simp only [Carry, hp] at h
    exact ⟨lb, hpc.2.2, by rw [hpc.2.1]; exact hsolved hpc.1 h⟩
  | exploit lb y rc =>
    simp only [PcOk, hp] at hpc; simp only [Carry, hp] at h
    exact ⟨lb, hpc.2.2, by rw [hpc.2.1]; exact hsolved hpc.1 h⟩
  | pushCuts cs op =>
    simp only [PcOk, hp] at hpc; simp only [Carry, hp] at h
    exact submitted_le g hP h3 hc hcuts hpc.2 h
  | push op =>
    simp only [PcOk, hp] at hpc; simp only [Carry, hp] at h
    exact submitted_le g hP h3 hc hcuts hpc h
  | getUpper lb y => simp only [PcOk, hp] at hpc; simp only [Carry, hp] at h; exact ⟨lb, hpc.1, h⟩
  | setUpper lb y => simp only [PcOk, hp] at hpc; simp only [Carry, hp] at h; exact ⟨lb, hpc.1, h⟩
  | crashed er => simp only [Carry, hp] at h; exact h
  | head => simp only [Carry, hp] at h
  | headUpd l => simp only [Carry, hp] at h
  | clear => simp only [Carry, hp] at h
  | pop => simp only [Carry, hp] at h
  | resRead lb => simp only [Carry, hp] at h
  | resUpd lb l => simp only [Carry, hp] at h
  | done => simp only [Carry, hp] at h
  | left => simp only [Carry, hp] at h

/-- the bound the queue reports is at most the cost of a solution in reach -/
theorem cov_calcLB (g : e.Good rows w starts ends) (hP : e.Feasible P) (h3 : 3 ≤ e.m.n) (hc : IsObjective e.mode e.m.w P c)
    {bad : Prop} {s : BState} {all : List LinCon} (h : GInv e bad s all) (hcov : Cov e P c s) {l : ℚ} (hl : s.q.calcLB = .ok l) : l ≤ c := by
  obtain ⟨l', hl', hb⟩ := calcLB_spec s.q h.q
  rw [hl'] at hl; cases hl
  have key : ∃ v ∈ s.q.allBounds, v ≤ c := by
    unfold QState.allBounds
    rcases hcov with ⟨d, hd, hr, ho⟩ | ⟨t, ht, o, hot, hcar⟩
    · exact ⟨d.lb, List.mem_append_left _ (List.mem_map.2 ⟨d, hd, rfl⟩), (h.heap d hd hr).le g hP h3 hc h.cuts ho⟩
    · obtain ⟨hfix, o', ho', hpc⟩ := h.wk t ht
      rw [hot] at ho'; cases ho'
      obtain ⟨v, rfl, hv⟩ := carry_le g hP h3 hc h.cuts (h.sub ht) hfix hpc hcar
      exact ⟨v, List.mem_append_right _ (List.mem_filterMap.2 ⟨some v, List.mem_of_getElem? hot, rfl⟩), hv⟩
  obtain ⟨v, hv, hvc⟩ := key
  rcases hb with ⟨hb, _⟩ | ⟨_, hb⟩
  · rw [hb] at hv; simp at hv
  · exact (hb v hv).trans hvc

/-- evaluating a node keeps the solution in reach -/
theorem evaluate_carry (g : e.Good rows w starts ends) (hP : e.Feasible P) (h3 : 3 ≤ e.m.n) (hc : IsObjective e.mode e.m.w P c)
    {wk : Worker} {y rc : Nat → ℚ} {lb ub : ℚ} (hs : Solved e wk y rc) (hlb : lb = ceilBound (e.obj.eval y))
    (hf : FixInv e.cols wk.fix) (hcuts : ∀ k ∈ wk.cuts, CutOk e k) (hmild : RcMild e rc) (hub : ∃ z : ℤ, ub = z)
    (ho : Obeys e P c wk.fix.fixed0 wk.fix.fixed1) (o : Option ℚ) : ub ≤ c ∨ Carry e P c o (wk.evaluate e lb ub y rc) := by
  have hle : lb ≤ c := by
    rw [hlb]
    exact (hs.nodeOk g (cuts := wk.cuts) (fun _ h => h) hf.bin0 hf.bin1 (fun _ h => h) (fun _ h => h) (fun _ h => Or.inl h)).le
      g hP h3 hc hcuts ho
  by_cases hlt : c < ub
  swap
  · exact Or.inl (not_lt.1 hlt)
  right
  unfold Worker.evaluate
  have hge : ¬ lb ≥ ub := not_le.2 (lt_of_le_of_lt hle hlt)
  rw [if_neg hge]
  have hrng : ∀ i ∈ List.range wk.fix.model.nBin, i < e.B := fun i hi => by
    rw [List.mem_range, hs.nBin, g.nBin] at hi; exact hi
  obtain ⟨⟨e0, e1⟩, hr, hb0, hb1⟩ := rcFix_ok g wk.fix.model lb ub y rc (List.range wk.fix.model.nBin) ([], [])
    hrng (by simp) (by simp)
  have hr' := hr
  rw [hlb] at hr'
  have hob := rcFix_keeps g hP h3 hc hs hf hcuts ho hub hlt (by rw [← hlb]; exact hge) hmild wk.fix.model _ ([], []) _ hrng
    ⟨by simp, by simp⟩ hr'
  rw [hr]
  dsimp only
  have hall : Obeys e P c (wk.fix.fixed0 ++ e0) (wk.fix.fixed1 ++ e1) := by
    constructor
    · intro i hi
      rcases List.mem_append.1 hi with hi | hi
      · exact ho.1 i hi
      · exact hob.1 i hi
    · intro i hi
      rcases List.mem_append.1 hi with hi | hi
      · exact ho.2 i hi
      · exact hob.2 i hi
  cases hsep : separate e y with
  | cons k ks =>
    dsimp only
    simp only [Carry]
    exact ⟨{ lb := lb, fixed0 := wk.fix.fixed0 ++ e0, fixed1 := wk.fix.fixed1 ++ e1 }, List.mem_singleton.2 rfl, rfl, hall⟩
  | nil =>
    dsimp only
    cases hfr : findFractional e.fl wk.fix.model.nBin y with
    | none => simp only [Carry]; exact hle
    | some v =>
      dsimp only
      obtain ⟨hv, hvf, _⟩ := (findFractional_spec g.precise _ _).2 v hfr
      rw [hs.nBin, g.nBin] at hv
      obtain ⟨x, hx⟩ := hs.opt g
      obtain ⟨rec0, c0, c1, hrec, hbr, _, _, hpart, _⟩ := C11_branching_partitions g.make (rows0_iff.1 hx.sat).2.1
        (fun i hi => (hx.inBox.bin g hi).1) hv (hx.frac g hv hvf) lb (wk.fix.fixed0 ++ e0) (wk.fix.fixed1 ++ e1)
      rw [hrec]
      dsimp only
      simp only [Carry]
      have hsub : submittedNodes (.pushBranch lb (wk.fix.remember e0 e1).fixed0 (wk.fix.remember e0 e1).fixed1 v rec0, .ok .unit) = [c0, c1] := hbr
      have hres : ∀ d ∈ [c0, c1], d.isResult = false := by
        rw [← hbr]; intro d hd
        simp only [branchNodes, List.mem_cons, List.not_mem_nil, or_false] at hd
        rcases hd with rfl | rfl <;> rfl
      rw [hsub]
      rcases hpart P (solPoint e P c) hP (solPoint_isPoint P c) hall with ⟨h, _⟩ | ⟨h, _⟩
      · exact ⟨c0, by simp, hres c0 (by simp), h⟩
      · exact ⟨c1, by simp, hres c1 (by simp), h⟩

/-! ### preservation -/

/-- what the partial theorems ask of the inputs: no LP solve hits the deadline, the deadline is noticed at the head of the
loop only if `L`, reduced costs as in `RcMild` -/
def Inp.Calm (e : BEnv) (L : Prop) (i : Inp) : Prop :=
  i.ans ≠ .timeout ∧ (i.late = false ∨ L) ∧ ∀ y rc, i.ans = .optimal y rc → RcMild e rc

theorem cov_upd {s : BState} (h : Cov e P c s) {t : Nat} (ht : t < e.threads) {q' : QState} {r' : ResState} {d' : CDeque LinCon}
    {w' : Worker} {X : Prop} (hheap : ∀ d ∈ s.q.heap, d.isResult = false → Obeys e P c d.fixed0 d.fixed1 → d ∈ q'.heap ∨
      ∃ o, q'.workedOn[t]? = some o ∧ Carry e P c o w')
    (hother : ∀ u, u ≠ t → q'.workedOn[u]? = s.q.workedOn[u]?)
    (hme : ∀ o, s.q.workedOn[t]? = some o → Carry e P c o (s.wk t) →
      X ∨ (∃ o', q'.workedOn[t]? = some o' ∧ Carry e P c o' w') ∨ ∃ d ∈ q'.heap, d.isResult = false ∧ Obeys e P c d.fixed0 d.fixed1) :
    X ∨ Cov e P c ⟨q', r', d', fun u => if u = t then w' else s.wk u⟩ := by
  have mine : (∃ o', q'.workedOn[t]? = some o' ∧ Carry e P c o' w') →
      Cov e P c ⟨q', r', d', fun u => if u = t then w' else s.wk u⟩ := by
    rintro ⟨o', h1, h2⟩
    exact Or.inr ⟨t, ht, o', h1, by simp only [if_true]; exact h2⟩
  rcases h with ⟨d, hd, hr, ho⟩ | ⟨u, hu, o, hou, hcar⟩
  · right
    rcases hheap d hd hr ho with h | h
    · exact Or.inl ⟨d, h, hr, ho⟩
    · exact mine h
  · by_cases hut : u = t
    · subst hut
      rcases hme o hou hcar with h | h | h
      · exact Or.inl h
      · exact Or.inr (mine h)
      · exact Or.inr (Or.inl h)
    · right; right
      exact ⟨u, hu, o, by rw [hother u hut]; exact hou, by simp only [if_neg hut]; exact hcar⟩

theorem JInv.upd {s : BState} (h : JInv e L P c s) {t : Nat} (ht : t < e.threads) {q' : QState} {r' : ResState} {d' : CDeque LinCon}
    {w' : Worker} (hlow : r'.lower ≤ c) (hup : ∃ z : ℤ, r'.upper = z) (hmono : r'.upper ≤ s.res.upper)
    (hcl : q'.cleared = s.q.cleared) (hne : (s.wk t).pc ≠ .left)
    (hcov : Cov e P c s → r'.upper ≤ c ∨ Cov e P c ⟨q', r', d', fun u => if u = t then w' else s.wk u⟩)
    (hfl : ∀ l, w'.pc.flight = some l → l ≤ c ∨ r'.upper ≤ c)
    (hclp : w'.pc = .clear → r'.upper ≤ c ∨ L) (hmild : PcMild e w'.pc) :
    JInv e L P c ⟨q', r', d', fun u => if u = t then w' else s.wk u⟩ := by
  refine ⟨h.one, hlow, hup, ?_, ?_, ?_, ?_, ?_⟩
  · rcases h.cov with h | h
    · exact Or.inl (hmono.trans h)
    · exact hcov h
  · intro u hu l hl
    by_cases hut : u = t
    · simp only [if_pos hut] at hl; exact hfl l hl
    · simp only [if_neg hut] at hl
      rcases h.flight u hu l hl with h | h
      · exact Or.inl h
      · exact Or.inr (hmono.trans h)
  · have old : (s.q.cleared = true ∨ ∃ t < e.threads, (s.wk t).pc = .clear) → r'.upper ≤ c ∨ L := by
      intro hh
      rcases h.clear hh with h | h
      · exact Or.inl (hmono.trans h)
      · exact Or.inr h
    rintro (hc | ⟨u, hu, hc⟩)
    · exact old (Or.inl (hcl ▸ hc))
    · by_cases hut : u = t
      · simp only [if_pos hut] at hc; exact hclp hc
      · simp only [if_neg hut] at hc; exact old (Or.inr ⟨u, hu, hc⟩)
  · intro hc h1
    have h0 := h.left (hcl ▸ hc) h1
    have h1 := h.one h1
    have : t = 0 := by omega
    subst this
    exact absurd h0 hne
  · intro u hu
    by_cases hut : u = t
    · simp only [if_pos hut]; exact hmild
    · simp only [if_neg hut]; exact h.mild u hu

theorem updLower_le {r : ResState} {l : ℚ} (h : r.lower ≤ c) (hl : l ≤ c ∨ r.upper ≤ c) :
    (r.updateLowerBound l).1.lower ≤ c ∧ (r.updateLowerBound l).1.upper = r.upper ∧
    (r.updateLowerBound l).2 = ⟨(r.updateLowerBound l).1.lower, r.upper⟩ := by
  unfold ResState.updateLowerBound
  dsimp only
  by_cases hge : l ≥ r.lower
  · rw [if_pos hge]
    refine ⟨?_, rfl, rfl⟩
    rcases hl with hl | hl
    · exact le_trans (min_le_left _ _) hl
    · exact le_trans (min_le_right _ _) hl
  · rw [if_neg hge]; exact ⟨h, rfl, rfl⟩

theorem updUpper_le {r : ResState} {v : ℚ} {p : Paths} (h : r.lower ≤ c) (hz : ∃ z : ℤ, r.upper = z) (hv : ∃ z : ℤ, v = z) :
    (r.updateUpperBound v p).1.lower ≤ c ∧ (∃ z : ℤ, (r.updateUpperBound v p).1.upper = z) ∧
    (r.updateUpperBound v p).1.upper ≤ r.upper ∧ (r.updateUpperBound v p).1.upper ≤ v ∧
    (r.updateUpperBound v p).2.Upper = (r.updateUpperBound v p).1.upper := by
  unfold ResState.updateUpperBound
  dsimp only
  by_cases hlt : v < r.upper
  · rw [if_pos hlt]; exact ⟨le_trans (min_le_left _ _) h, hv, hlt.le, le_refl _, rfl⟩
  · rw [if_neg hlt]; exact ⟨h, hz, le_refl _, not_lt.1 hlt, rfl⟩

theorem flight_evaluate (wk : Worker) (lb ub : ℚ) (y rc : Nat → ℚ) : (wk.evaluate e lb ub y rc).pc.flight = none ∧
    (wk.evaluate e lb ub y rc).pc ≠ .clear ∧ PcMild e (wk.evaluate e lb ub y rc).pc := by
  unfold Worker.evaluate
  split
  · exact ⟨rfl, by simp, trivial⟩
  split
  · exact ⟨rfl, by simp, trivial⟩
  dsimp only
  split
  · exact ⟨rfl, by simp, trivial⟩
  split
  · exact ⟨rfl, by simp, trivial⟩
  split
  · exact ⟨rfl, by simp, trivial⟩
  · exact ⟨rfl, by simp, trivial⟩

end
end Mtsp
