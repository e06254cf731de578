import Verif.Proof.BnBRun
import Verif.Proof.Termination

/-! When the search ends without a deadline, does the lower bound reach the upper bound?  It does if rounding the LP value up does not
make reduced cost fixing forbid solutions that cost as much as the upper bound. -/

namespace Mtsp

section
variable {e : BEnv} {rows : Nat} {w : Weights} {starts ends : List Nat} {P : Paths} {c : ℚ}

/-- no reduced cost passes the test of reduced cost fixing, for whatever integral upper bound, only because the LP value has been
rounded up (a little more than the upper bound, to allow for the noise of the LP solver) -/
def RcExact (e : BEnv) (y rc : Nat → ℚ) : Prop :=
  ∀ v < e.B, ∀ k : ℤ, (ceilBound (e.obj.eval y) + rc v ≥ k + 1 / 10 ^ 10 → k + 1 / (2 * 10 ^ 10) < e.obj.eval y + rc v) ∧
    (ceilBound (e.obj.eval y) - rc v ≥ k + 1 / 10 ^ 10 → k + 1 / (2 * 10 ^ 10) < e.obj.eval y - rc v)

/-- an LP value that is integral up to noise is not changed by rounding -/
theorem rcExact_of_near {y : Nat → ℚ} (h : ∃ z : ℤ, |e.obj.eval y - z| ≤ lpNoise) (rc : Nat → ℚ) : RcExact e y rc := by
  obtain ⟨z, hz⟩ := h
  intro v _ k
  obtain ⟨h1, h2⟩ := abs_le.1 hz
  have hn : lpNoise = 1 / (4 * 10 ^ 10) := rfl
  have hc : ceilBound (e.obj.eval y) = z := by
    unfold ceilBound
    have : ⌈e.obj.eval y - 1 / 10 ^ 10⌉ = z := by
      rw [Int.ceil_eq_iff]
      rw [hn] at h1 h2
      constructor <;> linarith
    rw [this]
  rw [hc]
  rw [hn] at h1 h2
  exact ⟨fun h => by linarith, fun h => by linarith⟩

theorem rcExact_of_int {y : Nat → ℚ} (h : ∃ z : ℤ, e.obj.eval y = z) (rc : Nat → ℚ) : RcExact e y rc := by
  obtain ⟨z, hz⟩ := h
  exact rcExact_of_near ⟨z, by rw [hz, sub_self, abs_zero]; unfold lpNoise; norm_num⟩ rc

theorem rc_zero' (g : e.Good rows w starts ends) (hP : e.Feasible P) (h3 : 3 ≤ e.m.n) (hc : IsObjective e.mode e.m.w P c)
    {wk : Worker} {y rc : Nat → ℚ} (hs : Solved e wk y rc) (hf : FixInv e.cols wk.fix) (hcuts : ∀ k ∈ wk.cuts, CutOk e k)
    (ho : Obeys e P c wk.fix.fixed0 wk.fix.fixed1) {ub : ℚ} (hub : ∃ z : ℤ, ub = z) (hlt : c ≤ ub) {v : Nat} (hv : v < e.B) (hex : RcExact e y rc)
    (hy : y v < 1 / 10 ^ 10) (ht : ceilBound (e.obj.eval y) + rc v ≥ ub + 1 / 10 ^ 10) : solPoint e P c v = 0 := by
  rcases solPoint_01 P c hv with h | h
  · exact h
  exfalso
  obtain ⟨x, hx⟩ := hs.opt g
  have hd := hx.dual_sol g hP h3 hc hf hcuts ho hv
  rw [h, (hx.zero v hv).1 hy] at hd
  have hval := abs_le.1 hx.value
  have hn : lpNoise + lpNoise = 1 / (2 * 10 ^ 10) := by unfold lpNoise; norm_num
  obtain ⟨z, rfl⟩ := hub
  have := (hex v hv z).1 ht
  linarith

theorem rc_one' (g : e.Good rows w starts ends) (hP : e.Feasible P) (h3 : 3 ≤ e.m.n) (hc : IsObjective e.mode e.m.w P c)
    {wk : Worker} {y rc : Nat → ℚ} (hs : Solved e wk y rc) (hf : FixInv e.cols wk.fix) (hcuts : ∀ k ∈ wk.cuts, CutOk e k)
    (ho : Obeys e P c wk.fix.fixed0 wk.fix.fixed1) {ub : ℚ} (hub : ∃ z : ℤ, ub = z) (hlt : c ≤ ub) {v : Nat} (hv : v < e.B) (hex : RcExact e y rc)
    (hy : y v > 1 - 1 / 10 ^ 10) (ht : ceilBound (e.obj.eval y) - rc v ≥ ub + 1 / 10 ^ 10) : solPoint e P c v = 1 := by
  rcases solPoint_01 P c hv with h | h
  swap
  · exact h
  exfalso
  obtain ⟨x, hx⟩ := hs.opt g
  have hd := hx.dual_sol g hP h3 hc hf hcuts ho hv
  rw [h, (hx.one v hv).1 hy] at hd
  have hval := abs_le.1 hx.value
  have hn : lpNoise + lpNoise = 1 / (2 * 10 ^ 10) := by unfold lpNoise; norm_num
  obtain ⟨z, rfl⟩ := hub
  have := (hex v hv z).2 ht
  linarith

theorem rcFix_keeps' (g : e.Good rows w starts ends) (hP : e.Feasible P) (h3 : 3 ≤ e.m.n) (hc : IsObjective e.mode e.m.w P c)
    {wk : Worker} {y rc : Nat → ℚ} (hs : Solved e wk y rc) (hf : FixInv e.cols wk.fix) (hcuts : ∀ k ∈ wk.cuts, CutOk e k)
    (ho : Obeys e P c wk.fix.fixed0 wk.fix.fixed1) {ub : ℚ} (hub : ∃ z : ℤ, ub = z) (hlt : c ≤ ub)
    (hge : ¬ ceilBound (e.obj.eval y) ≥ ub) (hmild : RcMild e rc) (hex : RcExact e y rc) (M : LPModel) :
    ∀ (l : List Nat) (s r : List Nat × List Nat), (∀ i ∈ l, i < e.B) → Obeys e P c s.1 s.2 →
      rcFix e M (ceilBound (e.obj.eval y)) ub y rc l s = .ok r → Obeys e P c r.1 r.2
  | [], s, r, _, h, hr => by simp only [rcFix, Except.ok.injEq] at hr; subst hr; exact h
  | v :: vs, s, r, hl, h, hr => by
    have hv := hl v List.mem_cons_self
    cases hst : rcStep e M (ceilBound (e.obj.eval y)) ub y rc s v with
    | error er => simp only [rcFix, hst] at hr; simp at hr
    | ok s' =>
      simp only [rcFix, hst] at hr
      refine rcFix_keeps' g hP h3 hc hs hf hcuts ho hub hlt hge hmild hex M vs s' r (fun i hi => hl i (List.mem_cons_of_mem _ hi)) ?_ hr
      unfold rcStep at hst
      by_cases hb : M.bounds v = (some 0, some 1)
      · rw [if_pos hb] at hst
        by_cases h2 : y v < 1 / 10 ^ 10 ∧ ceilBound (e.obj.eval y) + rc v ≥ ub + 1 / 10 ^ 10
        · rw [if_pos h2, Except.ok.injEq] at hst
          subst hst
          refine ⟨?_, h.2⟩
          intro i hi
          rcases List.mem_append.1 hi with hi | hi
          · exact h.1 i hi
          · rw [List.mem_singleton.1 hi]
            exact rc_zero' g hP h3 hc hs hf hcuts ho hub hlt hv hex h2.1 h2.2
        · rw [if_neg h2] at hst
          by_cases h4 : y v > 1 - 1 / 10 ^ 10 ∧ ceilBound (e.obj.eval y) - rc v ≥ ub + 1 / 10 ^ 10
          · rw [if_pos h4] at hst
            have h1 := rc_one' g hP h3 hc hs hf hcuts ho hub hlt hv hex h4.1 h4.2
            obtain ⟨a, u, v', ha, hu, hv', hvar, hdec⟩ := (C53_numbering_bijective e.m.starts.length e.m.n).2 v hv
            have hvs : v' ∉ e.m.starts ∨ e.m.starts.length = 1 := by
              rcases hmild with hm | hm
              · exact Or.inr hm
              · left
                intro hmem
                have h5 := hm a u v' ha hu hmem
                rw [hvar] at h5
                have h6 := h4.2
                have hpos : (0 : ℚ) < 1 / 10 ^ 10 := by norm_num
                exact hge (by linarith)
            obtain ⟨l', hl', hz⟩ := C37_implied_fixings_partial g.make hP (solPoint_isPoint P c) hdec ha hu hv' hvs (by rw [hvar]; exact h1)
            rw [hl'] at hst
            simp only [Except.ok.injEq] at hst
            subst hst
            constructor
            · intro i hi
              rcases List.mem_append.1 hi with hi | hi
              · exact h.1 i hi
              · exact hz i hi
            · intro i hi
              rcases List.mem_append.1 hi with hi | hi
              · exact h.2 i hi
              · rw [List.mem_singleton.1 hi]; exact h1
          · rw [if_neg h4, Except.ok.injEq] at hst; subst hst; exact h
      · rw [if_neg hb, Except.ok.injEq] at hst; subst hst; exact h

/-! ### the invariant -/

/-- the node has the solution, or is a result whose bound is not below the upper bound `u` -/
def Keeps (e : BEnv) (P : Paths) (c u : ℚ) (d : SData) : Prop :=
  (d.isResult = false ∧ Obeys e P c d.fixed0 d.fixed1) ∨ (d.isResult = true ∧ u ≤ d.lb)

/-- the worker will push such a node or has one in hand -/
def KCarry (e : BEnv) (P : Paths) (c u : ℚ) (wk : Worker) : Prop :=
  match wk.pc with
  | .read _ | .compact _ | .solve _ | .raise _ _ _ | .getLB _ _ _ | .updLB _ _ _ _ | .exploit _ _ _ =>
    Obeys e P c wk.fix.fixed0 wk.fix.fixed1
  | .pushCuts _ op | .push op => ∃ d ∈ submittedNodes (op, .ok .unit), Keeps e P c u d
  | .resRead lb | .resUpd lb _ => u ≤ lb
  | .getUpper _ _ | .setUpper _ _ | .crashed _ => True
  | _ => False

def KCov (e : BEnv) (P : Paths) (c : ℚ) (s : BState) : Prop :=
  (∃ d ∈ s.q.heap, Keeps e P c s.res.upper d) ∨ ∃ t < e.threads, KCarry e P c s.res.upper (s.wk t)

/-- what is asked of the LP answer a worker has -/
def PcExact (e : BEnv) : Pc → Prop
  | .raise _ y rc | .getLB _ y rc | .updLB _ _ y rc | .exploit _ y rc => RcMild e rc ∧ RcExact e y rc
  | _ => True

structure KInv (e : BEnv) (P : Paths) (c : ℚ) (s : BState) : Prop where
  upper : ∃ z : ℤ, s.res.upper = z
  cov : s.res.Closed ∨ KCov e P c s
  clear : (s.q.cleared = true ∨ ∃ t < e.threads, (s.wk t).pc = .clear) → s.res.Closed
  exact' : ∀ t < e.threads, PcExact e (s.wk t).pc

theorem Keeps.mono {u u' : ℚ} (hu : u' ≤ u) {d : SData} (h : Keeps e P c u d) : Keeps e P c u' d :=
  h.imp id fun h => ⟨h.1, hu.trans h.2⟩

theorem KCarry.mono {u u' : ℚ} (hu : u' ≤ u) {wk : Worker} (h : KCarry e P c u wk) : KCarry e P c u' wk := by
  unfold KCarry at h ⊢
  split at h
  all_goals first
    | exact h
    | exact hu.trans h
    | (obtain ⟨d, hd, hk⟩ := h; exact ⟨d, hd, hk.mono hu⟩)

theorem KInv.upd {s : BState} (h : KInv e P c s) {t : Nat} (ht : t < e.threads) {q' : QState} {r' : ResState} {d' : CDeque LinCon}
    {w' : Worker} (hup : ∃ z : ℤ, r'.upper = z) (hmono : r'.upper ≤ s.res.upper) (hclos : s.res.Closed → r'.Closed)
    (hcl : q'.cleared = true → s.q.cleared = true ∨ r'.Closed)
    (hheap : ∀ d ∈ s.q.heap, Keeps e P c r'.upper d → r'.Closed ∨ d ∈ q'.heap ∨ KCarry e P c r'.upper w')
    (hme : KCarry e P c s.res.upper (s.wk t) → r'.Closed ∨ KCarry e P c r'.upper w' ∨ ∃ d ∈ q'.heap, Keeps e P c r'.upper d)
    (hclp : w'.pc = .clear → r'.Closed) (hex : PcExact e w'.pc) :
    KInv e P c ⟨q', r', d', fun u => if u = t then w' else s.wk u⟩ := by
  have mine : KCarry e P c r'.upper w' → KCov e P c ⟨q', r', d', fun u => if u = t then w' else s.wk u⟩ :=
    fun hk => Or.inr ⟨t, ht, by simp only [if_true]; exact hk⟩
  refine ⟨hup, ?_, ?_, ?_⟩
  · rcases h.cov with h | ⟨d, hd, hk⟩ | ⟨u, hu, hk⟩
    · exact Or.inl (hclos h)
    · rcases hheap d hd (hk.mono hmono) with h | h | h
      · exact Or.inl h
      · exact Or.inr (Or.inl ⟨d, h, hk.mono hmono⟩)
      · exact Or.inr (mine h)
    · by_cases hut : u = t
      · subst hut
        rcases hme hk with h | h | h
        · exact Or.inl h
        · exact Or.inr (mine h)
        · exact Or.inr (Or.inl h)
      · right; right
        exact ⟨u, hu, by simp only [if_neg hut]; exact hk.mono hmono⟩
  · rintro (hc | ⟨u, hu, hc⟩)
    · rcases hcl hc with h1 | h1
      · exact hclos (h.clear (Or.inl h1))
      · exact h1
    · by_cases hut : u = t
      · simp only [if_pos hut] at hc; exact hclp hc
      · simp only [if_neg hut] at hc; exact hclos (h.clear (Or.inr ⟨u, hu, hc⟩))
  · intro u hu
    by_cases hut : u = t
    · simp only [if_pos hut]; exact hex
    · simp only [if_neg hut]; exact h.exact' u hu

/-- only worker `t` and the result change -/
theorem KInv.updW {s : BState} (h : KInv e P c s) {t : Nat} (ht : t < e.threads) {r' : ResState} {d' : CDeque LinCon}
    {w' : Worker} (hup : ∃ z : ℤ, r'.upper = z) (hmono : r'.upper ≤ s.res.upper) (hclos : s.res.Closed → r'.Closed)
    (hme : KCarry e P c s.res.upper (s.wk t) → r'.Closed ∨ KCarry e P c r'.upper w')
    (hclp : w'.pc = .clear → r'.Closed) (hex : PcExact e w'.pc) :
    KInv e P c ⟨s.q, r', d', fun u => if u = t then w' else s.wk u⟩ :=
  h.upd ht hup hmono hclos Or.inl (fun _ hd _ => Or.inr (Or.inl hd)) (fun hk => (hme hk).imp id Or.inl) hclp hex

theorem closed_updUpper {r : ResState} (h : r.Closed) (v : ℚ) (p : Paths) : (r.updateUpperBound v p).1.Closed := by
  unfold ResState.Closed at h ⊢
  unfold ResState.updateUpperBound
  dsimp only
  split
  · rename_i h1
    dsimp only
    rw [min_eq_right (h1.le.trans h)]
  · exact h

theorem updLower_upper (r : ResState) (l : ℚ) : (r.updateLowerBound l).1.upper = r.upper ∧
    (r.updateLowerBound l).2 = ⟨(r.updateLowerBound l).1.lower, r.upper⟩ := by
  unfold ResState.updateLowerBound
  dsimp only
  split <;> exact ⟨rfl, rfl⟩

/-- evaluating a node -/
theorem evaluate_keeps (g : e.Good rows w starts ends) (hP : e.Feasible P) (h3 : 3 ≤ e.m.n) (hc : IsObjective e.mode e.m.w P c)
    {wk : Worker} {y rc : Nat → ℚ} {lb ub : ℚ} (hs : Solved e wk y rc) (hlb : lb = ceilBound (e.obj.eval y))
    (hf : FixInv e.cols wk.fix) (hcuts : ∀ k ∈ wk.cuts, CutOk e k) (hmild : RcMild e rc) (hex : RcExact e y rc) (hub : ∃ z : ℤ, ub = z)
    (hlt : c ≤ ub) (ho : Obeys e P c wk.fix.fixed0 wk.fix.fixed1) : KCarry e P c ub (wk.evaluate e lb ub y rc) := by
  unfold Worker.evaluate
  by_cases hge : lb ≥ ub
  · rw [if_pos hge]
    simp only [KCarry]
    exact ⟨{ lb := lb, isResult := true }, by simp [submittedNodes], Or.inr ⟨rfl, hge⟩⟩
  rw [if_neg hge]
  have hrng : ∀ i ∈ List.range wk.fix.model.nBin, i < e.B := fun i hi => by
    rw [List.mem_range, hs.nBin, g.nBin] at hi; exact hi
  obtain ⟨⟨e0, e1⟩, hr, hb0, hb1⟩ := rcFix_ok g wk.fix.model lb ub y rc (List.range wk.fix.model.nBin) ([], [])
    hrng (by simp) (by simp)
  have hr' := hr
  rw [hlb] at hr'
  have hob := rcFix_keeps' g hP h3 hc hs hf hcuts ho hub hlt (by rw [← hlb]; exact hge) hmild hex wk.fix.model _ ([], []) _ hrng
    ⟨by simp, by simp⟩ hr'
  rw [hr]
  dsimp only
  have hall : Obeys e P c (wk.fix.fixed0 ++ e0) (wk.fix.fixed1 ++ e1) := by
    constructor
    · intro i hi
      rcases List.mem_append.1 hi with hi | hi
      · exact ho.1 i hi
      · exact hob.1 i hi
    · intro i hi
      rcases List.mem_append.1 hi with hi | hi
      · exact ho.2 i hi
      · exact hob.2 i hi
  cases hsep : separate e y with
  | cons k ks =>
    dsimp only
    simp only [KCarry]
    exact ⟨{ lb := lb, fixed0 := wk.fix.fixed0 ++ e0, fixed1 := wk.fix.fixed1 ++ e1 }, List.mem_singleton.2 rfl, Or.inl ⟨rfl, hall⟩⟩
  | nil =>
    dsimp only
    cases hfr : findFractional e.fl wk.fix.model.nBin y with
    | none => simp only [KCarry]
    | some v =>
      dsimp only
      obtain ⟨hv, hvf, _⟩ := (findFractional_spec g.precise _ _).2 v hfr
      rw [hs.nBin, g.nBin] at hv
      obtain ⟨x, hx⟩ := hs.opt g
      obtain ⟨rec0, c0, c1, hrec, hbr, _, _, hpart, _⟩ := C11_branching_partitions g.make (rows0_iff.1 hx.sat).2.1
        (fun i hi => (hx.inBox.bin g hi).1) hv (hx.frac g hv hvf) lb (wk.fix.fixed0 ++ e0) (wk.fix.fixed1 ++ e1)
      rw [hrec]
      dsimp only
      simp only [KCarry]
      have hsub : submittedNodes (.pushBranch lb (wk.fix.remember e0 e1).fixed0 (wk.fix.remember e0 e1).fixed1 v rec0, .ok .unit) = [c0, c1] := hbr
      have hres : ∀ d ∈ [c0, c1], d.isResult = false := by
        rw [← hbr]; intro d hd
        simp only [branchNodes, List.mem_cons, List.not_mem_nil, or_false] at hd
        rcases hd with rfl | rfl <;> rfl
      rw [hsub]
      rcases hpart P (solPoint e P c) hP (solPoint_isPoint P c) hall with ⟨h, _⟩ | ⟨h, _⟩
      · exact ⟨c0, by simp, Or.inl ⟨hres c0 (by simp), h⟩⟩
      · exact ⟨c1, by simp, Or.inl ⟨hres c1 (by simp), h⟩⟩

theorem exact_evaluate (wk : Worker) (lb ub : ℚ) (y rc : Nat → ℚ) : PcExact e (wk.evaluate e lb ub y rc).pc := by
  unfold Worker.evaluate
  split
  · trivial
  split
  · trivial
  dsimp only
  split
  · trivial
  split
  · trivial
  split
  · trivial
  · trivial

/-- what is asked of the inputs: the deadline is never noticed, no LP solve hits it, reduced costs as in `RcMild` and `RcExact` -/
def Inp.Plain (e : BEnv) (i : Inp) : Prop :=
  i.ans ≠ .timeout ∧ i.late = false ∧ ∀ y rc, i.ans = .optimal y rc → RcMild e rc ∧ RcExact e y rc

theorem step_kinv (g : e.Good rows w starts ends) (hst : e.Started) (hP : e.Feasible P) (h3 : 3 ≤ e.m.n) (hc : IsObjective e.mode e.m.w P c)
    {bad : Prop} {s : BState} {all : List LinCon} (h : GInv e bad s all) (j : KInv e P c s)
    {t : Nat} (ht : t < e.threads) {i : Inp} (hi : i.Ok e s t) (hcalm : i.Plain e) (hcu : c ≤ (s.step e t i).res.upper) :
    KInv e P c (s.step e t i) := by
  obtain ⟨hfix, o, ho, hpc⟩ := h.wk t ht
  have hsub := h.sub ht
  have hcuts : ∀ c ∈ (s.wk t).cuts, CutOk e c := fun c hc => h.cuts c (hsub c hc)
  obtain ⟨lbq, hlbq, _⟩ := calcLB_spec s.q h.q
  have nocar : ∀ {r' : ResState} {w' : Worker}, ¬ KCarry e P c s.res.upper (s.wk t) →
      KCarry e P c s.res.upper (s.wk t) → r'.Closed ∨ KCarry e P c r'.upper w' :=
    fun hn hh => absurd hh hn
  cases hp : (s.wk t).pc with
  | head =>
    simp only [BState.step, hp, hlbq]
    exact j.updW ht j.upper (le_refl _) id (nocar (by simp [KCarry, hp])) (by simp) trivial
  | headUpd l =>
    simp only [BState.step, hp]
    obtain ⟨h2, h5⟩ := updLower_upper s.res l
    have nc : ¬ KCarry e P c s.res.upper (s.wk t) := by simp [KCarry, hp]
    have hcl := fun h => closed_updLower (r := s.res) h l
    rw [h5]
    dsimp only
    split
    next hge =>
      refine j.updW ht (by rw [h2]; exact j.upper) h2.le hcl (nocar nc) (fun _ => ?_) trivial
      unfold ResState.Closed
      rw [h2]; exact hge
    next hge =>
      rw [hcalm.2.1, if_neg (by simp)]
      exact j.updW ht (by rw [h2]; exact j.upper) h2.le hcl (nocar nc) (by simp) trivial
  | clear =>
    simp only [BState.step, hp]
    have hcl := j.clear (Or.inr ⟨t, ht, hp⟩)
    exact j.upd (q' := s.q.clearAll) ht j.upper (le_refl _) id (fun _ => Or.inr hcl) (fun d hd _ => Or.inl hcl) (fun _ => Or.inl hcl) (by simp) trivial
  | pop =>
    simp only [PcOk, hp] at hpc
    subst hpc
    simp only [BState.step, hp]
    have nc : ¬ KCarry e P c s.res.upper (s.wk t) := by simp [KCarry, hp]
    rcases pop_cases e.H s.q t h.q (by rw [h.len]; exact ht) with ⟨_, _, _, ep⟩ | ⟨_, ep⟩ | ⟨_, d, r, l, hh, hpm, hheap, _, ep⟩
    · rw [ep]; exact j
    · rw [ep]
      exact j.updW ht j.upper (le_refl _) id (nocar nc) (by simp) trivial
    · rw [ep]
      dsimp only
      rcases Bool.eq_false_or_eq_true d.isResult with hres | hres
      · rw [if_pos hres]
        obtain ⟨M1, M2, e1, e2, w2, b2, n2, s2⟩ := unfix_both (fun i hi => g.bin i (by rw [g.nBin] at hi; exact hi)) hfix
        have hskip : (s.wk t).fix.skip = .ok ⟨M2, (s.wk t).fix.fixed0, (s.wk t).fix.fixed1⟩ := by
          simp [FixState.skip, e1, e2, bind, Except.bind, pure, Except.pure]
        rw [hskip]
        refine j.upd ht j.upper (le_refl _) id Or.inl ?_ (fun hk => absurd hk nc) (by simp) trivial
        intro d' hd' hk
        right
        rw [hh] at hd'
        rcases List.mem_cons.1 hd' with rfl | hd'
        · right
          simp only [KCarry]
          rcases hk with ⟨hk, _⟩ | ⟨_, hk⟩
          · rw [hres] at hk; simp at hk
          · exact hk
        · left; exact hpm.mem_iff.2 hd'
      · rw [if_neg (by rw [hres]; simp)]
        have hnode := h.heap d (by rw [hh]; exact List.mem_cons_self) hres
        obtain ⟨f, hf, hfi, hfb⟩ := load_spec (fun i hi => g.bin i (by rw [g.nBin] at hi; exact hi)) hfix hnode.bin0 hnode.bin1
        obtain ⟨hf0, hf1⟩ := load_fixed hf
        rw [hf]
        refine j.upd ht j.upper (le_refl _) id Or.inl ?_ (fun hk => absurd hk nc) (by simp) trivial
        intro d' hd' hk
        right
        rw [hh] at hd'
        rcases List.mem_cons.1 hd' with rfl | hd'
        · right
          simp only [KCarry]
          rcases hk with ⟨_, hk⟩ | ⟨hk, _⟩
          · rw [hf0, hf1]; exact hk
          · rw [hres] at hk; simp at hk
        · left; exact hpm.mem_iff.2 hd'
  | resRead lb =>
    simp only [BState.step, hp, hlbq]
    refine j.updW ht j.upper (le_refl _) id (fun hk => Or.inr ?_) (by simp) trivial
    simp only [KCarry, hp] at hk ⊢
    exact hk
  | resUpd lb l =>
    simp only [BState.step, hp]
    obtain ⟨h2, h5⟩ := updLower_upper s.res l
    have hcl := fun h => closed_updLower (r := s.res) h l
    split
    · refine j.updW ht (by rw [h2]; exact j.upper) h2.le hcl (fun hk => Or.inr ?_) (by simp) trivial
      simp only [KCarry, hp] at hk
      simp only [KCarry]
      exact ⟨{ lb := lb, isResult := true }, by simp [submittedNodes], Or.inr ⟨rfl, by rw [h2]; exact hk⟩⟩
    next hle =>
      refine j.updW ht (by rw [h2]; exact j.upper) h2.le hcl (fun hk => Or.inl ?_) (by simp) trivial
      simp only [KCarry, hp] at hk
      rw [h5] at hle
      unfold ResState.Closed
      rw [h2]
      exact hk.trans (not_lt.1 hle)
  | read lb =>
    simp only [PcOk, hp] at hpc
    simp only [BState.step, hp]
    have hcd := h.deq
    cases hd : s.deque.step (.read t) with
    | mk x d' =>
      cases x with
      | error er =>
        exfalso
        obtain ⟨seen, hcd, _⟩ := hcd
        obtain ⟨⟨cs, hcs, _⟩, _⟩ := hcd.step (by omega) (.read t) (by rintro _ ⟨⟩; exact ht)
        rw [hd] at hcs; simp at hcs
      | ok cs =>
        dsimp only
        refine j.updW ht j.upper (le_refl _) id (fun hk => Or.inr ?_) ?_ ?_
        · simp only [KCarry, hp] at hk
          by_cases h0 : t = 0
          · simp only [KCarry, h0, if_true]; rw [← h0]; exact hk
          · simp only [KCarry, if_neg h0]; exact hk
        · intro hcl; dsimp only at hcl; split at hcl <;> simp at hcl
        · dsimp only; split <;> trivial
  | compact lb =>
    simp only [BState.step, hp]
    cases hd : s.deque.step .compact with
    | mk x d' =>
      cases x with
      | error er =>
        exfalso
        obtain ⟨seen, hcd, _⟩ := h.deq
        obtain ⟨⟨cs, hcs, _⟩, _⟩ := hcd.step (by omega) .compact (by simp)
        rw [hd] at hcs; simp at hcs
      | ok cs =>
        refine j.updW ht j.upper (le_refl _) id (fun hk => Or.inr ?_) (by simp) trivial
        simp only [KCarry, hp] at hk ⊢
        exact hk
  | solve lb =>
    simp only [PcOk, hp] at hpc
    obtain ⟨ho', hload, hnode⟩ := hpc
    simp only [Inp.Ok, hp] at hi
    simp only [BState.step, hp]
    cases hans : i.ans with
    | unbounded => rw [hans] at hi; exact absurd hi (not_unbounded g hload)
    | error => exact j.updW ht j.upper (le_refl _) id (fun hk => Or.inr (by simp only [KCarry])) (by simp) trivial
    | timeout => exact absurd hans hcalm.1
    | infeasible =>
      rw [hans] at hi
      refine j.updW ht j.upper (le_refl _) id (fun hk => ?_) (by simp) trivial
      simp only [KCarry, hp] at hk
      exact absurd (hload.admits g hP h3 hc hfix hcuts hk) (hi _)
    | optimal y rc =>
      refine j.updW ht j.upper (le_refl _) id (fun hk => Or.inr ?_) (by simp) (hcalm.2.2 y rc hans)
      simp only [KCarry, hp] at hk ⊢
      exact hk
  | raise lb y rc =>
    simp only [PcOk, hp] at hpc
    obtain ⟨hs, hlb, v, ho', hv⟩ := hpc
    subst ho'
    have hq : s.q.updateCurrentLowerBound t lb = (.ok .unit, { s.q with workedOn := s.q.workedOn.set t (some lb) }) := by
      unfold QState.updateCurrentLowerBound
      rw [ho]; dsimp only; rw [if_neg (not_lt.2 hv)]
    simp only [BState.step, hp, hq]
    have hm := j.exact' t ht
    simp only [hp, PcExact] at hm
    refine j.upd ht j.upper (le_refl _) id Or.inl (fun _ hd _ => Or.inr (Or.inl hd)) (fun hk => Or.inr (Or.inl ?_)) (by simp) hm
    simp only [KCarry, hp] at hk ⊢
    exact hk
  | getLB lb y rc =>
    simp only [BState.step, hp, hlbq]
    have hm := j.exact' t ht
    simp only [hp, PcExact] at hm
    refine j.updW ht j.upper (le_refl _) id (fun hk => Or.inr ?_) (by simp) hm
    simp only [KCarry, hp] at hk ⊢
    exact hk
  | updLB lb l y rc =>
    simp only [PcOk, hp] at hpc
    obtain ⟨hs, hlb, ho'⟩ := hpc
    obtain ⟨h2, h5⟩ := updLower_upper s.res l
    have hcl := fun h => closed_updLower (r := s.res) h l
    have hup : (s.step e t i).res.upper = s.res.upper := by
      simp only [BState.step, hp]
      split <;> exact h2
    rw [hup] at hcu
    simp only [BState.step, hp]
    have hm := j.exact' t ht
    simp only [hp, PcExact] at hm
    rw [h5]
    dsimp only
    split
    · refine j.updW ht (by rw [h2]; exact j.upper) h2.le hcl (fun hk => Or.inr ?_) (by simp) hm
      simp only [KCarry, hp] at hk ⊢
      exact hk
    · obtain ⟨f1, f2, f3⟩ := flight_evaluate (e := e) (s.wk t) lb s.res.upper y rc
      refine j.updW ht (by rw [h2]; exact j.upper) h2.le hcl (fun hk => Or.inr ?_) (fun hc => absurd hc f2) (exact_evaluate _ _ _ _ _)
      simp only [KCarry, hp] at hk
      rw [h2]
      exact evaluate_keeps g hP h3 hc hs hlb hfix hcuts hm.1 hm.2 j.upper hcu hk
  | exploit lb y rc =>
    simp only [PcOk, hp] at hpc
    obtain ⟨hs, hlb, ho'⟩ := hpc
    obtain ⟨r, hr⟩ := exploit_ok g hst (fun i hi => hs.inBox.bin g hi) i.ticks
    have hm := j.exact' t ht
    simp only [hp, PcExact] at hm
    rcases r with ⟨_ | ⟨v, p⟩, tk⟩
    · simp only [BState.step, hp, hr] at hcu ⊢
      obtain ⟨f1, f2, f3⟩ := flight_evaluate (e := e) (s.wk t) lb s.res.getBounds.Upper y rc
      refine j.updW ht j.upper (le_refl _) id (fun hk => Or.inr ?_) (fun hc => absurd hc f2) (exact_evaluate _ _ _ _ _)
      simp only [KCarry, hp] at hk
      exact evaluate_keeps g hP h3 hc hs hlb hfix hcuts hm.1 hm.2 j.upper hcu hk
    · simp only [BState.step, hp, hr] at hcu ⊢
      obtain ⟨Q, hQ, _, hQo, _⟩ := g.heuristic_backed (fun i hi => hs.inBox.bin g hi) hr
      obtain ⟨_, k2, k3, _, k5⟩ := updUpper_le (c := s.res.lower) (p := p) (le_refl _) j.upper (objective_int g hQ.lt hQo)
      obtain ⟨f1, f2, f3⟩ := flight_evaluate (e := e) (s.wk t) lb (s.res.updateUpperBound v p).2.Upper y rc
      refine j.updW ht k2 k3 (fun h => closed_updUpper h v p) (fun hk => Or.inr ?_) (fun hc => absurd hc f2) (exact_evaluate _ _ _ _ _)
      simp only [KCarry, hp] at hk
      rw [k5]
      exact evaluate_keeps g hP h3 hc hs hlb hfix hcuts hm.1 hm.2 k2 hcu hk
  | pushCuts cs op =>
    simp only [BState.step, hp]
    cases hd : s.deque.step (.push cs) with
    | mk x d' =>
      cases x with
      | error er =>
        exfalso
        obtain ⟨seen, hcd, _⟩ := h.deq
        obtain ⟨⟨x, hx, _⟩, _⟩ := hcd.step (by omega) (.push cs) (by simp)
        rw [hd] at hx; simp at hx
      | ok _ =>
        refine j.updW ht j.upper (le_refl _) id (fun hk => Or.inr ?_) (by simp) trivial
        simp only [KCarry, hp] at hk ⊢
        exact hk
  | push op =>
    simp only [PcOk, hp] at hpc
    obtain ⟨nodes, q', hq, hqi, hwo, hcle, _, hlbs, hnodes, hok, hheap⟩ := op_step (H := e.H) h.q ho hpc
    simp only [BState.step, hp, hq]
    rcases hheap with ⟨hcl, hh⟩ | ⟨_, hh⟩
    · have hC := j.clear (Or.inl hcl)
      exact j.upd ht j.upper (le_refl _) id (fun _ => Or.inr hC) (fun _ _ _ => Or.inl hC) (fun _ => Or.inl hC) (by simp) trivial
    · refine j.upd ht j.upper (le_refl _) id (fun hx => Or.inl (hcle ▸ hx))
        (fun d hd _ => Or.inr (Or.inl (hh.mem_iff.2 (List.mem_append_left _ hd)))) (fun hk => Or.inr (Or.inr ?_)) (by simp) trivial
      simp only [KCarry, hp] at hk
      obtain ⟨d, hd, hkd⟩ := hk
      exact ⟨d, hh.mem_iff.2 (List.mem_append_right _ (by rw [hnodes]; exact hd)), hkd⟩
  | getUpper lb y =>
    simp only [BState.step, hp]
    split
    · exact j.updW ht j.upper (le_refl _) id (fun _ => Or.inr (by simp only [KCarry])) (by simp) trivial
    next hge =>
      refine j.updW ht j.upper (le_refl _) id (fun _ => Or.inr ?_) (by simp) trivial
      simp only [KCarry]
      exact ⟨{ lb := lb, isResult := true }, by simp [submittedNodes], Or.inr ⟨rfl, not_lt.1 hge⟩⟩
  | setUpper lb y =>
    simp only [PcOk, hp] at hpc
    simp only [BState.step, hp]
    rw [(C21_paths_mapped_back g.make _ hpc.2.feasible.1.lt).1]
    obtain ⟨_, k2, k3, k4, _⟩ := updUpper_le (c := s.res.lower) (p := (readPaths e.m.n e.m.starts e.m.ends y).map (·.map e.m.orig)) (le_refl _) j.upper
      (objective_int g hpc.2.feasible.1.lt hpc.2.cost)
    refine j.updW ht k2 k3 (fun h => closed_updUpper h _ _) (fun _ => Or.inr ?_) (by simp) trivial
    simp only [KCarry]
    exact ⟨{ lb := lb, isResult := true }, by simp [submittedNodes], Or.inr ⟨rfl, k4⟩⟩
  | done =>
    simp only [PcOk, hp] at hpc
    obtain ⟨v, rfl⟩ := hpc
    have hq : s.q.notifyDone t = (.ok .unit, { s.q with workedOn := s.q.workedOn.set t none, count := s.q.count - 1 }) := by
      unfold QState.notifyDone
      rw [ho]
    simp only [BState.step, hp, hq]
    refine j.upd ht j.upper (le_refl _) id Or.inl (fun _ hd _ => Or.inr (Or.inl hd)) (fun hk => ?_) (by simp) trivial
    simp [KCarry, hp] at hk
  | left => simp only [BState.step, hp]; exact j
  | crashed er => simp only [BState.step, hp]; exact j

end
end Mtsp
