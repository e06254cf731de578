import Verif.Proof.BnBStep

/-! One feasible solution during the search: it stays in reach or is not better than the upper bound. -/

namespace Mtsp
open Finset

section
variable {e : BEnv} {rows : Nat} {w : Weights} {starts ends : List Nat}

/-- the LP point of a solution with its cost as value of the maximum variable -/
noncomputable def solPoint (e : BEnv) (P : Paths) (c : ℚ) : Nat → ℚ := fun i =>
  if i = e.B then c else pointOf e.m.n e.m.starts e.m.ends P i

theorem solPoint_agree (P : Paths) (c : ℚ) : ∀ i < e.B, pointOf e.m.n e.m.starts e.m.ends P i = solPoint e P c i := by
  intro i hi; unfold solPoint; rw [if_neg (by omega)]

theorem solPoint_isPoint (P : Paths) (c : ℚ) : IsPoint e.m.n e.m.starts e.m.ends P (solPoint e P c) := by
  intro a u v ha hu hv
  have := pointOf_isPoint e.m.n e.m.starts e.m.ends P a u v ha hu hv
  rw [solPoint_agree P c (a * e.m.n * e.m.n + u * e.m.n + v) (varId_lt ha hu hv)] at this
  exact this

theorem solPoint_01 (P : Paths) (c : ℚ) {i : Nat} (hi : i < e.B) : solPoint e P c i = 0 ∨ solPoint e P c i = 1 := by
  obtain ⟨a, u, v, ha, hu, hv, hvar, _⟩ := (C53_numbering_bijective e.m.starts.length e.m.n).2 i hi
  have := solPoint_isPoint (e := e) P c a u v ha hu hv
  rw [show a * e.m.n * e.m.n + u * e.m.n + v = i from hvar] at this
  by_cases h : Uses e.m.starts e.m.ends P a u v
  · exact Or.inr (this.1 h)
  · exact Or.inl (this.2 h)

variable {P : Paths} {c : ℚ}

theorem cost_nonneg (g : e.Good rows w starts ends) (hP : e.Feasible P) (h3 : 3 ≤ e.m.n) {a : Nat} (ha : a < e.m.starts.length) :
    0 ≤ pathCost e.m.w (P.getD a []) ∧ pathCost e.m.w (P.getD a []) ≤ 2 ^ 62 := by
  rw [← agent_cost_feasible g.make hP (solPoint_isPoint P 0) ha]
  have hbin : ∀ i < e.B, 0 ≤ solPoint e P 0 i ∧ solPoint e P 0 i ≤ 1 := by
    intro i hi
    rcases solPoint_01 P 0 hi with h | h <;> rw [h] <;> norm_num
  exact ⟨agentCost_nonneg g (C33_lp_admits_feasible_partial g.make hP (solPoint_isPoint P 0) h3) (fun i hi => (hbin i hi).1) ha,
    agentCost_lt g hbin ha⟩

theorem objective_bounds (g : e.Good rows w starts ends) (hP : e.Feasible P) (h3 : 3 ≤ e.m.n) (hc : IsObjective e.mode e.m.w P c) :
    0 ≤ c ∧ (e.mode = .max → c ≤ 2 ^ 62 ∧ ∀ a < e.m.starts.length, pathCost e.m.w (P.getD a []) ≤ c) := by
  rcases hm : e.mode with _ | _
  · rw [hm] at hc
    have hc : c = sumCost (fun _ => e.m.w) P := hc
    refine ⟨?_, by simp⟩
    rw [hc, sumCost_eq]
    apply List.sum_nonneg
    intro q hq
    obtain ⟨a, ha, rfl⟩ := List.mem_map.1 hq
    rw [List.mem_range, hP.1.len] at ha
    exact (cost_nonneg g hP h3 ha).1
  · rw [hm] at hc
    obtain ⟨h0, h1, h2⟩ := hc
    refine ⟨h0, fun _ => ⟨?_, ?_⟩⟩
    · rcases h2 with h2 | ⟨a, p, hp, h2⟩
      · rw [h2]; norm_num
      · rw [← h2]
        have ha : a < e.m.starts.length := by rw [← hP.1.len]; exact lt_length_of_some hp
        have := (cost_nonneg g hP h3 ha).2
        rw [List.getD_eq_getElem?_getD, hp, Option.getD_some] at this
        exact this
    · intro a ha
      have hal : a < P.length := by rw [hP.1.len]; exact ha
      have := h1 a _ (List.getElem?_eq_getElem hal)
      rw [List.getD_eq_getElem?_getD, List.getElem?_eq_getElem hal, Option.getD_some]
      exact this

theorem solPoint_obj (g : e.Good rows w starts ends) (hP : e.Feasible P) (hc : IsObjective e.mode e.m.w P c) :
    e.obj.eval (solPoint e P c) = c := by
  rcases hm : e.mode with _ | _
  · rw [hm] at hc
    have hc : c = sumCost (fun _ => e.m.w) P := hc
    have := (C34_sum_objective g.make hP (solPoint_isPoint P c)).1
    unfold BEnv.obj
    rw [hm, this, hc]
  · rw [e.obj_max hm]; unfold solPoint; rw [if_pos rfl]

theorem solPoint_sat (g : e.Good rows w starts ends) (hP : e.Feasible P) (h3 : 3 ≤ e.m.n) (hc : IsObjective e.mode e.m.w P c)
    {cuts : List LinCon} (hcuts : ∀ k ∈ cuts, CutOk e k) : SatAll (e.rows0 ++ cuts) (solPoint e P c) := by
  have hpt := solPoint_isPoint (e := e) P c
  refine rows0_iff.2 ⟨?_, C33_lp_admits_feasible_partial g.make hP hpt h3, fun k hk => (hcuts k hk).2 P _ hP hpt⟩
  intro hm a ha
  have hb := (objective_bounds g hP h3 hc).2 hm
  have hac : e.agentCost (solPoint e P c) a = pathCost e.m.w (P.getD a []) := agent_cost_feasible g.make hP hpt ha
  have hB : solPoint e P c e.B = c := by unfold solPoint; rw [if_pos rfl]
  rw [hac, hB]
  refine ⟨hb.2 a ha, ?_⟩
  have := (cost_nonneg g hP h3 ha).1
  have : (2 : ℚ) ^ 62 ≤ 2 ^ 70 := by norm_num
  have := two70_lt
  linarith [hb.1]

theorem solPoint_inBox (g : e.Good rows w starts ends) (hP : e.Feasible P) (h3 : 3 ≤ e.m.n) (hc : IsObjective e.mode e.m.w P c)
    {f0 f1 : List Nat} (hb0 : e.cols.Bin f0) (hb1 : e.cols.Bin f1)
    (h0 : ∀ i ∈ f0, solPoint e P c i = 0) (h1 : ∀ i ∈ f1, solPoint e P c i = 1) : InBox e f0 f1 (solPoint e P c) := by
  intro i hi l u hlu
  unfold nodeBounds at hlu
  by_cases hi1 : i ∈ f1
  · rw [if_pos hi1] at hlu
    simp only [Prod.mk.injEq, Option.some.injEq] at hlu
    obtain ⟨rfl, rfl⟩ := hlu
    rw [h1 i hi1]; exact ⟨le_refl _, le_refl _⟩
  rw [if_neg hi1] at hlu
  by_cases hi0 : i ∈ f0
  · rw [if_pos hi0] at hlu
    simp only [Prod.mk.injEq, Option.some.injEq] at hlu
    obtain ⟨rfl, rfl⟩ := hlu
    rw [h0 i hi0]; exact ⟨le_refl _, le_refl _⟩
  rw [if_neg hi0] at hlu
  rcases g.col_cases hi with h | ⟨hm, h, hbd⟩
  · rw [g.bin i h] at hlu
    simp only [Prod.mk.injEq, Option.some.injEq] at hlu
    obtain ⟨rfl, rfl⟩ := hlu
    rcases solPoint_01 P c h with h | h <;> rw [h] <;> norm_num
  · rw [hbd] at hlu
    simp only [Prod.mk.injEq, Option.some.injEq] at hlu
    obtain ⟨rfl, rfl⟩ := hlu
    have hB : solPoint e P c i = c := by unfold solPoint; rw [if_pos h]
    rw [hB]
    have hb := objective_bounds g hP h3 hc
    refine ⟨hb.1, (hb.2 hm).1.trans ?_⟩
    exact le_trans (by norm_num) two70_lt.le

/-- the solution is in the subtree given by the two lists -/
def Obeys (e : BEnv) (P : Paths) (c : ℚ) (f0 f1 : List Nat) : Prop :=
  (∀ i ∈ f0, solPoint e P c i = 0) ∧ (∀ i ∈ f1, solPoint e P c i = 1)

theorem NodeOk.le (g : e.Good rows w starts ends) (hP : e.Feasible P) (h3 : 3 ≤ e.m.n) (hc : IsObjective e.mode e.m.w P c)
    {cuts : List LinCon} (hcuts : ∀ k ∈ cuts, CutOk e k) {lb : ℚ} {f0 f1 : List Nat} (h : NodeOk e cuts lb f0 f1)
    (ho : Obeys e P c f0 f1) : lb ≤ c := by
  have := h.bound _ (solPoint_sat g hP h3 hc hcuts) (solPoint_inBox g hP h3 hc h.bin0 h.bin1 ho.1 ho.2)
  rw [solPoint_obj g hP hc] at this
  obtain ⟨z, hz⟩ := objective_int g hP.1.lt hc
  rw [hz, ceilBound_int, ← hz] at this
  exact this

/-! ### reduced cost fixing -/

/-- the dual bound at a solution in the subtree -/
theorem Optimum.dual_sol (g : e.Good rows w starts ends) (hP : e.Feasible P) (h3 : 3 ≤ e.m.n) (hc : IsObjective e.mode e.m.w P c)
    {wk : Worker} {y rc x : Nat → ℚ} (hs : Optimum e wk y rc x) (hf : FixInv e.cols wk.fix) (hcuts : ∀ k ∈ wk.cuts, CutOk e k)
    (ho : Obeys e P c wk.fix.fixed0 wk.fix.fixed1) {v : Nat} (hv : v < e.B) :
    e.obj.eval x + rc v * (solPoint e P c v - x v) ≤ c + lpNoise := by
  have := hs.dual _ (solPoint_sat g hP h3 hc hcuts) (solPoint_inBox g hP h3 hc hf.bin0 hf.bin1 ho.1 ho.2) v
    (lt_of_lt_of_le hv g.le_nVars)
  rw [solPoint_obj g hP hc] at this
  exact this

theorem int_gap {c ub : ℚ} (hc : ∃ z : ℤ, c = z) (hub : ∃ z : ℤ, ub = z) (h : ub - 1 < c) : ub ≤ c := by
  obtain ⟨z, rfl⟩ := hc
  obtain ⟨z', rfl⟩ := hub
  have : z' - 1 < z := by exact_mod_cast h
  have : z' ≤ z := by omega
  exact_mod_cast this

/-- nothing is fixed by reduced costs alone that a better solution needs -/
theorem rc_zero (g : e.Good rows w starts ends) (hP : e.Feasible P) (h3 : 3 ≤ e.m.n) (hc : IsObjective e.mode e.m.w P c)
    {wk : Worker} {y rc : Nat → ℚ} (hs : Solved e wk y rc) (hf : FixInv e.cols wk.fix) (hcuts : ∀ k ∈ wk.cuts, CutOk e k)
    (ho : Obeys e P c wk.fix.fixed0 wk.fix.fixed1) {ub : ℚ} (hub : ∃ z : ℤ, ub = z) (hlt : c < ub) {v : Nat} (hv : v < e.B)
    (hy : y v < 1 / 10 ^ 10) (ht : ceilBound (e.obj.eval y) + rc v ≥ ub + 1 / 10 ^ 10) : solPoint e P c v = 0 := by
  rcases solPoint_01 P c hv with h | h
  · exact h
  exfalso
  obtain ⟨x, hx⟩ := hs.opt g
  have hd := hx.dual_sol g hP h3 hc hf hcuts ho hv
  rw [h, (hx.zero v hv).1 hy] at hd
  rw [hx.ceil] at ht
  have hlb := ceilBound_lt (e.obj.eval x)
  have hpos : lpNoise < 1 / 10 ^ 10 := by unfold lpNoise; norm_num
  exact absurd (int_gap (objective_int g hP.1.lt hc) hub (by linarith)) (not_le.2 hlt)

theorem rc_one (g : e.Good rows w starts ends) (hP : e.Feasible P) (h3 : 3 ≤ e.m.n) (hc : IsObjective e.mode e.m.w P c)
    {wk : Worker} {y rc : Nat → ℚ} (hs : Solved e wk y rc) (hf : FixInv e.cols wk.fix) (hcuts : ∀ k ∈ wk.cuts, CutOk e k)
    (ho : Obeys e P c wk.fix.fixed0 wk.fix.fixed1) {ub : ℚ} (hub : ∃ z : ℤ, ub = z) (hlt : c < ub) {v : Nat} (hv : v < e.B)
    (hy : y v > 1 - 1 / 10 ^ 10) (ht : ceilBound (e.obj.eval y) - rc v ≥ ub + 1 / 10 ^ 10) : solPoint e P c v = 1 := by
  rcases solPoint_01 P c hv with h | h
  swap
  · exact h
  exfalso
  obtain ⟨x, hx⟩ := hs.opt g
  have hd := hx.dual_sol g hP h3 hc hf hcuts ho hv
  rw [h, (hx.one v hv).1 hy] at hd
  rw [hx.ceil] at ht
  have hlb := ceilBound_lt (e.obj.eval x)
  have hpos : lpNoise < 1 / 10 ^ 10 := by unfold lpNoise; norm_num
  exact absurd (int_gap (objective_int g hP.1.lt hc) hub (by linarith)) (not_le.2 hlt)

/-- the reduced costs do not concern the artificial arcs: one agent, or no reduced cost below the tolerance on an arc into a start -/
def RcMild (e : BEnv) (rc : Nat → ℚ) : Prop :=
  e.m.starts.length = 1 ∨ ∀ a u v, a < e.m.starts.length → u < e.m.n → v ∈ e.m.starts → -(1 / 10 ^ 10) ≤ rc (varId e.m.n a u v)

theorem rcFix_keeps (g : e.Good rows w starts ends) (hP : e.Feasible P) (h3 : 3 ≤ e.m.n) (hc : IsObjective e.mode e.m.w P c)
    {wk : Worker} {y rc : Nat → ℚ} (hs : Solved e wk y rc) (hf : FixInv e.cols wk.fix) (hcuts : ∀ k ∈ wk.cuts, CutOk e k)
    (ho : Obeys e P c wk.fix.fixed0 wk.fix.fixed1) {ub : ℚ} (hub : ∃ z : ℤ, ub = z) (hlt : c < ub)
    (hge : ¬ ceilBound (e.obj.eval y) ≥ ub) (hmild : RcMild e rc) (M : LPModel) :
    ∀ (l : List Nat) (s r : List Nat × List Nat), (∀ i ∈ l, i < e.B) → Obeys e P c s.1 s.2 →
      rcFix e M (ceilBound (e.obj.eval y)) ub y rc l s = .ok r → Obeys e P c r.1 r.2
  | [], s, r, _, h, hr => by simp only [rcFix, Except.ok.injEq] at hr; subst hr; exact h
  | v :: vs, s, r, hl, h, hr => by
    have hv := hl v List.mem_cons_self
    cases hst : rcStep e M (ceilBound (e.obj.eval y)) ub y rc s v with
    | error er => simp only [rcFix, hst] at hr; simp at hr
    | ok s' =>
      simp only [rcFix, hst] at hr
      refine rcFix_keeps g hP h3 hc hs hf hcuts ho hub hlt hge hmild M vs s' r (fun i hi => hl i (List.mem_cons_of_mem _ hi)) ?_ hr
      unfold rcStep at hst
      by_cases hb : M.bounds v = (some 0, some 1)
      · rw [if_pos hb] at hst
        by_cases h2 : y v < 1 / 10 ^ 10 ∧ ceilBound (e.obj.eval y) + rc v ≥ ub + 1 / 10 ^ 10
        · rw [if_pos h2, Except.ok.injEq] at hst
          subst hst
          refine ⟨?_, h.2⟩
          intro i hi
          rcases List.mem_append.1 hi with hi | hi
          · exact h.1 i hi
          · rw [List.mem_singleton.1 hi]
            exact rc_zero g hP h3 hc hs hf hcuts ho hub hlt hv h2.1 h2.2
        · rw [if_neg h2] at hst
          by_cases h4 : y v > 1 - 1 / 10 ^ 10 ∧ ceilBound (e.obj.eval y) - rc v ≥ ub + 1 / 10 ^ 10
          · rw [if_pos h4] at hst
            have h1 := rc_one g hP h3 hc hs hf hcuts ho hub hlt hv h4.1 h4.2
            obtain ⟨a, u, v', ha, hu, hv', hvar, hdec⟩ := (C53_numbering_bijective e.m.starts.length e.m.n).2 v hv
            have hvs : v' ∉ e.m.starts ∨ e.m.starts.length = 1 := by
              rcases hmild with hm | hm
              · exact Or.inr hm
              · left
                intro hmem
                have h5 := hm a u v' ha hu hmem
                rw [hvar] at h5
                have h6 := h4.2
                have hpos : (0 : ℚ) < 1 / 10 ^ 10 := by norm_num
                exact hge (by linarith)
            obtain ⟨l', hl', hz⟩ := C37_implied_fixings_partial g.make hP (solPoint_isPoint P c) hdec ha hu hv' hvs (by rw [hvar]; exact h1)
            rw [hl'] at hst
            simp only [Except.ok.injEq] at hst
            subst hst
            constructor
            · intro i hi
              rcases List.mem_append.1 hi with hi | hi
              · exact h.1 i hi
              · exact hz i hi
            · intro i hi
              rcases List.mem_append.1 hi with hi | hi
              · exact h.2 i hi
              · rw [List.mem_singleton.1 hi]; exact h1
          · rw [if_neg h4, Except.ok.injEq] at hst; subst hst; exact h
      · rw [if_neg hb, Except.ok.injEq] at hst; subst hst; exact h

end
end Mtsp
