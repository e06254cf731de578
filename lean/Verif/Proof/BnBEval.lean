import Verif.Proof.BnBNode

/-! What a worker does with a solved node. -/

namespace Mtsp
open Finset

section
variable {e : BEnv} {rows : Nat} {w : Weights} {starts ends : List Nat}

/-- implied fixings concern existing variables, and computing them never fails -/
theorem calcFixable_bin (g : e.Good rows w starts ends) {id : Nat} (hid : id < e.B) :
    ∃ l, calcFixable e.m.n e.m.starts e.m.ends e.m.deps id = .ok l ∧ ∀ i ∈ l, i < e.B := by
  obtain ⟨a, u, v, ha, hu, hv, hvar, hdec⟩ := (C53_numbering_bijective e.m.starts.length e.m.n).2 id hid
  have s := (WM.make_ok g.make).1
  obtain ⟨_, _, hout, hin, _, _⟩ := C16_queries_agree e.m.n e.m.w
  rw [← s.deps] at hout hin
  obtain ⟨outV, ho1, _, ho2⟩ := hout v hv
  obtain ⟨inU, hi1, _, hi2⟩ := hin u hu
  refine ⟨_, by unfold calcFixable; rw [hdec]; dsimp only; rw [ho1]; dsimp only; rw [hi1], ?_⟩
  intro i hi
  simp only [List.mem_flatMap, List.mem_range] at hi
  obtain ⟨aa, haa, hi⟩ := hi
  have V : ∀ {x y : Nat}, x < e.m.n → y < e.m.n → varId e.m.n aa x y < e.B := fun hx hy => varId_lt haa hx hy
  have hat : ∀ d < e.m.n, i ∈ arcsAt e.m.n aa d → i < e.B := by
    intro d hd hi
    simp only [arcsAt, List.mem_flatMap, List.mem_range, List.mem_cons, List.not_mem_nil, or_false] at hi
    obtain ⟨x, hx, rfl | rfl⟩ := hi
    · exact V hx hd
    · exact V hd hx
  unfold fixableFor at hi
  simp only [List.mem_append] at hi
  rcases hi with ((((hi | hi) | hi) | hi) | hi) | hi
  · split at hi
    · rw [List.mem_singleton] at hi; subst hi; exact V hu hv
    · simp at hi
  · simp only [List.mem_map, List.mem_filter, List.mem_range] at hi
    obtain ⟨x, ⟨hx, _⟩, rfl⟩ := hi; exact V hu hx
  · simp only [List.mem_map, List.mem_filter, List.mem_range] at hi
    obtain ⟨x, ⟨hx, _⟩, rfl⟩ := hi; exact V hx hv
  · split at hi
    · simp only [List.mem_map, List.mem_range] at hi
      obtain ⟨x, hx, rfl⟩ := hi; exact V hx hu
    · simp at hi
  · split at hi
    · simp only [List.mem_map, List.mem_range] at hi
      obtain ⟨x, hx, rfl⟩ := hi; exact V hv hx
    · simp at hi
  · split at hi
    · simp only [List.mem_append, List.mem_flatMap, List.mem_filter] at hi
      rcases hi with ⟨d, ⟨hd, _⟩, hi⟩ | ⟨d, ⟨hd, _⟩, hi⟩
      · exact hat d ((ho2 d).1 hd).2.1 hi
      · exact hat d ((hi2 d).1 hd).1 hi
    · simp at hi

/-- reduced cost fixing never fails and its variables exist; those fixed to 1 were free -/
theorem rcFix_ok (g : e.Good rows w starts ends) (M : LPModel) (lb ub : ℚ) (y rc : Nat → ℚ) :
    ∀ (l : List Nat) (s : List Nat × List Nat), (∀ i ∈ l, i < e.B) → (∀ i ∈ s.1, i < e.B) →
      (∀ i ∈ s.2, i < e.B ∧ M.bounds i = (some 0, some 1)) →
      ∃ r, rcFix e M lb ub y rc l s = .ok r ∧ (∀ i ∈ r.1, i < e.B) ∧ (∀ i ∈ r.2, i < e.B ∧ M.bounds i = (some 0, some 1))
  | [], s, _, h0, h1 => ⟨s, rfl, h0, h1⟩
  | v :: vs, s, hl, h0, h1 => by
    have hv := hl v List.mem_cons_self
    have key : ∃ s', rcStep e M lb ub y rc s v = .ok s' ∧ (∀ i ∈ s'.1, i < e.B) ∧
        (∀ i ∈ s'.2, i < e.B ∧ M.bounds i = (some 0, some 1)) := by
      unfold rcStep
      by_cases hb : M.bounds v = (some 0, some 1)
      · rw [if_pos hb]
        by_cases h2 : y v < 1 / 10 ^ 10 ∧ lb + rc v ≥ ub + 1 / 10 ^ 10
        · rw [if_pos h2]
          refine ⟨_, rfl, ?_, h1⟩
          intro i hi
          rcases List.mem_append.1 hi with hi | hi
          · exact h0 i hi
          · rw [List.mem_singleton.1 hi]; exact hv
        · rw [if_neg h2]
          by_cases h3 : y v > 1 - 1 / 10 ^ 10 ∧ lb - rc v ≥ ub + 1 / 10 ^ 10
          · rw [if_pos h3]
            obtain ⟨r, hr, hrb⟩ := calcFixable_bin g hv
            rw [hr]
            refine ⟨_, rfl, ?_, ?_⟩
            · intro i hi
              rcases List.mem_append.1 hi with hi | hi
              · exact h0 i hi
              · exact hrb i hi
            · intro i hi
              rcases List.mem_append.1 hi with hi | hi
              · exact h1 i hi
              · rw [List.mem_singleton.1 hi]; exact ⟨hv, hb⟩
          · rw [if_neg h3]; exact ⟨s, rfl, h0, h1⟩
      · rw [if_neg hb]; exact ⟨s, rfl, h0, h1⟩
    obtain ⟨s', e1, a, b⟩ := key
    obtain ⟨r, e2, c, d⟩ := rcFix_ok g M lb ub y rc vs s' (fun i hi => hl i (List.mem_cons_of_mem _ hi)) a b
    exact ⟨r, by simp only [rcFix, e1, e2], c, d⟩

/-- an integral point: its paths are a solution, its value is their cost -/
structure IntSol (e : BEnv) (lb : ℚ) (y : Nat → ℚ) : Prop where
  feasible : e.Feasible (readPaths e.m.n e.m.starts e.m.ends y)
  cost : IsObjective e.mode e.m.w (readPaths e.m.n e.m.starts e.m.ends y) lb

theorem separate_none {y : Nat → ℚ} (h : separate e y = []) : ucutF e.fl e.sw e.m.starts.length e.m.n y = none ∧
    piCutF e.fl e.mf e.m.n e.m.starts e.m.ends e.m.deps y = none := by
  unfold separate at h
  split at h
  · simp at h
  rename_i h1
  split at h
  · simp at h
  split at h
  · simp at h
  rename_i h3
  exact ⟨h1, h3⟩

theorem pathCost_int (g : e.Good rows w starts ends) : ∀ (p : List Nat), (∀ i ∈ p, i < e.m.n) → ∃ z : ℤ, pathCost e.m.w p = z
  | [], _ => ⟨0, by simp [pathCost]⟩
  | [x], _ => ⟨0, by simp [pathCost]⟩
  | x :: x' :: p, h => by
    obtain ⟨z, hz⟩ := pathCost_int g (x' :: p) (fun i hi => h i (List.mem_cons_of_mem _ hi))
    obtain ⟨z', hz'⟩ := g.weight_int (h x List.mem_cons_self) (h x' (List.mem_cons_of_mem _ List.mem_cons_self))
    exact ⟨z' + z, by simp only [pathCost, hz, hz']; push_cast; ring⟩

theorem objective_int (g : e.Good rows w starts ends) {P : Paths} (h : ∀ p ∈ P, ∀ i ∈ p, i < e.m.n) {v : ℚ}
    (hv : IsObjective e.mode e.m.w P v) : ∃ z : ℤ, v = z := by
  rcases hm : e.mode with _ | _
  · rw [hm] at hv
    have hv : v = sumCost (fun _ => e.m.w) P := hv
    rw [sumCost_eq] at hv
    have : ∀ l : List Nat, (∀ a ∈ l, a < P.length) → ∃ z : ℤ, (l.map fun a => pathCost e.m.w (P.getD a [])).sum = z := by
      intro l
      induction l with
      | nil => intro _; exact ⟨0, by simp⟩
      | cons a l ih =>
        intro hl
        obtain ⟨z, hz⟩ := ih (fun b hb => hl b (List.mem_cons_of_mem _ hb))
        have ha := hl a List.mem_cons_self
        obtain ⟨z', hz'⟩ := pathCost_int g (P.getD a []) (by
          intro i hi
          refine h (P.getD a []) ?_ i hi
          rw [List.getD_eq_getElem?_getD, List.getElem?_eq_getElem ha]
          exact List.getElem_mem ha)
        exact ⟨z' + z, by rw [List.map_cons, List.sum_cons, hz, hz']; push_cast; ring⟩
    rw [hv]
    exact this _ (by simp)
  · rw [hm] at hv
    obtain ⟨_, _, h0 | ⟨a, p, hp, hv⟩⟩ := hv
    · exact ⟨0, by rw [h0]; simp⟩
    · rw [← hv]; exact pathCost_int g p (h p (List.mem_of_getElem? hp))

/-- no fractional variable: the values are near those of a 0/1 point -/
theorem Optimum.nearInt (g : e.Good rows w starts ends) {wk : Worker} {y rc x : Nat → ℚ} (h : Solved e wk y rc) (hx : Optimum e wk y rc x)
    (hfr : findFractional e.fl wk.fix.model.nBin y = none) : NearInt e.B (1 / 10 ^ 10) y x := by
  intro i hi
  have hn : i < wk.fix.model.nBin := by rw [h.nBin, g.nBin]; exact hi
  have h1 := (findFractional_spec g.precise _ _).1.1 hfr i hn
  have hb := h.inBox.bin g hi
  unfold Fractional at h1
  refine ⟨hb.1, ?_⟩
  by_cases ha : y i < 1 / 10 ^ 10
  · exact Or.inl ⟨(hx.zero i hi).1 ha, ha.le⟩
  · right
    have h2 : y i > 1 - 1 / 10 ^ 10 := by
      by_contra hb
      exact h1 ⟨not_lt.1 ha, not_lt.1 hb⟩
    exact ⟨(hx.one i hi).1 h2, h2.le, hb.2⟩

/-- a variable found fractional is fractional at the optimum -/
theorem Optimum.frac (g : e.Good rows w starts ends) {wk : Worker} {y rc x : Nat → ℚ} (hx : Optimum e wk y rc x) {v : Nat} (hv : v < e.B)
    (hf : Fractional y v) : 0 < x v ∧ x v < 1 := by
  have hb := hx.inBox.bin g hv
  constructor
  · rcases lt_or_eq_of_le hb.1 with h | h
    · exact h
    · exact absurd ((hx.zero v hv).2 h.symm) (not_lt.2 hf.1)
  · rcases lt_or_eq_of_le hb.2 with h | h
    · exact h
    · exact absurd ((hx.one v hv).2 h) (not_lt.2 hf.2)

theorem Solved.intSol (g : e.Good rows w starts ends) {wk : Worker} {y' rc : Nat → ℚ} (hs : Solved e wk y' rc)
    (hf : FixInv e.cols wk.fix) (hc : ∀ c ∈ wk.cuts, c.Local e.B)
    (hsep : separate e y' = []) (hfr : findFractional e.fl wk.fix.model.nBin y' = none) :
    IntSol e (ceilBound (e.obj.eval y')) y' := by
  obtain ⟨y, h⟩ := hs.opt g
  obtain ⟨hu, hp⟩ := separate_none hsep
  obtain ⟨hmax, hrows, _⟩ := rows0_iff.1 h.sat
  obtain ⟨hfeas, hpt⟩ := C89_uncut_is_feasible (δ := 1 / 10 ^ 10) g.precise g.make g.swOk g.mfOk g.size (by norm_num) (by
    have h1 : ((e.B : Nat) : ℚ) ≤ 2147483647 := by exact_mod_cast g.size
    unfold BEnv.B at h1
    push_cast at h1
    linarith) (Optimum.nearInt g hs h hfr) h.one hrows hu hp
  rw [h.ceil]
  have hlt : ∀ p ∈ readPaths e.m.n e.m.starts e.m.ends y', ∀ i ∈ p, i < e.m.n := fun p hp i hi => hfeas.1.lt p hp i hi
  have hagent : ∀ a < e.m.starts.length, e.agentCost y a = pathCost e.m.w ((readPaths e.m.n e.m.starts e.m.ends y').getD a []) :=
    fun a ha => agent_cost_feasible g.make hfeas hpt ha
  have hlen := hfeas.1.len
  have hbin : ∀ i < e.B, 0 ≤ y i := fun i hi => (h.inBox.bin g hi).1
  suffices hobj : IsObjective e.mode e.m.w (readPaths e.m.n e.m.starts e.m.ends y') (e.obj.eval y) by
    obtain ⟨z, hz⟩ := objective_int g hlt hobj
    refine ⟨hfeas, ?_⟩
    rw [hz, ceilBound_int, ← hz]; exact hobj
  rcases hm : e.mode with _ | _
  · show e.obj.eval y = sumCost _ _
    have := (C34_sum_objective g.make hfeas hpt).1
    rw [← this]; unfold BEnv.obj; rw [hm]
  · have hpos : ∀ a < e.m.starts.length, 0 ≤ e.agentCost y a := fun a ha => agentCost_nonneg g hrows hbin ha
    have hle : ∀ a < e.m.starts.length, e.agentCost y a ≤ y e.B := fun a ha => (hmax hm a ha).1
    rw [e.obj_max hm]
    have h0 := (WM.inst g.make).pos
    refine ⟨le_trans (hpos 0 h0) (hle 0 h0), ?_, Or.inr ?_⟩
    · intro a p hpa
      have ha : a < e.m.starts.length := by rw [← hlen]; exact lt_length_of_some hpa
      have := hagent a ha
      rw [List.getD_eq_getElem?_getD, hpa, Option.getD_some] at this
      rw [← this]; exact hle a ha
    · obtain ⟨a, ha, hamax⟩ := Finset.exists_max_image (Finset.range e.m.starts.length) (e.agentCost y) ⟨0, Finset.mem_range.2 h0⟩
      have ha := Finset.mem_range.1 ha
      have hal : a < (readPaths e.m.n e.m.starts e.m.ends y').length := by rw [hlen]; exact ha
      have hcm : e.agentCost y a ≤ dblMax := by
        refine (agentCost_lt g (fun i hi => h.inBox.bin g hi) ha).trans ?_
        exact le_trans (by norm_num) two70_lt.le
      obtain ⟨hz, hb⟩ := raise_max g hm hc hf.bin0 hf.bin1 h.sat h.inBox (t := e.agentCost y a)
        (fun b hb => hamax b (Finset.mem_range.2 hb)) (hpos a ha) hcm
      have hopt := h.least _ hz hb
      rw [e.obj_max hm, e.obj_max hm, if_pos rfl] at hopt
      refine ⟨a, _, List.getElem?_eq_getElem hal, ?_⟩
      have := hagent a ha
      rw [List.getD_eq_getElem?_getD, List.getElem?_eq_getElem hal, Option.getD_some] at this
      rw [← this]
      exact le_antisymm (hle a ha) hopt

/-! ### the worker's duties -/

/-- the worker's LP is that of its node -/
structure Loaded (e : BEnv) (wk : Worker) : Prop where
  nVars : wk.fix.model.nVars = e.cols.nVars
  nBin : wk.fix.model.nBin = e.cols.nBin
  box : ∀ i, wk.fix.model.bounds i = nodeBounds e.cols wk.fix.fixed0 wk.fix.fixed1 i

/-- what a worker is about to push: the bound is the one the queue has on record for it, the nodes are proper -/
def OpOk (e : BEnv) (all : List LinCon) (o : Option ℚ) : QOp → Prop
  | .pushResult v => o = some v
  | .push v f0 f1 => o = some v ∧ NodeOk e all v f0 f1
  | .pushBranch v f0 f1 var rec0 => o = some v ∧ ∀ d ∈ branchNodes v f0 f1 var rec0, NodeOk e all d.lb d.fixed0 d.fixed1
  | _ => False

/-- what holds at each point of the worker's program; `o` is the queue's record for the worker, `bad`: the LP
solver has reported an error before -/
def PcOk (e : BEnv) (bad : Prop) (all : List LinCon) (o : Option ℚ) (wk : Worker) : Prop :=
  match wk.pc with
  | .head | .headUpd _ | .clear | .pop | .left => o = none
  | .resRead lb | .resUpd lb _ => o = some lb
  | .read lb => o = some lb ∧ Loaded e wk ∧ NodeOk e all lb wk.fix.fixed0 wk.fix.fixed1
  | .compact lb | .solve lb => o = some lb ∧ Loaded e wk ∧ NodeOk e wk.cuts lb wk.fix.fixed0 wk.fix.fixed1
  | .raise lb y rc => Solved e wk y rc ∧ lb = ceilBound (e.obj.eval y) ∧ ∃ v, o = some v ∧ v ≤ lb
  | .getLB lb y rc | .updLB lb _ y rc | .exploit lb y rc => Solved e wk y rc ∧ lb = ceilBound (e.obj.eval y) ∧ o = some lb
  | .pushCuts cs op => (∀ c ∈ cs, CutOk e c) ∧ OpOk e all o op
  | .push op => OpOk e all o op
  | .getUpper lb y | .setUpper lb y => o = some lb ∧ IntSol e lb y
  | .done => ∃ v, o = some v
  | .crashed er => er = .logic "Unexpected error happened while solving LP" ∧ bad

theorem evaluate_ok (g : e.Good rows w starts ends) (bad : Prop) {all : List LinCon} {wk : Worker} {y rc : Nat → ℚ} {lb ub : ℚ}
    (hs : Solved e wk y rc) (hlb : lb = ceilBound (e.obj.eval y)) (hf : FixInv e.cols wk.fix) (hc : ∀ c ∈ wk.cuts, CutOk e c)
    (hsub : ∀ c ∈ wk.cuts, c ∈ all) :
    (wk.evaluate e lb ub y rc).cuts = wk.cuts ∧ FixInv e.cols (wk.evaluate e lb ub y rc).fix ∧
      PcOk e bad all (some lb) (wk.evaluate e lb ub y rc) := by
  unfold Worker.evaluate
  by_cases hge : lb ≥ ub
  · rw [if_pos hge]; exact ⟨rfl, hf, rfl⟩
  rw [if_neg hge]
  obtain ⟨⟨e0, e1⟩, hr, hb0, hb1⟩ := rcFix_ok g wk.fix.model lb ub y rc (List.range wk.fix.model.nBin) ([], [])
    (fun i hi => by rw [List.mem_range, hs.nBin, g.nBin] at hi; exact hi) (by simp) (by simp)
  rw [hr]
  dsimp only
  have hfix : FixInv e.cols (wk.fix.remember e0 e1) := by
    refine ⟨hf.wf, hf.nBin, hf.nVars, ?_, ?_, ?_⟩
    · intro i hi
      rcases List.mem_append.1 hi with hi | hi
      · exact hf.bin0 i hi
      · rw [g.nBin]; exact hb0 i hi
    · intro i hi
      rcases List.mem_append.1 hi with hi | hi
      · exact hf.bin1 i hi
      · rw [g.nBin]; exact (hb1 i hi).1
    · intro i h0 h1
      exact hf.free i (fun hm => h0 (List.mem_append_left _ hm)) (fun hm => h1 (List.mem_append_left _ hm))
  have hfree : ∀ i, wk.fix.model.bounds i = (some 0, some 1) → i ∉ wk.fix.fixed0 := by
    intro i hi hmem
    rw [hs.box i] at hi
    unfold nodeBounds at hi
    by_cases h1 : i ∈ wk.fix.fixed1
    · rw [if_pos h1] at hi; simp at hi
    · rw [if_neg h1, if_pos hmem] at hi; simp at hi
  -- nodes with more fixings
  have hnode : ∀ f0 f1 : List Nat, e.cols.Bin f0 → e.cols.Bin f1 → (∀ i ∈ wk.fix.fixed0 ++ e0, i ∈ f0) → (∀ i ∈ wk.fix.fixed1 ++ e1, i ∈ f1) →
      (∀ i ∈ f1, i ∈ wk.fix.fixed1 ++ e1 ∨ i ∉ wk.fix.fixed0) → NodeOk e all lb f0 f1 := by
    intro f0 f1 hb0' hb1' h0 h1 hn
    rw [hlb]
    refine hs.nodeOk g hsub hb0' hb1' (fun i hi => h0 i (List.mem_append_left _ hi)) (fun i hi => h1 i (List.mem_append_left _ hi)) ?_
    intro i hi
    rcases hn i hi with hi | hi
    · rcases List.mem_append.1 hi with hi | hi
      · exact Or.inl hi
      · exact Or.inr (hfree i (hb1 i hi).2)
    · exact Or.inr hi
  cases hsep : separate e y with
  | cons c cs =>
    dsimp only
    refine ⟨rfl, hfix, ?_, rfl, ?_⟩
    · rw [← hsep]; exact separate_ok g (hs.three g)
    · exact hnode _ _ hfix.bin0 hfix.bin1 (fun _ h => h) (fun _ h => h) (fun _ h => Or.inl h)
  | nil =>
    dsimp only
    cases hfr : findFractional e.fl wk.fix.model.nBin y with
    | none =>
      dsimp only
      refine ⟨rfl, hfix, rfl, ?_⟩
      rw [hlb]; exact hs.intSol g hf (fun c h => (hc c h).1.local) hsep hfr
    | some v =>
      dsimp only
      obtain ⟨hv, hvf, _⟩ := (findFractional_spec g.precise _ _).2 v hfr
      rw [hs.nBin, g.nBin] at hv
      obtain ⟨r, hr, hrb⟩ := calcFixable_bin g hv
      rw [hr]
      dsimp only
      refine ⟨rfl, hfix, rfl, ?_⟩
      have hv0 : v ∉ wk.fix.fixed0 := by
        intro hmem
        have hn : v < e.cols.nVars := lt_of_lt_of_le hv g.le_nVars
        have hpos : (0 : ℚ) < 1 / 10 ^ 10 := by norm_num
        have hfr1 := hvf.1
        have hfr2 := hvf.2
        by_cases h1 : v ∈ wk.fix.fixed1
        · have := hs.inBox v hn 1 1 (by unfold nodeBounds; rw [if_pos h1])
          linarith [this.1]
        · have := hs.inBox v hn 0 0 (by unfold nodeBounds; rw [if_neg h1, if_pos hmem])
          linarith [this.2]
      intro d hd
      simp only [branchNodes, List.mem_cons, List.not_mem_nil, or_false] at hd
      have hf0 := hfix.bin0
      have hf1 := hfix.bin1
      rcases hd with rfl | rfl
      · refine hnode _ _ ?_ hf1 (fun i hi => List.mem_append_left _ hi) (fun _ h => h) (fun _ h => Or.inl h)
        intro i hi
        rcases List.mem_append.1 hi with hi | hi
        · exact hf0 i hi
        · rw [List.mem_singleton.1 hi, g.nBin]; exact hv
      · refine hnode _ _ ?_ ?_ (fun i hi => List.mem_append_left _ hi) (fun i hi => List.mem_append_left _ hi) ?_
        · intro i hi
          rcases List.mem_append.1 hi with hi | hi
          · exact hf0 i hi
          · rw [g.nBin]; exact hrb i hi
        · intro i hi
          rcases List.mem_append.1 hi with hi | hi
          · exact hf1 i hi
          · rw [List.mem_singleton.1 hi, g.nBin]; exact hv
        · intro i hi
          rcases List.mem_append.1 hi with hi | hi
          · exact Or.inl hi
          · rw [List.mem_singleton.1 hi]; exact Or.inr hv0

end
end Mtsp
