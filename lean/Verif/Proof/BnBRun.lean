import Verif.Proof.BnBKeep
import Verif.Props.Comb

/-! The lower bound in every execution. -/

namespace Mtsp

section
variable {e : BEnv} {rows : Nat} {w : Weights} {starts ends : List Nat} {P : Paths} {c : ℚ} {L : Prop}

theorem dblMax_int : ∃ z : ℤ, dblMax = z := ⟨(2 ^ 53 - 1) * 2 ^ 971, by unfold dblMax; norm_num⟩

/-- what the constructor's heuristic leaves in the result -/
theorem initial_result (g : e.Good rows w starts ends) {t t' : Nat} {r : ResState}
    (hr : createInitialResult e.mode e.m t ResState.init = .ok (r, t')) : r.lower ≤ -dblMax ∧ ∃ z : ℤ, r.upper = z := by
  unfold createInitialResult at hr
  cases hn : nearestInsertion e.mode (fun _ => e.m.w) e.m.n e.m.starts e.m.ends e.m.deps t with
  | error er => rw [hn] at hr; simp at hr
  | ok x =>
    obtain ⟨⟨P0, obj⟩, t1⟩ := x
    rw [hn] at hr
    dsimp only at hr
    have hint : ∃ z : ℤ, obj - (twoOpt e.mode P0 e.m.w e.m.deps t1).1.2 = z := by
      by_cases ht : e.m.n ≤ t
      · have hc := (C24_construction_covers g.make g.smallDeltas hn).1 ht
        have hA : 0 < P0.length := by rw [hc.len]; exact WM.starts_pos g.make
        have hc1 := C28_cover_preserved (mode := e.mode) (w := e.m.w) (deps := e.m.deps) (t := t1) hA hc
        have h29 := C29_improvement_exact (mode := e.mode) (w := e.m.w) (deps := e.m.deps) (t := t1) hA
        have hobj : ∃ z : ℤ, obj = z := by
          cases hm : e.mode with
          | sum =>
            rw [hm] at hn
            have h27 : obj = sumCost (fun _ => e.m.w) P0 := C27_reported_objective g.make g.smallDeltas hn ht
            exact objective_int g hc.lt (by rw [hm]; exact h27)
          | max =>
            rw [hm] at hn
            have h27 := C27_reported_objective g.make g.smallDeltas hn ht
            obtain ⟨⟨a, p, hp, rfl⟩, _⟩ := h27
            exact pathCost_int g p (hc.lt p (List.mem_of_getElem? hp))
        obtain ⟨z1, h1⟩ := hobj
        obtain ⟨z2, h2⟩ := objective_int g hc.lt (isObjective_calc e.mode e.m.w P0)
        obtain ⟨z3, h3⟩ := objective_int g hc1.lt (isObjective_calc e.mode e.m.w _)
        refine ⟨z1 - z2 + z3, ?_⟩
        push_cast
        rw [← h1, ← h2, ← h3]
        have := h29
        linarith
      · have h := (C24_construction_covers g.make g.smallDeltas hn).2 (by omega)
        rcases ni_outcome (mode := e.mode) g.make g.smallDeltas t with ⟨he, _⟩ | ⟨_, h1, _⟩
        · rw [he] at hn; simp at hn
        rw [h1 (by omega)] at hn
        simp only [Except.ok.injEq, Prod.mk.injEq] at hn
        obtain ⟨⟨rfl, rfl⟩, rfl⟩ := hn
        exact ⟨0, by simp [show twoOpt e.mode [] e.m.w e.m.deps 0 = (([], 0), 0) from rfl]⟩
    split at hr
    · simp at hr
    · simp only [Except.ok.injEq, Prod.mk.injEq] at hr
      obtain ⟨rfl, _⟩ := hr
      unfold ResState.updateUpperBound ResState.init
      dsimp only
      split
      · exact ⟨min_le_left _ _, hint⟩
      · exact ⟨le_refl _, dblMax_int⟩

theorem start_jinv (g : e.Good rows w starts ends) (hL : L → e.threads = 1) (hP : e.Feasible P) (h3 : 3 ≤ e.m.n) (hc : IsObjective e.mode e.m.w P c)
    {t t' : Nat} {r : ResState} (hr : createInitialResult e.mode e.m t ResState.init = .ok (r, t'))
    {s : BState} (h : BState.start e r = .ok s) : JInv e L P c s := by
  obtain ⟨_, hres, hheap, hcl, _, hwk⟩ := start_inv g h
  obtain ⟨h1, h2⟩ := initial_result g hr
  have h0 := (objective_bounds g hP h3 hc).1
  have hd := dblMax_pos
  refine ⟨hL, by rw [hres]; linarith, by rw [hres]; exact h2, ?_, ?_, ?_, ?_, ?_⟩
  · refine Or.inr (Or.inl ⟨{ lb := 0 }, by rw [hheap]; simp, rfl, by simp, by simp⟩)
  · intro u _ l hl; rw [hwk u] at hl; simp [Pc.flight] at hl
  · rintro (hh | ⟨u, _, hh⟩)
    · rw [hcl] at hh; simp at hh
    · rw [hwk u] at hh; simp at hh
  · intro hh; rw [hcl] at hh; simp at hh
  · intro u _; rw [hwk u]; trivial

theorem run_jinv (g : e.Good rows w starts ends) (hL : L → e.threads = 1) (hP : e.Feasible P) (h3 : 3 ≤ e.m.n) (hc : IsObjective e.mode e.m.w P c)
    {t t' : Nat} {r : ResState} (hr : createInitialResult e.mode e.m t ResState.init = .ok (r, t'))
    {tr : List (Nat × Inp)} {s : BState} (h : BRun e r tr s) (hcalm : ∀ x ∈ tr, x.2.Calm e L) : JInv e L P c s := by
  induction h with
  | start s h => exact start_jinv g hL hP h3 hc hr h
  | step tr s u i hrun hu hi ih =>
    obtain ⟨_, all, hg⟩ := run_ginv g ⟨t, t', r, hr⟩ hrun
    exact step_jinv g ⟨t, t', r, hr⟩ hP h3 hc hg (ih fun x hx => hcalm x (List.mem_append_left _ hx)) hu hi
      (hcalm _ (List.mem_append_right _ (List.mem_singleton.2 rfl)))

/-! ### two nodes: the LP is infeasible and nothing is ever found -/

def SPc : Pc → Prop
  | .headUpd l => l ≤ 0
  | .head | .clear | .pop | .read _ | .compact _ | .solve _ | .done | .left | .crashed _ => True
  | _ => False

structure SInv (e : BEnv) (s : BState) : Prop where
  lower : s.res.lower ≤ 0
  heap : ∀ d ∈ s.q.heap, d.lb ≤ 0 ∧ d.isResult = false
  wo : ∀ v, some v ∈ s.q.workedOn → v ≤ 0
  wk : ∀ t < e.threads, SPc (s.wk t).pc

theorem SInv.upd {s : BState} (h : SInv e s) {t : Nat} {q' : QState} {r' : ResState} {d' : CDeque LinCon} {w' : Worker}
    (hlow : r'.lower ≤ 0) (hheap : ∀ d ∈ q'.heap, d ∈ s.q.heap) (hwo : ∀ v, some v ∈ q'.workedOn → v ≤ 0) (hpc : SPc w'.pc) :
    SInv e ⟨q', r', d', fun u => if u = t then w' else s.wk u⟩ := by
  refine ⟨hlow, fun d hd => h.heap d (hheap d hd), hwo, fun u hu => ?_⟩
  by_cases hut : u = t
  · simp only [if_pos hut]; exact hpc
  · simp only [if_neg hut]; exact h.wk u hu

theorem step_sinv (g : e.Good rows w starts ends) (h3 : ¬ 3 ≤ e.m.n) {bad : Prop} {s : BState} {all : List LinCon}
    (h : GInv e bad s all) (j : SInv e s) {t : Nat} (ht : t < e.threads) {i : Inp} (hi : i.Ok e s t) : SInv e (s.step e t i) := by
  obtain ⟨hfix, o, ho, hpc⟩ := h.wk t ht
  have hs := j.wk t ht
  have hset : ∀ (x : Option ℚ), (∀ v, x = some v → v ≤ 0) → ∀ v, some v ∈ s.q.workedOn.set t x → v ≤ 0 := by
    intro x hx v hv
    rcases List.mem_or_eq_of_mem_set hv with hv | hv
    · exact j.wo v hv
    · exact hx v hv.symm
  cases hp : (s.wk t).pc with
  | head =>
    obtain ⟨l, hl, hb⟩ := calcLB_spec s.q h.q
    simp only [BState.step, hp, hl]
    refine j.upd j.lower (fun _ h => h) j.wo ?_
    show l ≤ 0
    rcases hb with ⟨_, rfl⟩ | ⟨hm, _⟩
    · have := dblMax_pos; linarith
    · unfold QState.allBounds at hm
      rcases List.mem_append.1 hm with hm | hm
      · obtain ⟨d, hd, rfl⟩ := List.mem_map.1 hm
        exact (j.heap d hd).1
      · obtain ⟨x, hx, hx'⟩ := List.mem_filterMap.1 hm
        simp only [id] at hx'
        subst hx'
        exact j.wo l hx
  | headUpd l =>
    rw [hp] at hs
    have hs : l ≤ 0 := hs
    simp only [BState.step, hp]
    have hlow : (s.res.updateLowerBound l).1.lower ≤ 0 := by
      unfold ResState.updateLowerBound
      dsimp only
      split
      · exact (min_le_left _ _).trans hs
      · exact j.lower
    split
    · exact j.upd hlow (fun _ h => h) j.wo trivial
    · split
      · exact j.upd hlow (fun _ h => h) j.wo trivial
      · exact j.upd hlow (fun _ h => h) j.wo trivial
  | clear => simp only [BState.step, hp]; exact j.upd (q' := s.q.clearAll) j.lower (fun _ h => h) j.wo trivial
  | pop =>
    simp only [BState.step, hp]
    rcases pop_cases e.H s.q t h.q (by rw [h.len]; exact ht) with ⟨_, _, _, ep⟩ | ⟨_, ep⟩ | ⟨_, d, r, l, hh, hpm, hheap, _, ep⟩
    · rw [ep]; exact j
    · rw [ep]; exact j.upd j.lower (fun _ h => h) j.wo trivial
    · rw [ep]
      dsimp only
      have hd := j.heap d (by rw [hh]; exact List.mem_cons_self)
      have hr : ∀ d' ∈ r, d' ∈ s.q.heap := fun d' hd' => by rw [hh]; exact List.mem_cons_of_mem _ (hpm.mem_iff.1 hd')
      have hw := hset (some d.lb) (fun v hv => by cases hv; exact hd.1)
      rw [if_neg (by rw [hd.2]; simp)]
      split
      · exact j.upd j.lower hr hw trivial
      · exact j.upd j.lower hr hw trivial
  | read lb =>
    simp only [BState.step, hp]
    split
    · exact j.upd j.lower (fun _ h => h) j.wo trivial
    · refine j.upd j.lower (fun _ h => h) j.wo ?_
      dsimp only
      split <;> trivial
  | compact lb =>
    simp only [BState.step, hp]
    split
    · exact j.upd j.lower (fun _ h => h) j.wo trivial
    · exact j.upd j.lower (fun _ h => h) j.wo trivial
  | solve lb =>
    simp only [Inp.Ok, hp] at hi
    simp only [BState.step, hp]
    cases hans : i.ans with
    | optimal y rc =>
      exfalso
      rw [hans] at hi
      obtain ⟨_, x, hx⟩ := hi
      exact h3 (small_no_point g.make (rows0_iff.1 hx.admits.rows).2.1)
    | unbounded => exact j.upd j.lower (fun _ h => h) j.wo trivial
    | error => exact j.upd j.lower (fun _ h => h) j.wo trivial
    | timeout => exact j.upd j.lower (fun _ h => h) j.wo trivial
    | infeasible => exact j.upd j.lower (fun _ h => h) j.wo trivial
  | done =>
    simp only [PcOk, hp] at hpc
    obtain ⟨v, rfl⟩ := hpc
    have hq : s.q.notifyDone t = (.ok .unit, { s.q with workedOn := s.q.workedOn.set t none, count := s.q.count - 1 }) := by
      unfold QState.notifyDone
      rw [ho]
    simp only [BState.step, hp, hq]
    exact j.upd j.lower (fun _ h => h) (hset none (by simp)) trivial
  | left => simp only [BState.step, hp]; exact j
  | crashed er => simp only [BState.step, hp]; exact j
  | _ => rw [hp] at hs; exact absurd hs (by simp [SPc])

theorem run_sinv (g : e.Good rows w starts ends) (h3 : ¬ 3 ≤ e.m.n)
    {t t' : Nat} {r : ResState} (hr : createInitialResult e.mode e.m t ResState.init = .ok (r, t'))
    {tr : List (Nat × Inp)} {s : BState} (h : BRun e r tr s) : SInv e s := by
  induction h with
  | start s h =>
    obtain ⟨hgi, hres, hheap, _, _, hwk⟩ := start_inv g h
    obtain ⟨h1, _⟩ := initial_result g hr
    have hd := dblMax_pos
    refine ⟨by rw [hres]; linarith, ?_, ?_, fun u _ => by rw [hwk u]; trivial⟩
    · rw [hheap]; intro d hd; rw [List.mem_singleton.1 hd]; exact ⟨le_refl _, rfl⟩
    · intro v hv
      exfalso
      obtain ⟨u, hu, hv'⟩ := List.mem_iff_getElem.1 hv
      obtain ⟨_, o, ho, hpc⟩ := hgi.wk u (by rw [← hgi.len]; exact hu)
      rw [hwk u] at hpc
      simp only [PcOk] at hpc
      subst hpc
      rw [List.getElem?_eq_getElem hu, hv'] at ho
      simp at ho
  | step tr s u i hrun hu hi ih =>
    obtain ⟨_, all, hg⟩ := run_ginv g ⟨t, t', r, hr⟩ hrun
    exact step_sinv g h3 hg ih hu hi

theorem small_objective (g : e.Good rows w starts ends) (h3 : ¬ 3 ≤ e.m.n) (hP : e.Feasible P) (hc : IsObjective e.mode e.m.w P c) : 0 ≤ c := by
  cases hm : e.mode with
  | max => rw [hm] at hc; exact hc.1
  | sum =>
    rw [hm] at hc
    have hc : c = sumCost (fun _ => e.m.w) P := hc
    obtain ⟨hn, hA⟩ := C33_small_instances g.make h3
    have hi := WM.inst g.make
    have hl : P.length = 1 := by rw [hP.1.len, hA]
    obtain ⟨p, rfl⟩ := List.length_eq_one_iff.1 hl
    obtain ⟨x, hx⟩ := List.length_eq_one_iff.1 hA
    obtain ⟨y, hy⟩ := List.length_eq_one_iff.1 (hi.lenEq ▸ hA)
    have hh := hP.1.head 0 p rfl
    have hla := hP.1.last 0 p rfl
    have hp := hP.1.perm
    rw [hx] at hh; rw [hy] at hla; rw [hn] at hp
    have hlen := hp.length_eq
    simp at hlen hh hla
    match p, hlen, hh, hla with
    | [x', y'], _, hh, hla =>
      simp at hh hla
      subst hh hla
      rw [hc]
      simp only [sumCost, List.mapIdx_cons, List.mapIdx_nil, pathCost, List.sum_cons, List.sum_nil, add_zero]
      exact g.weight_nonneg (hi.lt _ (by simp [hx])) (hi.lt _ (by simp [hy])) (hi.noIn _ (by simp [hx]) _)

end
end Mtsp
