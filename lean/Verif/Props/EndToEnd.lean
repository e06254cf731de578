import Verif.Props.CApiRefuted
import Verif.Proof.InputDeps

/-! C64: what a caller of the C function may conclude from a non-negative code.  C65: the assertions. -/

namespace Mtsp
open Relation

/-- Nothing unusual happened in the search: no LP solve was cut off by the deadline, the deadline was noticed only in a
single-threaded search, and with several agents the LP solver reported no reduced cost below -1e-10 for an arc into a start.
(`C42_refuted` and `C41_refuted` show what goes wrong otherwise.) -/
def CArgs.Calm (a : CArgs) (L : Lib) (tr : List (Nat × Inp)) : Prop :=
  ∀ i ∈ tr, i.2.ans ≠ .timeout ∧ (i.2.late = false ∨ threadCount L.hw a.threads = 1) ∧
    (a.A = 1 ∨ ∀ m, WM.make a.N a.N a.weight a.startList a.endList = .ok m → ∀ y rc, i.2.ans = .optimal y rc →
      ∀ k u v, k < a.A → u < m.n → v ∈ m.starts → -(1 / 10 ^ 10) ≤ rc (varId m.n k u v))

/-- a solution in terms of the input: covers every node, respects every dependency -/
def CArgs.Solution (a : CArgs) (P : List (List Nat)) : Prop := InputCover a.N a.startList a.endList P ∧ Respects a.Dep P

/-- what it costs -/
def CArgs.Costs (a : CArgs) (P : List (List Nat)) (c : ℚ) : Prop := IsObjective a.opt (inputCost a.weight) P c

theorem pathCost_nonneg {w : Weights} : ∀ (p : List Nat), (∀ u ∈ p, ∀ v ∈ p, 0 ≤ w u v) → 0 ≤ pathCost w p
  | [], _ => le_refl _
  | [_], _ => le_refl _
  | x :: y :: p, h => by
    have h1 := pathCost_nonneg (y :: p) fun u hu v hv => h u (List.mem_cons_of_mem _ hu) v (List.mem_cons_of_mem _ hv)
    have h2 := h x List.mem_cons_self y (List.mem_cons_of_mem _ List.mem_cons_self)
    rw [pathCost]
    linarith

theorem objective_nonneg' {mode : Mode} {w : Weights} {P : Paths} {c : ℚ} (hw : ∀ p ∈ P, 0 ≤ pathCost w p)
    (h : IsObjective mode w P c) : 0 ≤ c := by
  cases mode with
  | max => exact h.1
  | sum =>
    rw [show c = sumCost (fun _ => w) P from h]
    unfold sumCost
    apply List.sum_nonneg
    intro x hx
    rw [List.mem_mapIdx] at hx
    obtain ⟨i, hi, rfl⟩ := hx
    exact hw _ (List.getElem_mem hi)

theorem objective_nonneg {mode : Mode} {w : Weights} {P : Paths} {c : ℚ} (hw : ∀ p ∈ P, ∀ u ∈ p, ∀ v ∈ p, 0 ≤ w u v)
    (h : IsObjective mode w P c) : 0 ≤ c :=
  objective_nonneg' (fun p hp => pathCost_nonneg p (hw p hp)) h

section
variable {rows : Nat} {w : Weights} {starts ends : List Nat} {m : WM} {mode : Mode} {t t' : Nat}

/-- without dependencies no weight is negative -/
theorem WM.weight_nonneg (h : WM.make rows rows w starts ends = .ok m) (hw : IntWeights rows w) (hd : ∀ u v, ¬ InputDep rows w u v) {u v : Nat}
    (hu : u < m.n) (hv : v < m.n) : 0 ≤ m.w u v := by
  have hlt := (C18_own_starts_and_ends h).2.2.2.2.2.2.2.2.1
  rcases C19_weights_mirror_input h u v hu hv with ⟨_, h1⟩ | ⟨h1, _⟩ | ⟨h1, _, h2⟩
  · exfalso
    cases h1 with
    | single h => exact hd _ _ h
    | tail _ h => exact hd _ _ h
  · rw [h1]
  · obtain ⟨z, h3, h4, h5⟩ := hw _ (hlt u hu) _ (hlt v hv)
    rw [h1, h3]
    rw [h3] at h2
    have : z ≠ -1 := fun e => h2 (by rw [e]; norm_num)
    have : (0 : ℤ) ≤ z := by omega
    exact_mod_cast this

/-- on paths that respect the dependencies no arc has a negative weight -/
theorem feasible_nonneg (h : WM.make rows rows w starts ends = .ok m) (hw : IntWeights rows w) {P : Paths}
    (hf : Feasible m.n m.starts m.ends (DepIn m.n m.w) P) {p : List Nat} (hp : p ∈ P) : 0 ≤ pathCost m.w p := by
  have hlt := (C18_own_starts_and_ends h).2.2.2.2.2.2.2.2.1
  have key : ∀ (l q : List Nat), p = l ++ q → 0 ≤ pathCost m.w q := by
    intro l q
    induction q generalizing l with
    | nil => intro _; exact le_refl _
    | cons x q ih =>
      intro e
      cases q with
      | nil => exact le_refl _
      | cons y q =>
        rw [pathCost]
        have h1 := ih (l ++ [x]) (by rw [e]; simp)
        have h2 : 0 ≤ m.w x y := by
          rw [feasible_arc_cost h hf hp e]
          unfold inputCost
          split
          · exact le_refl _
          · rename_i hne
            obtain ⟨z, h5, h6, h7⟩ := hw _ (hlt x (hf.1.lt p hp x (by rw [e]; simp))) _ (hlt y (hf.1.lt p hp y (by rw [e]; simp)))
            rw [h5] at hne ⊢
            have : z ≠ -1 := fun e => hne (Or.inr (by rw [e]; norm_num))
            have : (0 : ℤ) ≤ z := by omega
            exact_mod_cast this
        linarith
  exact key [] p rfl

/-- if the dependencies only say which agent visits a node, the initial upper bound is not negative -/
theorem initial_nonneg (h : WM.make rows rows w starts ends = .ok m) (hw : IntWeights rows w) (hn : m.n ≤ 2 ^ 70)
    (h0 : DepotDeps m.starts m.ends (DepIn m.n m.w))
    (ht : m.n ≤ t) {r : ResState} (hr : createInitialResult mode m t ResState.init = .ok (r, t')) : 0 ≤ r.upper := by
  have hW := WM.smallDeltas h hw
  have hlt : r.upper < dblMax := by
    rcases initial_cases h hw hn mode t with ⟨_, he⟩ | ⟨_, r', t1, he, _, _, _, hu, _⟩
    · rw [hr] at he; simp at he
    · rw [hr] at he
      simp only [Except.ok.injEq, Prod.mk.injEq] at he
      rw [he.1]; exact hu
  unfold createInitialResult at hr
  cases hni : nearestInsertion mode (fun _ => m.w) m.n m.starts m.ends m.deps t with
  | error e => rw [hni] at hr; simp at hr
  | ok x =>
    obtain ⟨⟨P0, obj⟩, t1⟩ := x
    rw [hni] at hr
    dsimp only at hr
    have hc := (C24_construction_covers h hW hni).1 ht
    have hgr := (C25_linked_nodes_together h hW hni ht).2
    have hA : 0 < P0.length := by rw [hc.len]; exact WM.starts_pos h
    have hc1 := C28_cover_preserved (mode := mode) (w := m.w) (deps := m.deps) (t := t1) hA hc
    have h29 := C29_improvement_exact (mode := mode) (w := m.w) (deps := m.deps) (t := t1) hA
    rw [(C21_paths_mapped_back h _ hc1.lt).1] at hr
    simp only [Except.ok.injEq, Prod.mk.injEq] at hr
    obtain ⟨hs, _⟩ := hr
    have hobj : obj = calcObjective mode P0 (fun _ => m.w) := by
      refine C27_agrees_with_objective h hW hni ht (Or.inr ⟨0, P0[0], List.getElem?_eq_getElem hA, ?_⟩)
      exact feasible_nonneg h hw (feasible_of_grouped (WM.inst h) hc hgr h0) (List.getElem_mem hA)
    have hle : obj - (twoOpt mode P0 m.w m.deps t1).1.2 < dblMax := by
      by_contra hcon
      rw [← hs, init_update_ge hcon] at hlt
      exact lt_irrefl _ hlt
    rw [← hs, (init_update_lt hle).1, h29.1, hobj]
    have e : calcObjective mode P0 (fun _ => m.w) - (calcObjective mode P0 (fun _ => m.w) -
        calcObjective mode (twoOpt mode P0 m.w m.deps t1).1.1 (fun _ => m.w)) =
        calcObjective mode (twoOpt mode P0 m.w m.deps t1).1.1 (fun _ => m.w) := by ring
    rw [e]
    exact objective_nonneg' (fun p hp => feasible_nonneg h hw (feasible_of_grouped (WM.inst h) hc1 (twoOpt_grouped h hc hgr) h0) hp)
      (isObjective_calc mode m.w _)

/-- every solution of the input is a feasible solution of the preprocessed instance of the same cost -/
theorem feasible_of_solution (h : WM.make rows rows w starts ends = .ok m) (hf : Apart m) {P : Paths}
    (hP : InputCover rows starts ends P) (hR : Respects (InputDep rows w) P) {c : ℚ} (hc : IsObjective mode (inputCost w) P c) :
    ∃ Q, Feasible m.n m.starts m.ends (DepIn m.n m.w) Q ∧ IsObjective mode m.w Q c := by
  obtain ⟨Q, hQ, rfl⟩ := cover_of_inputCover h hP
  have hfe : Feasible m.n m.starts m.ends (DepIn m.n m.w) Q := ⟨hQ, respects_of_input h hf hQ hR⟩
  exact ⟨Q, hfe, (C57_costs_refer_to_input h hfe c).2 hc⟩

end

section
variable {a : CArgs} {L : Lib} {t : Nat} {tr : List (Nat × Inp)}

/-- a call with a non-negative code comes from a search (or from none, because time was up) -/
theorem success_solve (hT : a.Typed) (hL : L.Correct) {c : ℤ} {o : COut} (h : a.Call L t tr (.ret c o)) (hc : 0 ≤ c) :
    a.Accepted ∧ a.InRange ∧ ∃ (S : Solver) (r : ResState), S.Made a.N a.weight a.startList a.endList a.opt t ∧ S.m.n ≤ t ∧ S.Solve L a.threads tr (.ok r) ∧
      o.lower = some r.lower ∧ o.upper = some r.upper ∧ Layout (shown a.startList a.endList r.paths) o ∧ c = if r.lower < r.upper then 1 else 0 := by
  obtain ⟨hA, hr, _⟩ := call_success hT hL h hc
  refine ⟨hA, hr, ?_⟩
  have hw := hT.intWeights hA.pointers.2.2.1
  have htry := h.try hA
  generalize hx : CEnd.ret c o = x at htry
  cases htry with
  | ctor e _ =>
    exfalso
    rcases caught_codes e with h | h | h | h <;> rw [h] at hx <;> simp at hx <;> omega
  | thrown S _ e _ _ =>
    exfalso
    rcases caught_codes e with h | h | h | h <;> rw [h] at hx <;> simp at hx <;> omega
  | terminated => simp at hx
  | solved S _ r hm hs =>
    have hS := Solver.make_ok hw hT.size hm
    by_cases ht : t < S.m.n
    · rw [report_short hA.agents hS ht hw hL hs] at hx; simp at hx
    · obtain ⟨o', h1, h2, h3, h4, h5⟩ := report_spec hS (not_lt.1 ht) hw hL hs
      rw [h1] at hx
      simp only [CEnd.ret.injEq] at hx
      obtain ⟨hx1, rfl⟩ := hx
      exact ⟨S, r, hS, not_lt.1 ht, hs, h2, h3, h5, hx1⟩

theorem calm_inp {S : Solver} (hS : S.Made a.N a.weight a.startList a.endList a.opt t) (hcalm : a.Calm L tr) (c : LPModel) :
    ∀ x ∈ tr, x.2.Calm (S.env L a.threads c) ((S.env L a.threads c).threads = 1) := by
  intro x hx
  obtain ⟨h1, h2, h3⟩ := hcalm x hx
  have hl : S.m.starts.length = a.A := by rw [(C18_own_starts_and_ends hS.make).2.2.1, a.startList_length]
  refine ⟨h1, h2, fun y rc he => ?_⟩
  rcases h3 with h3 | h3
  · left; show S.m.starts.length = 1; rw [hl, h3]
  · right
    intro k u v hk hu hv
    exact h3 S.m hS.make y rc he k u v (by rw [← hl]; exact hk) hu hv

/-- **C64**, bounds: after a calm search, whatever the code, the lower bound that is written does not exceed the cost of any
solution. -/
theorem C64_lower_bound_partial (hT : a.Typed) (hL : L.Correct) {c : ℤ} {o : COut}
    (h : a.Call L t tr (.ret c o)) (hc : 0 ≤ c) (hcalm : a.Calm L tr) :
    ∃ lo, o.lower = some lo ∧ ∀ P v, a.Solution P → a.Costs P v → lo ≤ v := by
  obtain ⟨hA, hr, S, r, hS, ht, hs, h1, h2, h3, h4⟩ := success_solve hT hL h hc
  have hw := hT.intWeights hA.pointers.2.2.1
  refine ⟨r.lower, h1, ?_⟩
  intro P v hP hv
  obtain ⟨Q, hQ, hQv⟩ := feasible_of_solution hS.make hS.free hP.1 hP.2 hv
  generalize ho : Outcome.ok r = oo at hs
  cases hs with
  | late h0 =>
    simp only [Outcome.ok.injEq] at ho
    rw [ho]
    show S.res.lower ≤ v
    rw [hS.lower]
    have hge : 0 ≤ v := by
      refine objective_nonneg ?_ hv
      have hlt : ∀ p ∈ P, ∀ x ∈ p, x < a.N := by
        obtain ⟨Q', hQ', rfl⟩ := cover_of_inputCover hS.make hP.1
        intro p hp x hx
        obtain ⟨q, hq, rfl⟩ := List.mem_map.1 hp
        obtain ⟨y, hy, rfl⟩ := List.mem_map.1 hx
        exact (C18_own_starts_and_ends hS.make).2.2.2.2.2.2.2.2.1 y (hQ'.lt q hq y hy)
      intro p hp u hu v hv
      unfold inputCost
      split
      · exact le_refl _
      · rename_i hne
        obtain ⟨z, h5, h6, h7⟩ := hw u (hlt p hp u hu) v (hlt p hp v hv)
        rw [h5] at hne ⊢
        have : z ≠ -1 := fun e => hne (Or.inr (by rw [e]; norm_num))
        have : (0 : ℤ) ≤ z := by omega
        exact_mod_cast this
    have := dblMax_pos
    linarith
  | refused => simp at ho
  | unfinished => simp at ho
  | failed => simp at ho
  | aborted => simp at ho
  | finished cc _ s late r' hpos hcc hrun hleft hlate hfin =>
    simp only [Outcome.ok.injEq] at ho
    subst ho
    obtain ⟨t', hr0, c', hc', hcols⟩ := hS.going hpos
    rw [hcc] at hc'
    simp only [Option.some.injEq] at hc'
    subst hc'
    have g := hS.good hw hL a.threads hcols
    have hr' : createInitialResult (S.env L a.threads cc).mode (S.env L a.threads cc).m t ResState.init = .ok (S.res, t') := by
      show createInitialResult S.mode S.m t ResState.init = .ok (S.res, t')
      rw [hS.mode_eq]; exact hr0
    have hlow : s.res.lower ≤ v := C42_lower_bound_partial g hr' hrun (calm_inp hS hcalm cc) (P := Q) hQ (by
      show IsObjective S.mode S.m.w Q v
      rw [hS.mode_eq]; exact hQv)
    unfold BState.finish at hfin
    split at hfin
    · cases late with
      | false => simp at hfin
      | true =>
        simp only [if_true, Except.ok.injEq] at hfin
        subst hfin
        exact hlow
    · simp only [Except.ok.injEq] at hfin
      subst hfin
      exact hlow

/-- grouped after preprocessing means grouped in terms of the input -/
theorem grouped_back {m : WM} {rows : Nat} {w : Weights} {starts ends : List Nat} (h : WM.make rows rows w starts ends = .ok m)
    (hnd : NoneDropped rows w starts ends) {Q : Paths} (hQ : IsCover m.n m.starts m.ends Q) (hg : Grouped (DepIn m.n m.w) Q) :
    Grouped (InputDep rows w) (Q.map (·.map m.orig)) := by
  obtain ⟨_, _, _, _, hmS, hmE, hr, hid, _, _⟩ := C18_own_starts_and_ends h
  intro u v hd
  have key : ∃ q ∈ Q, u ∈ q ∧ v ∈ q := by
    rcases dep_survives h hnd hd with h1 | ⟨h1, h2⟩
    · exact hg u v h1
    · have hQl : 0 < Q.length := by rw [hQ.len, h1]; simp
      have hp : Q[0]? = some Q[0] := List.getElem?_eq_getElem hQl
      have e1 := hQ.head 0 _ hp
      have e2 := hQ.last 0 _ hp
      rw [h1] at e1
      rw [h2] at e2
      exact ⟨Q[0], List.getElem_mem hQl, List.mem_of_head? e1, List.mem_of_getLast? e2⟩
  obtain ⟨q, hq, hqu, hqv⟩ := key
  refine ⟨q.map m.orig, List.mem_map_of_mem hq, ?_, ?_⟩
  · have := List.mem_map_of_mem (f := m.orig) hqu; rwa [hid u hd.1] at this
  · have := List.mem_map_of_mem (f := m.orig) hqv; rwa [hid v hd.2.1] at this

/-- **C64**, paths and costs: the paths that are written cover all nodes, and dependent nodes are on the same path
(unless a dependency is lost, C20); if the dependencies
only say which agent visits a node, they are all respected.  The upper bound that is written is the cost of the paths, if they respect all dependencies
(with "max", and if there are dependencies between inner nodes, provided the bound is not negative). -/
theorem C64_upper_bound_partial (hT : a.Typed) (hL : L.Correct) {c : ℤ} {o : COut}
    (h : a.Call L t tr (.ret c o)) (hc : 0 ≤ c) :
    ∃ up P, o.upper = some up ∧ InputCover a.N a.startList a.endList P ∧ Layout (shown a.startList a.endList P) o ∧
      (Respects a.Dep P → (a.opt = .sum ∨ 0 ≤ up ∨ OnlyDepotDeps a.N a.weight a.startList a.endList) → a.Costs P up) ∧
      (NoneDropped a.N a.weight a.startList a.endList → Grouped a.Dep P) ∧ (OnlyDepotDeps a.N a.weight a.startList a.endList → Respects a.Dep P) := by
  obtain ⟨hA, hr, S, r, hS, ht, hs, h1, h2, h3, h4⟩ := success_solve hT hL h hc
  have hw := hT.intWeights hA.pointers.2.2.1
  have hn := (WM.size_le hS.make).trans hT.size
  -- the bound is backed by a cover with the written paths
  have hb : ∃ Q, IsCover S.m.n S.m.starts S.m.ends Q ∧ r.paths = Q.map (·.map S.m.orig) ∧ Grouped (DepIn S.m.n S.m.w) Q ∧
      (a.opt = .sum ∨ 0 ≤ r.upper ∨ OnlyDepotDeps a.N a.weight a.startList a.endList → IsObjective a.opt S.m.w Q r.upper) := by
    have hW := WM.smallDeltas hS.make hw
    have hnn : ∀ (t' : Nat) (r0 : ResState), createInitialResult a.opt S.m t ResState.init = .ok (r0, t') → r0.upper = r.upper →
        (a.opt = .sum ∨ 0 ≤ r.upper ∨ OnlyDepotDeps a.N a.weight a.startList a.endList) → a.opt = .sum ∨ 0 ≤ r0.upper := by
      intro t' r0 he e h
      rcases h with h | h | h
      · exact Or.inl h
      · right; rw [e]; exact h
      · exact Or.inr (initial_nonneg hS.make hw hn (h.depotDeps hS.make) ht he)
    generalize ho : Outcome.ok r = oo at hs
    cases hs with
    | late h0 =>
      simp only [Outcome.ok.injEq] at ho
      have hu : r.upper = S.res.upper := by rw [ho]; rfl
      have hpp : r.paths = S.res.paths := by rw [ho]; rfl
      obtain ⟨t', r0, hc0, e1, e2⟩ := hS.initial
      obtain ⟨P, p1, p2, p3, p4⟩ := C32_initial_bound_backed_partial hS.make hW hc0 ht (by rw [← e2]; exact hS.upper.2)
      refine ⟨P, p1, by rw [hpp, e1]; exact p2, p3, fun h => ?_⟩
      rw [hu, e2]
      exact p4 (hnn t' r0 hc0 (by rw [hu, e2]) h)
    | refused => simp at ho
    | unfinished => simp at ho
    | failed => simp at ho
    | aborted => simp at ho
    | finished cc _ s late r' hpos' hcc hrun hleft hlate hfin =>
      simp only [Outcome.ok.injEq] at ho
      subst ho
      obtain ⟨t', hr0, c', hc', hcols⟩ := hS.going hpos'
      rw [hcc] at hc'
      simp only [Option.some.injEq] at hc'
      subst hc'
      have g := hS.good hw hL a.threads hcols
      have hr' : createInitialResult (S.env L a.threads cc).mode (S.env L a.threads cc).m t ResState.init = .ok (S.res, t') := by
        show createInitialResult S.mode S.m t ResState.init = .ok (S.res, t')
        rw [hS.mode_eq]; exact hr0
      have hu : r.upper = s.res.upper ∧ r.paths = s.res.paths := by
        unfold BState.finish at hfin
        split at hfin
        · cases late with
          | false => simp at hfin
          | true =>
            simp only [if_true, Except.ok.injEq] at hfin
            rw [← hfin]; exact ⟨rfl, rfl⟩
        · simp only [Except.ok.injEq] at hfin
          rw [← hfin]; exact ⟨rfl, rfl⟩
      rcases (run_result g hr' hrun).2 with ⟨e1, e2⟩ | ⟨_, Q, q1, q2, q3, q4⟩
      · obtain ⟨P, p1, p2, p3, p4⟩ := C32_initial_bound_backed_partial hS.make hW hr0 ht hS.upper.2
        refine ⟨P, p1, by rw [hu.2, e1]; exact p2, p3, fun h => ?_⟩
        rw [hu.1, e2]
        exact p4 (hnn t' _ hr0 (by rw [hu.1, e2]) h)
      · refine ⟨Q, q1, by rw [hu.2]; exact q2, q4, fun _ => ?_⟩
        have : IsObjective S.mode S.m.w Q s.res.upper := q3
        rw [hu.1]
        rwa [hS.mode_eq] at this
  obtain ⟨Q, hQ, hrp, hgr, hobj⟩ := hb
  refine ⟨r.upper, r.paths, h2, by rw [hrp]; exact inputCover_of_cover hS.make hQ, h3, ?_, ?_, ?_⟩
  · intro hR hpos
    rw [hrp] at hR
    have hfe : Feasible S.m.n S.m.starts S.m.ends (DepIn S.m.n S.m.w) Q := ⟨hQ, respects_of_input hS.make hS.free hQ hR⟩
    show IsObjective a.opt (inputCost a.weight) r.paths r.upper
    rw [hrp]
    exact (C57_costs_refer_to_input hS.make hfe _).1 (hobj hpos)
  · intro hnd; rw [hrp]; exact grouped_back hS.make hnd hQ hgr
  · intro hd
    rw [hrp]
    exact respects_input hS.make hd.2 hQ (feasible_of_grouped (WM.inst hS.make) hQ hgr (hd.depotDeps hS.make)).2

/-- **C64 (partial), end to end.** If the C function returns SOLVED after a calm search on an input whose dependencies (if any) only say
which agent visits a node, the paths in the output are an optimal solution, and both bounds are its cost. -/
theorem C64_solved_is_optimal_partial (hT : a.Typed) (hL : L.Correct) (hd : OnlyDepotDeps a.N a.weight a.startList a.endList) {o : COut}
    (h : a.Call L t tr (.ret 0 o)) (hcalm : a.Calm L tr) :
    ∃ P v, a.Solution P ∧ a.Costs P v ∧ (∀ P' v', a.Solution P' → a.Costs P' v' → v ≤ v') ∧
      o.lower = some v ∧ o.upper = some v ∧ Layout (shown a.startList a.endList P) o := by
  obtain ⟨up, P, e1, e2, e3, e4, _, e5⟩ := C64_upper_bound_partial hT hL h (le_refl _)
  obtain ⟨lo, f1, f2⟩ := C64_lower_bound_partial hT hL h (le_refl _) hcalm
  rcases C46_codes hT hL h with ⟨h1, _⟩ | ⟨lo', up', g1, g2, g3, _, g4⟩
  · simp at h1
  · rw [f1] at g1
    rw [e1] at g2
    simp only [Option.some.injEq] at g1 g2
    subst g1 g2
    have : lo = up := le_antisymm g3 (g4.1 rfl)
    subst this
    exact ⟨P, lo, ⟨e2, e5 hd⟩, e4 (e5 hd) (Or.inr (Or.inr hd)), f2, f1, e1, e3⟩

/-- The hypotheses are met by a concrete call. -/
example : ∃ o tr, c47Args.Call exLib 100 tr (.ret 0 o) ∧ c47Args.Calm exLib tr ∧ (∀ u v, ¬ c47Args.Dep u v) ∧ o.upper = some 0 := by
  obtain ⟨tr, x, h1, h2, h3⟩ := callB_sound (a := c47Args) (L := exLib) (t := 100) (script := idle 3) (late := false) (p := isRet 0 0 0 [0, 1, 2] [0])
    (by decide +kernel)
  obtain ⟨o, rfl, _, hu, _⟩ := isRet_ret h2
  refine ⟨o, tr, h1, ?_, ?_, hu⟩
  · intro i hi
    obtain ⟨e1, e2, _⟩ := h3 rfl i hi
    exact ⟨e2, Or.inl e1, Or.inl rfl⟩
  · rintro u v ⟨hu, hv, _, hw⟩
    have key : ∀ u < c47Args.N, ∀ v < c47Args.N, c47Args.weight v u ≠ -1 := by decide +kernel
    exact key u hu v hv hw

/-- two agents; node 4 costs nothing on either way, but the dependency of node 4 on the start 1 says that the second agent visits it -/
def c64dArgs : CArgs := exArgs 2 5 [0, 1] [2, 3] [[0, 5, 0, 5, 0], [5, 0, 5, 0, 0], [5, 5, 0, 5, 5], [5, 5, 5, 0, 5], [5, -1, 0, 0, 0]] 0

/-- a concrete call with such a dependency -/
example : ∃ o tr, c64dArgs.Typed ∧ c64dArgs.Call exLib 100 tr (.ret 0 o) ∧ c64dArgs.Calm exLib tr ∧
    OnlyDepotDeps c64dArgs.N c64dArgs.weight c64dArgs.startList c64dArgs.endList ∧ c64dArgs.Dep 1 4 ∧
    (List.range 5).map o.paths = [some 0, some 2, some 1, some 4, some 3] := by
  obtain ⟨tr, x, h1, h2, h3, _, h4, _⟩ := callB_full (a := c64dArgs) (L := exLib) (t := 100) (script := idle 3) (late := false)
    (p := isRet 0 0 0 [0, 2, 1, 4, 3] [0, 2]) (by decide +kernel)
  obtain ⟨o, rfl, _, _, hp, _⟩ := isRet_ret h2
  have hdep : ∀ u < c64dArgs.N, ∀ v < c64dArgs.N, c64dArgs.weight v u = -1 → u = 1 ∧ v = 4 := by decide +kernel
  refine ⟨o, tr, exArgs_typed (by decide) (by decide) (by decide), h1, ?_, ?_, ⟨by decide, by decide, by decide, by decide +kernel⟩, ?_⟩
  · intro i hi
    obtain ⟨e1, e2, _⟩ := h3 rfl i hi
    refine ⟨e2, Or.inl e1, Or.inr ?_⟩
    intro m _ y rc he
    obtain ⟨z, hz, m, hzm⟩ := h4 i hi y rc he
    simp only [idle, List.mem_replicate] at hz
    rw [hz.2] at hzm
    simp at hzm
  · refine ⟨?_, ?_⟩
    · rintro u v ⟨hu, hv, _, hw⟩
      obtain ⟨rfl, rfl⟩ := hdep u hu v hv hw
      exact Or.inl (by decide +kernel)
    · rintro u v b ⟨hu, hv, _, hw⟩ hb
      obtain ⟨rfl, rfl⟩ := hdep u hu v hv hw
      exact absurd (List.mem_of_getElem? hb) (by decide +kernel)
  · have k := fun i hi => hp i (show i < 5 from hi)
    simp [List.range_succ, k]

end
end Mtsp
