import Verif.Model.InitialResult
import Verif.Props.TwoOpt
import Verif.Proof.Tour

/-! C32: the initial upper bound.  C57: costs refer to the input weights.  C58: heuristic solutions found
during the search. -/

namespace Mtsp

variable {rows cols : Nat} {w : Weights} {starts ends : List Nat} {m : WM} {mode : Mode} {t t' : Nat}

/-- the objective of a set of paths, without reference to the code -/
def IsObjective (mode : Mode) (w : Weights) (P : Paths) (v : ℚ) : Prop :=
  match mode with
  | .sum => v = sumCost (fun _ => w) P
  | .max => IsMaxCost (fun _ => w) P v

theorem isObjective_calc (mode : Mode) (w : Weights) (P : Paths) : IsObjective mode w P (calcObjective mode P fun _ => w) := by
  cases mode with
  | sum => exact C23_sum_objective P _
  | max => exact C23_max_objective P _

theorem WM.starts_pos (h : WM.make rows cols w starts ends = .ok m) : 0 < m.starts.length := by
  have s := (WM.make_ok h).1
  have := s.pos
  rw [← s.mapS] at this; simpa using this

theorem init_update_lt {v : ℚ} {p : Paths} (hv : v < dblMax) :
    (ResState.init.updateUpperBound v p).1.upper = v ∧ (ResState.init.updateUpperBound v p).1.paths = p := by
  have : v < ResState.init.upper := hv
  simp [ResState.updateUpperBound, this]

theorem init_update_ge {v : ℚ} {p : Paths} (hv : ¬ v < dblMax) :
    (ResState.init.updateUpperBound v p).1 = ResState.init := by
  have : ¬ v < ResState.init.upper := hv
  simp [ResState.updateUpperBound, this]

theorem mem_split_unique {n : Nat} {starts ends : List Nat} {P : Paths} (h : IsCover n starts ends P) {p q : List Nat} {x : Nat}
    (hp : p ∈ P) (hq : q ∈ P) (hx : x ∈ p) (hx' : x ∈ q) : p = q := by
  have hn : P.flatten.Nodup := h.perm.nodup_iff.2 List.nodup_range
  obtain ⟨a, ha⟩ := List.mem_iff_getElem?.1 hp
  obtain ⟨b, hb⟩ := List.mem_iff_getElem?.1 hq
  obtain ⟨hal, hae⟩ := List.getElem?_eq_some_iff.1 ha
  obtain ⟨hbl, hbe⟩ := List.getElem?_eq_some_iff.1 hb
  have hpw := List.pairwise_iff_getElem.1 (List.nodup_flatten.1 hn).2
  rcases Nat.lt_trichotomy a b with hab | hab | hab
  · exact absurd (hbe ▸ hx') (hpw a b hal hbl hab (hae ▸ hx))
  · subst hab; rw [ha] at hb; simpa using hb
  · exact absurd (hae ▸ hx) (hpw b a hbl hal hab (hbe ▸ hx'))

theorem feasible_of_grouped {N : Nat} {D : Nat → Nat → Prop} {P : Paths} (hi : Inst N starts ends D) (hc : IsCover N starts ends P)
    (hg : Grouped D P) (hd : DepotDeps starts ends D) : Feasible N starts ends D P := by
  refine ⟨hc, ?_⟩
  intro u v huv
  obtain ⟨p, hp, hu, hv⟩ := hg u v huv
  have hne : u ≠ v := by rintro rfl; exact hi.acyclic u (.single huv)
  obtain ⟨a, ha⟩ := List.mem_iff_getElem?.1 hp
  have haA : a < starts.length := hc.len ▸ (List.getElem?_eq_some_iff.1 ha).1
  refine ⟨p, hp, ?_⟩
  have uniq : ∀ {b : Nat} {q : List Nat} {x : Nat}, P[b]? = some q → x ∈ q → x ∈ p → q = p := fun hb hxq hxp =>
    mem_split_unique hc (List.mem_of_getElem? hb) hp hxq hxp
  rcases hd u v huv with h | h
  · obtain ⟨b, hb⟩ := List.mem_iff_getElem?.1 h
    have hbP : b < P.length := by rw [hc.len]; exact (List.getElem?_eq_some_iff.1 hb).1
    have hq := List.getElem?_eq_getElem hbP
    have hh := (hc.head b _ hq).trans hb
    have := uniq hq (List.mem_of_head? hh) hu
    rw [this] at hh
    cases p with
    | nil => simp at hu
    | cons x p =>
      simp only [List.head?_cons, Option.some.injEq] at hh
      subst hh
      rcases List.mem_cons.1 hv with e | e
      · exact absurd e.symm hne
      · exact before_cons e
  · obtain ⟨b, hb⟩ := List.mem_iff_getElem?.1 h
    have hbP : b < P.length := by rw [hc.len, hi.lenEq]; exact (List.getElem?_eq_some_iff.1 hb).1
    have hq := List.getElem?_eq_getElem hbP
    have hh := (hc.last b _ hq).trans hb
    have := uniq hq (List.mem_of_getLast? hh) hv
    rw [this] at hh
    obtain ⟨r, rfl⟩ := List.getLast?_eq_some_iff.1 hh
    rcases List.mem_append.1 hu with e | e
    · exact before_snoc e
    · exact absurd (List.mem_singleton.1 e) hne

theorem Respects.grouped {D : Nat → Nat → Prop} {P : Paths} (h : Respects D P) : Grouped D P := by
  intro u v huv
  obtain ⟨p, hp, l1, l2, l3, rfl⟩ := h u v huv
  exact ⟨_, hp, by simp, by simp⟩

/-- the improvement heuristic applied to grouped paths of an accepted instance -/
theorem twoOpt_grouped (h : WM.make rows cols w starts ends = .ok m) {P : Paths} (hc : IsCover m.n m.starts m.ends P)
    (hg : Grouped (DepIn m.n m.w) P) : Grouped (DepIn m.n m.w) (twoOpt mode P m.w m.deps t).1.1 := by
  have hd : m.deps = DepGraph.make m.n m.w := (WM.make_ok h).1.deps
  rw [hd]
  exact twoOpt_keeps_groups (by rw [hc.len]; exact WM.starts_pos h) (depsAre_make m.n m.w)
    (fun x hx => List.mem_range.1 (hc.perm.mem_iff.1 hx)) hg

/-- **C32 (partial).** If the deadline does not fall inside the construction heuristic (it makes one check
per node), the stored upper bound is the objective of the stored paths: they are the mapped-back paths of
a cover, and the bound is their total respectively largest length; dependent nodes are on the same path.  Max mode: provided the bound is not
negative (it is not if no weight on the paths is). -/
theorem C32_initial_bound_backed_partial (h : WM.make rows cols w starts ends = .ok m)
    (hW : SmallDeltas m.starts.length m.n (fun _ => m.w)) {s : ResState}
    (hr : createInitialResult mode m t ResState.init = .ok (s, t')) (ht : m.n ≤ t) (hub : s.upper < dblMax) :
    ∃ P, IsCover m.n m.starts m.ends P ∧ s.paths = P.map (·.map m.orig) ∧ Grouped (DepIn m.n m.w) P ∧
      (mode = .sum ∨ 0 ≤ s.upper → IsObjective mode m.w P s.upper) := by
  unfold createInitialResult at hr
  cases hn : nearestInsertion mode (fun _ => m.w) m.n m.starts m.ends m.deps t with
  | error e => rw [hn] at hr; simp at hr
  | ok x =>
    obtain ⟨⟨P0, obj⟩, t1⟩ := x
    rw [hn] at hr
    dsimp only at hr
    have hc := (C24_construction_covers h hW hn).1 ht
    have hA : 0 < P0.length := by rw [hc.len]; exact WM.starts_pos h
    have hc1 := C28_cover_preserved (mode := mode) (w := m.w) (deps := m.deps) (t := t1) hA hc
    have h29 := C29_improvement_exact (mode := mode) (w := m.w) (deps := m.deps) (t := t1) hA
    have hback := (C21_paths_mapped_back h _ hc1.lt).1
    rw [hback] at hr
    simp only [Except.ok.injEq, Prod.mk.injEq] at hr
    obtain ⟨hs, _⟩ := hr
    refine ⟨_, hc1, ?_⟩
    have hlt : obj - (twoOpt mode P0 m.w m.deps t1).1.2 < dblMax := by
      by_contra hcon
      rw [← hs, init_update_ge hcon] at hub
      exact lt_irrefl _ hub
    have hs' : s.upper = obj - (twoOpt mode P0 m.w m.deps t1).1.2 ∧
        s.paths = (twoOpt mode P0 m.w m.deps t1).1.1.map (·.map m.orig) := by
      rw [← hs]; exact init_update_lt hlt
    refine ⟨hs'.2, twoOpt_grouped h hc (C25_linked_nodes_together h hW hn ht).2, fun hpos => ?_⟩
    have hobj : obj = calcObjective mode P0 (fun _ => m.w) := by
      refine C27_agrees_with_objective h hW hn ht ?_
      rcases hpos with hp | hp
      · exact Or.inl hp
      · cases mode with
        | sum => exact Or.inl rfl
        | max =>
          right
          have h27 := C27_reported_objective h hW hn ht
          dsimp only at h27
          obtain ⟨⟨a, p, hp', e⟩, _⟩ := h27
          refine ⟨a, p, hp', ?_⟩
          rw [← e]
          have := h29.2
          rw [hs'.1] at hp
          linarith
    rw [hs'.1, h29.1, hobj]
    have : calcObjective mode P0 (fun _ => m.w) - (calcObjective mode P0 (fun _ => m.w) -
        calcObjective mode (twoOpt mode P0 m.w m.deps t1).1.1 (fun _ => m.w)) =
        calcObjective mode (twoOpt mode P0 m.w m.deps t1).1.1 (fun _ => m.w) := by ring
    rw [this]
    exact isObjective_calc mode m.w _

/-- What happens otherwise: no paths, and the upper bound 0. -/
theorem C32_timeout (h : WM.make rows cols w starts ends = .ok m)
    (hW : SmallDeltas m.starts.length m.n (fun _ => m.w)) {s : ResState}
    (hr : createInitialResult mode m t ResState.init = .ok (s, t')) (ht : t < m.n) : s.paths = [] ∧ s.upper = 0 := by
  unfold createInitialResult at hr
  rcases ni_outcome (mode := mode) h hW t with ⟨he, _⟩ | ⟨_, h1, _⟩
  · rw [he] at hr; simp at hr
  rw [h1 ht] at hr
  dsimp only at hr
  have e : twoOpt mode [] m.w m.deps 0 = (([], 0), 0) := rfl
  rw [e] at hr
  simp only [WM.transformPathsBack, List.mapM_nil] at hr
  have h0 : (0 : ℚ) < dblMax := lt_trans one_pos one_lt_dblMax
  simp only [pure, Except.pure, Except.ok.injEq, Prod.mk.injEq, ResState.updateUpperBound, ResState.init, sub_zero, h0, if_true] at hr
  obtain ⟨rfl, _⟩ := hr
  exact ⟨rfl, rfl⟩

/-- **C32 is false in full**: with the deadline inside the construction the upper bound is 0 without
paths, although every solution costs more. -/
theorem C32_refuted : ∃ (rows : Nat) (w : Weights) (starts ends : List Nat) (m : WM) (s : ResState) (t t' : Nat),
    WM.make rows rows w starts ends = .ok m ∧ createInitialResult .sum m t ResState.init = .ok (s, t') ∧
    s.paths = [] ∧ s.upper = 0 ∧ ∀ P, IsCover m.n m.starts m.ends P → 0 < sumCost (fun _ => m.w) P := by
  have key : testOk (WM.make 2 2 (fun _ _ => 1) [0] [1]) (fun m =>
      decide (m.n = 2 ∧ m.starts = [0] ∧ m.ends = [1] ∧ m.w 0 1 = 1) &&
      testOk (createInitialResult .sum m 1 ResState.init)
        (fun r => decide (r.1.paths = [] ∧ r.1.upper = 0))) = true := by decide +kernel
  obtain ⟨m, hm, k⟩ := testOk_iff key
  rw [Bool.and_eq_true] at k
  obtain ⟨hn, hs, he, hw⟩ := of_decide_eq_true k.1
  obtain ⟨⟨s, t'⟩, hr, k3⟩ := testOk_iff k.2
  obtain ⟨k4, k5⟩ := of_decide_eq_true k3
  refine ⟨2, fun _ _ => 1, [0], [1], m, s, 1, t', hm, hr, k4, k5, ?_⟩
  intro P hP
  have hl : P.length = 1 := by rw [hP.len, hs]; rfl
  obtain ⟨p, rfl⟩ := List.length_eq_one_iff.1 hl
  have hh := hP.head 0 p rfl
  have hla := hP.last 0 p rfl
  have hp := hP.perm
  rw [hs] at hh; rw [he] at hla; rw [hn] at hp
  have hlen := hp.length_eq
  simp at hlen hh hla
  match p, hlen, hh, hla with
  | [x, y], _, hh, hla =>
    simp at hh hla
    subst hh hla
    simp [sumCost, pathCost, hw]

/-! ### C57 -/

/-- what an arc costs, in terms of the input: nothing from a node to itself and nothing where the input
has a dependency flag instead of a weight -/
def inputCost (w : Weights) (u v : Nat) : ℚ := if u = v ∨ w u v = -1 then 0 else w u v

theorem pathCost_map_of (c c' : Weights) (f : Nat → Nat) (p : List Nat)
    (h : ∀ l1 u v l2, p = l1 ++ u :: v :: l2 → c u v = c' (f u) (f v)) : pathCost c p = pathCost c' (p.map f) := by
  induction p with
  | nil => rfl
  | cons a p ih =>
    cases p with
    | nil => rfl
    | cons b p =>
      simp only [List.map_cons] at ih ⊢
      rw [pathCost_cons_cons, pathCost_cons_cons, h [] a b p rfl]
      congr 1
      exact ih fun l1 u v l2 e => h (a :: l1) u v l2 (by rw [e]; rfl)

/-- an arc on a path of a feasible solution costs what the input says -/
theorem feasible_arc_cost (h : WM.make rows cols w starts ends = .ok m) {P : Paths}
    (hf : Feasible m.n m.starts m.ends (DepIn m.n m.w) P) {p : List Nat} (hp : p ∈ P) {l1 : List Nat} {u v : Nat} {l2 : List Nat}
    (he : p = l1 ++ u :: v :: l2) : m.w u v = inputCost w (m.orig u) (m.orig v) := by
  obtain ⟨hc, hd⟩ := hf
  have hu : u ∈ p := by rw [he]; simp
  have hv : v ∈ p := by rw [he]; simp
  have hun := hc.lt p hp u hu
  have hvn := hc.lt p hp v hv
  have hb : Before p u v := ⟨l1, [], l2, by rw [he]; simp⟩
  have hnd := hc.nodup hp
  unfold inputCost
  rcases C19_weights_mirror_input h u v hun hvn with ⟨h1, _⟩ | ⟨h1, h2⟩ | ⟨h1, h2, h3⟩
  · -- a reversed dependency
    obtain ⟨q, hq, hb'⟩ := hd v u ⟨hvn, hun, h1⟩
    have hvq : v ∈ q := by obtain ⟨a, b, c, rfl⟩ := hb'; simp
    have := mem_split_unique hc hp hq hv hvq
    subst this
    exact absurd hb' (hb.asymm hnd)
  · rw [h1]
    rcases h2 with ⟨a, ha, e1, _⟩ | h2 | ⟨h2, _⟩
    · -- artificial: `u` is the last node of its path
      have hal : a < P.length := by rw [hc.len]; exact ha
      have hq := getElem?_of_getD hal
      have hlast := hc.last a _ hq
      rw [e1] at hlast
      have hq' : P.getD a [] ∈ P := List.mem_of_getElem? hq
      have := mem_split_unique hc hp hq' hu (List.mem_of_getLast? hlast)
      rw [← this] at hlast
      have hb2 : ¬ (u ∈ v :: l2) := by
        have := hnd
        rw [he] at this
        exact (List.nodup_cons.1 (List.nodup_append.1 this).2.1).1
      rw [he, List.getLast?_append, List.getLast?_cons_cons] at hlast
      simp only [Option.or_eq_some_iff] at hlast
      rcases hlast with hl | ⟨hl, _⟩
      · exact absurd (List.mem_of_getLast? hl) hb2
      · simp at hl
    · simp [h2]
    · simp [h2]
  · rw [h1, if_neg]; rintro (h' | h')
    · exact h2 h'
    · exact h3 h'

/-- **C57.** The objective of a feasible solution of the preprocessed instance is the objective of the
mapped-back paths under the input weights. -/
theorem C57_costs_refer_to_input (h : WM.make rows cols w starts ends = .ok m) {P : Paths}
    (hf : Feasible m.n m.starts m.ends (DepIn m.n m.w) P) (v : ℚ) :
    IsObjective mode m.w P v ↔ IsObjective mode (inputCost w) (P.map (·.map m.orig)) v := by
  have hp : ∀ p ∈ P, pathCost m.w p = pathCost (inputCost w) (p.map m.orig) := fun p hp =>
    pathCost_map_of _ _ _ _ fun l1 u v l2 he => feasible_arc_cost h hf hp he
  cases mode with
  | sum =>
    simp only [IsObjective]
    have : sumCost (fun _ => m.w) P = sumCost (fun _ => inputCost w) (P.map (·.map m.orig)) := by
      unfold sumCost
      congr 1
      apply List.ext_getElem
      · simp
      · intro i h1 h2
        simp at h1 h2 ⊢
        exact hp _ (List.getElem_mem _)
    rw [this]
  | max =>
    simp only [IsObjective, IsMaxCost]
    refine and_congr_right fun _ => and_congr ?_ (or_congr_right ?_)
    · constructor
      · intro hh a q hq
        rw [List.getElem?_map] at hq
        obtain ⟨p, hpq, rfl⟩ := Option.map_eq_some_iff.1 hq
        rw [← hp p (List.mem_of_getElem? hpq)]; exact hh a p hpq
      · intro hh a p hpa
        rw [hp p (List.mem_of_getElem? hpa)]
        exact hh a _ (by rw [List.getElem?_map, hpa]; rfl)
    · constructor
      · rintro ⟨a, p, hpa, e⟩
        exact ⟨a, _, by rw [List.getElem?_map, hpa]; rfl, by rw [← hp p (List.mem_of_getElem? hpa)]; exact e⟩
      · rintro ⟨a, q, hq, e⟩
        rw [List.getElem?_map] at hq
        obtain ⟨p, hpq, rfl⟩ := Option.map_eq_some_iff.1 hq
        exact ⟨a, p, hpq, by rw [hp p (List.mem_of_getElem? hpq)]; exact e⟩

/-! ### C58 -/

/-- **C58.** A solution that the heuristics find during the search is a cover by paths, one per agent from
its start to its end, and the submitted bound is exactly its objective. -/
theorem C58_search_heuristic_backed (h : WM.make rows cols w starts ends = .ok m) {x : Tensor3}
    (hW : SmallDeltas m.starts.length m.n (fun a i j => (1 - x a i j) * m.w i j)) {v : ℚ} {q : Paths}
    (hr : exploitCandidate mode m x t = .ok (some (v, q), t')) :
    ∃ P, IsCover m.n m.starts m.ends P ∧ q = P.map (·.map m.orig) ∧ IsObjective mode m.w P v ∧ Grouped (DepIn m.n m.w) P := by
  unfold exploitCandidate exploitFractionalSolution at hr
  cases hn : nearestInsertion mode (fun a i j => (1 - x a i j) * m.w i j) m.n m.starts m.ends m.deps t with
  | error e => rw [hn] at hr; simp at hr
  | ok y =>
    obtain ⟨⟨P0, obj⟩, t1⟩ := y
    rw [hn] at hr
    dsimp only at hr
    have h24 := C24_construction_covers h hW hn
    split at hr
    · simp at hr
    next hne =>
    have ht : m.n ≤ t := by
      by_contra hc
      rw [(h24.2 (by omega)).1] at hne; simp at hne
    have hc := h24.1 ht
    have hA : 0 < P0.length := by rw [hc.len]; exact WM.starts_pos h
    have hc1 := C28_cover_preserved (mode := mode) (w := m.w) (deps := m.deps) (t := t1) hA hc
    rw [(C21_paths_mapped_back h _ hc1.lt).1] at hr
    simp only [Except.ok.injEq, Prod.mk.injEq, Option.some.injEq] at hr
    obtain ⟨⟨rfl, rfl⟩, _⟩ := hr
    exact ⟨_, hc1, rfl, isObjective_calc mode m.w _, twoOpt_grouped h hc (C25_linked_nodes_together h hW hn ht).2⟩

/-! Non-vacuity: the instance of `niExW` (two agents, shared depot, dependencies). -/

example : testOk (WM.make 6 6 niExW [0, 0] [0, 4]) (fun m =>
    testOk (createInitialResult .max m 20 ResState.init) (fun r =>
      decide (r.1.paths = [[0, 3, 1, 5, 0], [0, 2, 4]] ∧ r.1.upper = 27 ∧ m.n ≤ 20))) = true := by decide +kernel

example : testOk (WM.make 6 6 niExW [0, 0] [0, 4]) (fun m =>
    testOk (exploitCandidate .sum m (fun _ u v => if u < v then 1 else 0) 20) (fun r =>
      match r.1 with
      | some (v, q) => decide (q.length = 2 ∧ v > 0)
      | none => false)) = true := by decide +kernel

end Mtsp
