import Verif.Proof.LPObj
import Verif.Props.InitialResult

/-! C33: the LP admits every feasible solution.  C34: its objective is the true cost.  C36: reading the
paths off the point.  C53: variable numbering. -/

namespace Mtsp
open Finset Relation

variable {rows cols : Nat} {w : Weights} {starts ends : List Nat} {m : WM} {mode : Mode} {P : Paths} {x : Nat → ℚ}

/-! ### Boolean test of feasibility, for the examples only -/

def beforeB (p : List Nat) (u v : Nat) : Bool := decide (u ∈ p ∧ v ∈ p ∧ p.idxOf u < p.idxOf v)

def feasB (m : WM) (P : Paths) : Bool :=
  decide (P.length = m.starts.length) && (List.range P.length).all (fun a =>
    decide ((P.getD a []).head? = m.starts[a]?) && decide ((P.getD a []).getLast? = m.ends[a]?)) &&
  P.flatten.isPerm (List.range m.n) &&
  (List.range m.n).all (fun u => (List.range m.n).all fun v =>
    !decide (m.w v u = -1) || P.any fun p => beforeB p u v)

theorem feasB_sound (h : feasB m P = true) : Feasible m.n m.starts m.ends (DepIn m.n m.w) P := by
  simp only [feasB, Bool.and_eq_true, List.all_eq_true, List.mem_range, decide_eq_true_eq, Bool.or_eq_true,
    Bool.not_eq_true', decide_eq_false_iff_not] at h
  obtain ⟨⟨⟨h1, h2⟩, h3⟩, h4⟩ := h
  have hg : ∀ (a : Nat) (p : List Nat), P[a]? = some p → a < P.length ∧ P.getD a [] = p := by
    intro a p hp
    refine ⟨(List.getElem?_eq_some_iff.1 hp).1, ?_⟩
    rw [List.getD_eq_getElem?_getD, hp]; rfl
  have hc : IsCover m.n m.starts m.ends P := by
    refine ⟨h1, ?_, ?_, List.isPerm_iff.1 h3⟩
    · intro a p hp
      obtain ⟨ha, e⟩ := hg a p hp
      rw [← e]; exact (h2 a ha).1
    · intro a p hp
      obtain ⟨ha, e⟩ := hg a p hp
      rw [← e]; exact (h2 a ha).2
  refine ⟨hc, ?_⟩
  rintro u v ⟨hu, hv, e⟩
  rcases h4 u hu v hv with h | h
  · exact absurd e h
  · obtain ⟨p, hp, hb⟩ := List.any_eq_true.1 h
    refine ⟨p, hp, (before_iff_idxOf (hc.nodup hp) u v).2 (of_decide_eq_true hb)⟩

open Classical in
/-- the point of a set of paths -/
noncomputable def pointOf (N : Nat) (starts ends : List Nat) (P : Paths) : Nat → ℚ := fun i =>
  if Uses starts ends P (i / N / N) (i / N % N) (i % N) then 1 else 0

theorem varId_decode {N a u v : Nat} (hu : u < N) (hv : v < N) :
    varId N a u v / N / N = a ∧ varId N a u v / N % N = u ∧ varId N a u v % N = v := by
  have hN : 0 < N := by omega
  have e : varId N a u v = v + N * (u + N * a) := by unfold varId; ring
  have h1 : varId N a u v / N = u + N * a := by rw [e, Nat.add_mul_div_left _ _ hN, Nat.div_eq_of_lt hv, zero_add]
  refine ⟨?_, ?_, ?_⟩
  · rw [h1, Nat.add_mul_div_left _ _ hN, Nat.div_eq_of_lt hu, zero_add]
  · rw [h1, Nat.add_mul_mod_self_left, Nat.mod_eq_of_lt hu]
  · rw [e, Nat.add_mul_mod_self_left, Nat.mod_eq_of_lt hv]

/-- the point exists -/
theorem pointOf_isPoint (N : Nat) (starts ends : List Nat) (P : Paths) : IsPoint N starts ends P (pointOf N starts ends P) := by
  intro a u v _ hu hv
  obtain ⟨h1, h2, h3⟩ := varId_decode (a := a) hu hv
  have e : a * N * N + u * N + v = varId N a u v := rfl
  constructor
  · intro h; unfold pointOf; rw [e, h1, h2, h3, if_pos h]
  · intro h; unfold pointOf; rw [e, h1, h2, h3, if_neg h]

/-! ### C33 -/

/-- **C33 (partial).** If the preprocessed instance has at least three nodes, the 0/1 point of every
feasible solution satisfies every row of the initial LP.  Missing: instances with two nodes, where it is
false (`C33_refuted`). -/
theorem C33_lp_admits_feasible_partial (h : WM.make rows cols w starts ends = .ok m)
    (hf : Feasible m.n m.starts m.ends (DepIn m.n m.w) P) (hx : IsPoint m.n m.starts m.ends P x) (h3 : 3 ≤ m.n) :
    ∀ c ∈ buildConstraints m.n m.starts m.ends m.deps.arcs, c.Sat x :=
  (rows_iff _ _ _ _ _).2 (rows_of_point (WM.inst h) hf hx (WM.arcs_iff h) h3)

/-- Instances with fewer than three nodes have exactly one agent and two nodes. -/
theorem C33_small_instances (h : WM.make rows cols w starts ends = .ok m) (h3 : ¬ 3 ≤ m.n) :
    m.n = 2 ∧ m.starts.length = 1 := by
  have s := (WM.make_ok h).1
  have h2 : 2 ≤ m.n := by have := s.two; have := s.n_eq; omega
  have hle : (m.starts ++ m.ends).length ≤ m.n := by
    have := List.Nodup.length_le_card (α := Fin m.n) (l := (m.starts ++ m.ends).pmap (fun x hx => (⟨x, hx⟩ : Fin m.n)) s.lt)
      (s.nodup.pmap (fun a _ b _ e => by simpa using e))
    simpa using this
  have hl := (WM.inst h).lenEq
  have hp := (WM.inst h).pos
  rw [List.length_append] at hle
  omega

/-- **C33 is false in full**: with one agent and its start and end as only nodes there is a feasible
solution, but no point at all satisfies the rows (the two arcs it uses form a cycle of length two). -/
theorem C33_refuted : ∃ (rows : Nat) (w : Weights) (starts ends : List Nat) (m : WM) (P : Paths),
    WM.make rows rows w starts ends = .ok m ∧ Feasible m.n m.starts m.ends (DepIn m.n m.w) P ∧
    ∀ x, ¬ ∀ c ∈ buildConstraints m.n m.starts m.ends m.deps.arcs, c.Sat x := by
  have key : testOk (WM.make 2 2 (fun _ _ => 1) [0] [1]) (fun m =>
      decide (m.n = 2 ∧ m.starts = [0] ∧ m.ends = [1]) && feasB m [[0, 1]]) = true := by decide +kernel
  obtain ⟨m, hm, k⟩ := testOk_iff key
  rw [Bool.and_eq_true] at k
  obtain ⟨hn, hs, he⟩ := of_decide_eq_true k.1
  refine ⟨2, _, [0], [1], m, [[0, 1]], hm, feasB_sound k.2, ?_⟩
  intro x hx
  have r := (rows_iff _ _ _ _ _).1 hx
  rw [hn, hs, he] at r
  have h1 := r.art 0 (by simp)
  have h2 := r.start 0 (by simp)
  have h3 := r.diag 0 (by simp) 0 (by simp)
  have h4 := r.cyc 0 1 (by simp) (by simp)
  rw [LinCon.sat_le_iff, evCycle] at h4
  simp [outA, Finset.sum_range_succ] at h1 h2 h3 h4
  rw [h3] at h2
  have := h4.2
  linarith

/-! ### C34 -/

/-- arcs from an agent's end to the next agent's start cost nothing -/
theorem art_zero (h : WM.make rows cols w starts ends = .ok m) (hf : Feasible m.n m.starts m.ends (DepIn m.n m.w) P)
    {a : Nat} (ha : a < m.starts.length) : m.w (m.ends.getD a 0) (m.starts.getD ((a + 1) % m.starts.length) 0) = 0 := by
  have s := (WM.make_ok h).1
  have hi := WM.inst h
  have hl := hi.lenEq
  have hm : (a + 1) % m.starts.length < m.starts.length := Nat.mod_lt _ (by omega)
  have he : m.ends[a]? = some (m.ends.getD a 0) := getElem?_getD (hl ▸ ha)
  have hs : m.starts[(a + 1) % m.starts.length]? = some (m.starts.getD ((a + 1) % m.starts.length) 0) := getElem?_getD hm
  set e := m.ends.getD a 0 with hed
  set t := m.starts.getD ((a + 1) % m.starts.length) 0 with htd
  have hen : e < m.n := hi.lt e (List.mem_append_right _ (List.mem_of_getElem? he))
  have htn : t < m.n := hi.lt t (List.mem_append_left _ (List.mem_of_getElem? hs))
  obtain ⟨base, hb, hac, hw⟩ := s.weights
  obtain ⟨hw1, hw2⟩ := hw e t hen htn
  by_cases hx : m.starts.length = 1 ∧ e = m.ends.getD 0 0 ∧ t = m.starts.getD 0 0
  · exact hw2 hx
  · obtain ⟨hw3, hw4⟩ := hw1 hx
    rw [hw4]
    · rw [hb e t hen htn, if_pos]
      rw [mem_artificial hl]; exact ⟨a, ha, he, hs⟩
    · intro htr
      have hd : DepIn m.n m.w t e := ⟨htn, hen, hw3.2 htr⟩
      obtain ⟨b, p, hp, _, hu, hv⟩ := dep_path hi hf hd
      obtain ⟨q, hq, htq⟩ := cover_start_mem hf.1 hs
      obtain ⟨r, hr, her⟩ := cover_end_mem hf.1 hl he
      have e1 := hf.1.agent_unique hp hq hu htq
      have e2 := hf.1.agent_unique hp hr hv her
      rw [e2] at e1
      apply hx
      have hA : m.starts.length = 1 := by
        by_contra hne
        rcases Nat.lt_or_ge (a + 1) m.starts.length with hlt | hge
        · rw [Nat.mod_eq_of_lt hlt] at e1; omega
        · have h5 : a + 1 = m.starts.length := by omega
          rw [h5, Nat.mod_self] at e1; omega
      have ha0 : a = 0 := by omega
      refine ⟨hA, by rw [hed, ha0], by rw [htd, hA, Nat.mod_one]⟩

theorem agent_cost_feasible (h : WM.make rows cols w starts ends = .ok m) (hf : Feasible m.n m.starts m.ends (DepIn m.n m.w) P)
    (hx : IsPoint m.n m.starts m.ends P x) {a : Nat} (ha : a < m.starts.length) :
    ∑ u ∈ range m.n, ∑ v ∈ range m.n, m.w u v * x (varId m.n a u v) = pathCost m.w (P.getD a []) := by
  have hi := WM.inst h
  rw [agent_cost hx hf.1 hi.lenEq hi.lt m.w ha, art_zero h hf ha, add_zero]

/-- **C34, Sum.** At the point of a feasible solution the objective is the sum of the path lengths, and
there are no additional rows. -/
theorem C34_sum_objective (h : WM.make rows cols w starts ends = .ok m)
    (hf : Feasible m.n m.starts m.ends (DepIn m.n m.w) P) (hx : IsPoint m.n m.starts m.ends P x) :
    (createObjective .sum m.starts.length m.n m.w).1.eval x = sumCost (fun _ => m.w) P ∧
    (createObjective .sum m.starts.length m.n m.w).2 = [] := by
  refine ⟨?_, rfl⟩
  show (createSumObjective _ _ _).eval x = _
  rw [eval_sumObjective, sumCost_eq, hf.1.len, list_sum_range]
  exact Finset.sum_congr rfl fun a ha => agent_cost_feasible h hf hx (Finset.mem_range.1 ha)

/-- **C34, Max.** At the point of a feasible solution the additional rows hold exactly if the objective is
at least the length of every path (and the differences are representable), so the objective can be as low
as the longest path, or zero, and never lower. -/
theorem C34_max_objective (h : WM.make rows cols w starts ends = .ok m)
    (hf : Feasible m.n m.starts m.ends (DepIn m.n m.w) P) (hx : IsPoint m.n m.starts m.ends P x)
    (hrange : ∀ p ∈ P, (createObjective .max m.starts.length m.n m.w).1.eval x - pathCost m.w p ≤ dblMax) :
    (∀ c ∈ (createObjective .max m.starts.length m.n m.w).2, c.Sat x) ↔
      ∀ p ∈ P, pathCost m.w p ≤ (createObjective .max m.starts.length m.n m.w).1.eval x := by
  have hobj : (createObjective .max m.starts.length m.n m.w).1 = .ofVar (m.starts.length * m.n * m.n) := rfl
  rw [hobj] at hrange ⊢
  simp only [LinComp.eval_ofVar] at hrange ⊢
  have hcost : ∀ a < m.starts.length, (addAgentCost m.n m.w a .zero).eval x = pathCost m.w (P.getD a []) := by
    intro a ha
    rw [eval_addAgentCost, agent_cost_feasible h hf hx ha]; simp
  have hconst : ∀ a, (addAgentCost m.n m.w a .zero).const = 0 := by
    intro a
    have e := eval_addAgentCost m.n m.w a .zero (fun _ => 0)
    simp [LinComp.eval_eq, LinComp.lin] at e
    exact e
  have hsat : ∀ a < m.starts.length,
      ((LinCon.ge (.ofVar (m.starts.length * m.n * m.n)) (addAgentCost m.n m.w a .zero)).Sat x ↔
        pathCost m.w (P.getD a []) ≤ x (m.starts.length * m.n * m.n)) := by
    intro a ha
    have hc : (LinComp.sub (.ofVar (m.starts.length * m.n * m.n)) (addAgentCost m.n m.w a .zero)).const = 0 := by
      unfold LinComp.sub LinComp.add LinComp.addAssign LinComp.neg
      split <;> simp [LinComp.ofVar, hconst]
    rw [LinCon.sat_ge_iff, LinCon.value_ge, hc, hcost a ha]
    simp only [LinComp.eval_ofVar, sub_zero, and_iff_left_iff_imp]
    intro _
    have hal : a < P.length := by rw [hf.1.len]; exact ha
    apply hrange
    rw [List.getD_eq_getElem?_getD, List.getElem?_eq_getElem hal]; exact List.getElem_mem _
  constructor
  · intro hr p hp
    obtain ⟨a, ha⟩ := List.mem_iff_getElem?.1 hp
    have hal : a < m.starts.length := by rw [← hf.1.len]; exact (List.getElem?_eq_some_iff.1 ha).1
    have := (hsat a hal).1 (hr _ (List.mem_map.2 ⟨a, List.mem_range.2 hal, rfl⟩))
    rwa [List.getD_eq_getElem?_getD, ha] at this
  · intro hr c hc
    obtain ⟨a, ha, rfl⟩ := List.mem_map.1 hc
    have ha := List.mem_range.1 ha
    rw [hsat a ha]
    have hal : a < P.length := by rw [hf.1.len]; exact ha
    apply hr
    rw [List.getD_eq_getElem?_getD, List.getElem?_eq_getElem hal]; exact List.getElem_mem _

/-! ### C36 -/

/-- **C36.** Reading the paths off the 0/1 point of a cover (in particular, of a feasible solution) gives
exactly these paths. -/
theorem C36_read_paths_inverse (h : WM.make rows cols w starts ends = .ok m) (hc : IsCover m.n m.starts m.ends P)
    (hx : IsPoint m.n m.starts m.ends P x) : readPaths m.n m.starts m.ends x = P := by
  have hi := WM.inst h
  have hl := hi.lenEq
  obtain ⟨own, pv, ht, ho⟩ := hx.tour hc hl
  apply List.ext_getElem?
  intro a
  by_cases ha : a < m.starts.length
  · have hal : a < P.length := by rw [hc.len]; exact ha
    have hp : P[a]? = some P[a] := List.getElem?_eq_getElem hal
    rw [hp]
    simp only [readPaths, List.getElem?_map, List.getElem?_range ha, Option.map_some, Option.some.injEq]
    set p := P[a] with hpd
    have hnd := hc.nodup (List.mem_of_getElem? hp)
    have hs : m.starts[a]? = some (m.starts.getD a 0) := getElem?_getD ha
    have he : m.ends[a]? = some (m.ends.getD a 0) := getElem?_getD (hl ▸ ha)
    have hhead := hc.head a p hp
    have hlast := hc.last a p hp
    rw [hs] at hhead; rw [he] at hlast
    have hne : m.starts.getD a 0 ≠ m.ends.getD a 0 := fun e =>
      (List.nodup_append.1 hi.nodup).2.2 _ (List.mem_of_getElem? hs) _ (List.mem_of_getElem? he) e
    obtain ⟨q, hq⟩ := List.head?_eq_some_iff.1 hhead
    have hlen : p.length ≤ m.n := by
      rw [← hc.flatten_length]
      conv_rhs => rw [split_at hp]
      simp; omega
    cases q with
    | nil => rw [hq] at hlast; simp at hlast; exact absurd hlast hne
    | cons v r =>
      refine followPath_eq (e := m.ends.getD a 0) hnd ?_ hlast (m.n - 1) [] r _ v (by rw [hq]; rfl) ?_
      · intro u v hst
        have hum : u ∈ p := by obtain ⟨l1, l2, e⟩ := hst; rw [e]; simp
        have hu : u < m.n := hc.lt p (List.mem_of_getElem? hp) u hum
        have hnv := step_nxt hc hp hst
        have hv : v < m.n := by rw [← hnv]; exact ht.nxLt u hu
        have how : own u = a := (ho u hu a).2 ⟨p, hp, hum⟩
        refine ⟨hv, ?_, ?_⟩
        · rw [ht.val a ha u hu v hv, if_pos ⟨how, hnv⟩]; norm_num
        · intro v' hv' hgt
          rw [ht.val a ha u hu v' hv'] at hgt
          by_contra hne'
          rw [if_neg (fun hh => hne' (by rw [← hh.2, hnv]))] at hgt
          norm_num at hgt
      · rw [hq] at hlen; simp at hlen; omega
  · have hal : ¬ a < P.length := by rw [hc.len]; exact ha
    rw [List.getElem?_eq_none (by simp [readPaths]; omega), List.getElem?_eq_none (by omega)]

/-! Non-vacuity: the instance of `niExW`. -/

example : ∃ (m : WM) (P : Paths) (x : Nat → ℚ), WM.make 6 6 niExW [0, 0] [0, 4] = .ok m ∧ 3 ≤ m.n ∧ m.deps.arcs ≠ [] ∧
    Feasible m.n m.starts m.ends (DepIn m.n m.w) P ∧ IsPoint m.n m.starts m.ends P x := by
  have key : testOk (WM.make 6 6 niExW [0, 0] [0, 4]) (fun m =>
      decide (m.n = 8 ∧ m.deps.arcs ≠ []) && feasB m [[0, 3, 1, 5, 6], [7, 2, 4]]) = true := by decide +kernel
  obtain ⟨m, hm, k⟩ := testOk_iff key
  rw [Bool.and_eq_true] at k
  obtain ⟨hn, ha⟩ := of_decide_eq_true k.1
  exact ⟨m, _, _, hm, by omega, ha, feasB_sound k.2, pointOf_isPoint _ _ _ _⟩

end Mtsp
