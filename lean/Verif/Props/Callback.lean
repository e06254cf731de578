import Verif.Model.Callback
import Verif.Proof.Depots
import Verif.Props.Search
import Verif.Props.EndlessRefuted

/-! C71: what the fractional callback sees.  C18: how many nodes stand for one input node. -/

namespace Mtsp
open Finset

section
variable {rows cols : Nat} {w : Weights} {starts ends : List Nat} {m : WM}

theorem nodup_filter_card {l : List Nat} (hn : l.Nodup) {n : Nat} (hl : ∀ x ∈ l, x < n) (p : Nat → Bool) :
    ((range n).filter fun u => u ∈ l ∧ p u = true).card = (l.map p).count true := by
  have e : (range n).filter (fun u => u ∈ l ∧ p u = true) = (l.filter p).toFinset := by
    ext u
    simp only [mem_filter, mem_range, List.mem_toFinset, List.mem_filter]
    exact ⟨fun h => h.2, fun h => ⟨hl u h.1, h⟩⟩
  rw [e, List.toFinset_card_of_nodup (hn.filter _)]
  clear hn hl e
  induction l with
  | nil => simp
  | cons x l ih => cases h : p x <;> simp [h, ih]

/-- **C18, number of copies.** As many nodes stand for an input node as agents start or end there, and one if none does: no
node is copied without need. -/
theorem C18_number_of_copies (h : WM.make rows cols w starts ends = .ok m) (i : Nat) (hi : i < rows) :
    ((range m.n).filter fun u => m.orig u = i).card = max 1 ((starts ++ ends).count i) := by
  obtain ⟨hnd, hlt, _, _, hS, hE, hrn, hid, _, hcov⟩ := C18_own_starts_and_ends h
  have hd := WM.depot_iff h i hi
  have hmap : (m.starts ++ m.ends).map m.orig = starts ++ ends := by rw [List.map_append, hS, hE]
  have hcard : ((range m.n).filter fun u => u ∈ m.starts ++ m.ends ∧ decide (m.orig u = i) = true).card = (starts ++ ends).count i := by
    rw [nodup_filter_card hnd hlt, ← hmap, List.count, List.count, List.countP_map, List.countP_map]
    congr 1
    funext u
    by_cases hu : m.orig u = i <;> simp [hu]
  by_cases hm : i ∈ starts ++ ends
  · rw [max_eq_right (List.count_pos_iff.2 hm), ← hcard]
    congr 1
    apply filter_congr
    intro u hu
    simp only [decide_eq_true_eq]
    constructor
    · intro hu'
      refine ⟨?_, hu'⟩
      by_cases hr : u < rows
      · rw [hid u hr] at hu'; rw [hu']; exact hd.2 hm
      · exact hcov u (by omega) (mem_range.1 hu)
    · exact fun h => h.2
  · have hc0 : (starts ++ ends).count i = 0 := List.count_eq_zero.2 hm
    rw [hc0, max_eq_left (by omega)]
    rw [card_eq_one]
    refine ⟨i, ?_⟩
    ext u
    simp only [mem_filter, mem_range, mem_singleton]
    constructor
    · rintro ⟨h1, h2⟩
      by_cases hr : u < rows
      · rw [hid u hr] at h2; exact h2
      · have h3 := hcov u (by omega) h1
        exfalso
        apply hm
        rw [← hmap, ← h2]
        exact List.mem_map_of_mem h3
    · rintro rfl; exact ⟨by omega, hid u hi⟩

/-- row and column sums of the tensor that is mapped back -/
theorem tensor_row (h : WM.make rows cols w starts ends = .ok m) (t : Tensor3) (a i : Nat) (hi : i < rows) :
    ∑ j ∈ range rows, m.transformTensorBack t a i j = ∑ u ∈ range m.n with m.orig u = i, ∑ v ∈ range m.n, t a u v := by
  obtain ⟨_, _, _, _, _, _, _, _, hlt, _⟩ := C18_own_starts_and_ends h
  rw [sum_congr rfl fun j hj => C22_tensor_mapped_back h t a i j hi (mem_range.1 hj), sum_comm, sum_filter]
  refine sum_congr rfl fun u _ => ?_
  rw [sum_comm]
  by_cases hu : m.orig u = i
  · rw [if_pos hu]
    refine sum_congr rfl fun v hv => ?_
    rw [sum_eq_single (m.orig v)]
    · simp [hu]
    · intro b _ hb; rw [if_neg]; exact fun e => hb e.2.symm
    · intro hb; exact absurd (mem_range.2 (hlt v (mem_range.1 hv))) hb
  · rw [if_neg hu]
    exact sum_eq_zero fun v _ => sum_eq_zero fun j _ => if_neg fun e => hu e.1

theorem tensor_col (h : WM.make rows cols w starts ends = .ok m) (t : Tensor3) (a j : Nat) (hj : j < rows) :
    ∑ i ∈ range rows, m.transformTensorBack t a i j = ∑ v ∈ range m.n with m.orig v = j, ∑ u ∈ range m.n, t a u v := by
  obtain ⟨_, _, _, _, _, _, _, _, hlt, _⟩ := C18_own_starts_and_ends h
  rw [sum_congr rfl fun i hi => C22_tensor_mapped_back h t a i j (mem_range.1 hi) hj]
  rw [sum_congr rfl fun i _ => sum_comm, sum_comm, sum_filter]
  refine sum_congr rfl fun v _ => ?_
  rw [sum_comm]
  by_cases hv : m.orig v = j
  · rw [if_pos hv]
    refine sum_congr rfl fun u hu => ?_
    rw [sum_eq_single (m.orig u)]
    · simp [hv]
    · intro b _ hb; rw [if_neg]; exact fun e => hb e.1.symm
    · intro hb; exact absurd (mem_range.2 (hlt u (mem_range.1 hu))) hb
  · rw [if_neg hv]
    exact sum_eq_zero fun v _ => sum_eq_zero fun j _ => if_neg fun e => hv e.2

end

section
variable {e : BEnv} {rows : Nat} {w : Weights} {starts ends : List Nat} {r : ResState} {tr : List (Nat × Inp)} {s : BState} {u : Nat} {x : Tensor3}

theorem callback_rows (g : e.Good rows w starts ends) (hst : e.Started) (h : BRun e r tr s) (hu : u < e.threads)
    (hx : s.callbackArg e u = some x) : ∃ y y' : Nat → ℚ, x = e.m.transformTensorBack (fun a i j => y (varId e.m.n a i j)) ∧
      (∀ a < e.m.starts.length, ∀ i < e.m.n, ∀ j < e.m.n, 0 ≤ y (varId e.m.n a i j) ∧ 0 ≤ y' (varId e.m.n a i j) ∧
        |y (varId e.m.n a i j) - y' (varId e.m.n a i j)| ≤ 1 / 10 ^ 10) ∧
      LPRows e.m.n e.m.starts e.m.ends e.m.deps.arcs y' := by
  obtain ⟨_, all, hg⟩ := run_ginv g hst h
  obtain ⟨_, o, _, hpc⟩ := hg.wk u hu
  unfold BState.callbackArg at hx
  split at hx
  · next lb l y rc hp =>
    simp only [PcOk, hp] at hpc
    obtain ⟨hs, _, _⟩ := hpc
    simp only [Option.some.injEq] at hx
    obtain ⟨y', ho⟩ := hs.opt g
    refine ⟨y, y', hx.symm, ?_, (rows_iff _ _ _ _ _).1 (rows0_iff.1 ho.sat).2.1⟩
    intro a ha i hi j hj
    have hid : varId e.m.n a i j < e.B := varId_lt ha hi hj
    exact ⟨(hs.inBox.bin g hid).1, (ho.inBox.bin g hid).1, ho.near _ hid⟩
  · simp at hx

/-- Values for every agent and every ordered pair of input nodes, as the paths of all agents, tied together to a cycle, would
have them, only that they may be fractions: none is negative; over all agents the values of the arcs out of a node, and of
those into it, sum up to 1, or, if agents start or end there, to the number of these starts and ends; every agent enters
and leaves a node that is no depot equally, and no such node has a value to itself; the value from an agent's end to the next
agent's start is at least 1. -/
structure AgentFlow (rows : Nat) (starts ends : List Nat) (x : Tensor3) : Prop where
  nonneg : ∀ a < starts.length, ∀ i < rows, ∀ j < rows, 0 ≤ x a i j
  leave : ∀ i < rows, ∑ a ∈ range starts.length, ∑ j ∈ range rows, x a i j = max 1 ((starts ++ ends).count i)
  enter : ∀ j < rows, ∑ a ∈ range starts.length, ∑ i ∈ range rows, x a i j = max 1 ((starts ++ ends).count j)
  same : ∀ i < rows, i ∉ starts ++ ends → ∀ a < starts.length, ∑ j ∈ range rows, x a i j = ∑ j ∈ range rows, x a j i
  diag : ∀ i < rows, i ∉ starts ++ ends → ∀ a < starts.length, x a i i = 0
  tie : ∀ a < starts.length, ∀ i j, ends[a]? = some i → starts[(a + 1) % starts.length]? = some j → 1 ≤ x a i j

theorem agentFlow_of_rows (g : e.Good rows w starts ends) {y : Nat → ℚ}
    (hnonneg : ∀ a < starts.length, ∀ i < e.m.n, ∀ j < e.m.n, 0 ≤ y (varId e.m.n a i j))
    (hr : LPRows e.m.n e.m.starts e.m.ends e.m.deps.arcs y) :
    AgentFlow rows starts ends (e.m.transformTensorBack (fun a i j => y (varId e.m.n a i j))) := by
  obtain ⟨hnd, hltn, hls, hle, hmS, hmE, hrn, hid, hlt, hcov⟩ := C18_own_starts_and_ends g.make
  have hval := C22_tensor_mapped_back g.make (fun a i j => y (varId e.m.n a i j))
  have only : ∀ i < rows, i ∉ starts ++ ends → ∀ v < e.m.n, e.m.orig v = i → v = i := by
    intro i hi hn v hv hvi
    by_cases hr : v < rows
    · rw [hid v hr] at hvi; exact hvi
    · exfalso
      apply hn
      have h3 := hcov v (by omega) hv
      rw [← hmS, ← hmE, ← List.map_append, ← hvi]
      exact List.mem_map_of_mem h3
  have filt : ∀ i < rows, i ∉ starts ++ ends → (range e.m.n).filter (fun v => e.m.orig v = i) = {i} := by
    intro i hi hn
    ext v
    simp only [mem_filter, mem_range, mem_singleton]
    constructor
    · rintro ⟨h1, h2⟩; exact only i hi hn v h1 h2
    · rintro rfl; exact ⟨by omega, hid v hi⟩
  refine ⟨?_, ?_, ?_, ?_, ?_, ?_⟩
  · intro a ha i hi j hj
    rw [hval a i j hi hj]
    refine sum_nonneg fun u hu => sum_nonneg fun v hv => ?_
    split
    · exact hnonneg a ha u (mem_range.1 hu) v (mem_range.1 hv)
    · exact le_refl _
  · intro i hi
    rw [sum_congr rfl fun a _ => tensor_row g.make _ a i hi, sum_comm]
    have hd : ∀ u ∈ (range e.m.n).filter (fun u => e.m.orig u = i), ∑ a ∈ range starts.length, ∑ v ∈ range e.m.n, y (varId e.m.n a u v) = 1 := by
      intro u hu
      have := hr.degOut u (mem_range.1 (mem_filter.1 hu).1)
      rw [hls] at this; exact this
    rw [sum_congr rfl hd, sum_const, nsmul_eq_mul, mul_one, C18_number_of_copies g.make i hi]
  · intro j hj
    rw [sum_congr rfl fun a _ => tensor_col g.make _ a j hj, sum_comm]
    have hd : ∀ u ∈ (range e.m.n).filter (fun u => e.m.orig u = j), ∑ a ∈ range starts.length, ∑ v ∈ range e.m.n, y (varId e.m.n a v u) = 1 := by
      intro u hu
      have := hr.degIn u (mem_range.1 (mem_filter.1 hu).1)
      rw [hls] at this; exact this
    rw [sum_congr rfl hd, sum_const, nsmul_eq_mul, mul_one, C18_number_of_copies g.make j hj]
  · intro i hi hn a ha
    rw [tensor_row g.make _ a i hi, tensor_col g.make _ a i hi, filt i hi hn, sum_singleton, sum_singleton]
    have hns : i ∉ e.m.starts := fun hm => hn ((WM.depot_iff g.make i hi).1 (List.mem_append_left _ hm))
    exact (hr.flow i (by omega) hns a (by rw [hls]; exact ha)).symm
  · intro i hi hn a ha
    rw [hval a i i hi hi]
    refine sum_eq_zero fun u hu => sum_eq_zero fun v hv => ?_
    split
    · next h' =>
      rw [only i hi hn u (mem_range.1 hu) h'.1, only i hi hn v (mem_range.1 hv) h'.2]
      exact hr.diag a (by rw [hls]; exact ha) i (by omega)
    · rfl
  · intro a ha i j hie hjs
    have hA : 0 < starts.length := by omega
    have hmod : (a + 1) % starts.length < starts.length := Nat.mod_lt _ hA
    rw [← hmE, List.getElem?_map] at hie
    obtain ⟨u, hue, hu'⟩ := Option.map_eq_some_iff.1 hie
    rw [← hmS, List.getElem?_map, hmS] at hjs
    obtain ⟨v, hvs, hv'⟩ := Option.map_eq_some_iff.1 hjs
    have hun : u < e.m.n := hltn u (List.mem_append_right _ (List.mem_of_getElem? hue))
    have hvn : v < e.m.n := hltn v (List.mem_append_left _ (List.mem_of_getElem? hvs))
    have hart := hr.art a (by rw [hls]; exact ha)
    rw [hls] at hart
    have e1 : e.m.ends.getD a 0 = u := by simp [List.getD_eq_getElem?_getD, hue]
    have e2 : e.m.starts.getD ((a + 1) % starts.length) 0 = v := by simp [List.getD_eq_getElem?_getD, hvs]
    rw [e1, e2] at hart
    rw [hval a i j (by rw [← hu']; exact hlt u hun) (by rw [← hv']; exact hlt v hvn)]
    have nn : ∀ u' ∈ range e.m.n, ∀ v' ∈ range e.m.n, 0 ≤ (if e.m.orig u' = i ∧ e.m.orig v' = j then y (varId e.m.n a u' v') else 0) := by
      intro u' h1 v' h2
      split
      · exact hnonneg a ha u' (mem_range.1 h1) v' (mem_range.1 h2)
      · exact le_refl _
    calc (1 : ℚ) = if e.m.orig u = i ∧ e.m.orig v = j then y (varId e.m.n a u v) else 0 := by rw [if_pos ⟨hu', hv'⟩, hart]
      _ ≤ ∑ v' ∈ range e.m.n, (if e.m.orig u = i ∧ e.m.orig v' = j then y (varId e.m.n a u v') else 0) :=
        single_le_sum (f := fun v' => if e.m.orig u = i ∧ e.m.orig v' = j then y (varId e.m.n a u v') else 0)
          (fun v' h2 => nn u (mem_range.2 hun) v' h2) (mem_range.2 hvn)
      _ ≤ _ := single_le_sum (f := fun u' => ∑ v' ∈ range e.m.n, (if e.m.orig u' = i ∧ e.m.orig v' = j then y (varId e.m.n a u' v') else 0))
          (fun u' h1 => sum_nonneg (nn u' h1)) (mem_range.2 hun)

/-- values that are near are mapped back to values that are near -/
theorem tensor_near (g : e.Good rows w starts ends) {y y' : Nat → ℚ}
    (hpos : ∀ a < starts.length, ∀ i < e.m.n, ∀ j < e.m.n, |y (varId e.m.n a i j) - y' (varId e.m.n a i j)| ≤ 1 / 10 ^ 10) :
    ∀ a < starts.length, ∀ i < rows, ∀ j < rows,
      |e.m.transformTensorBack (fun a i j => y (varId e.m.n a i j)) a i j - e.m.transformTensorBack (fun a i j => y' (varId e.m.n a i j)) a i j| ≤
        (max 1 ((starts ++ ends).count i) : Nat) * (max 1 ((starts ++ ends).count j) : Nat) * (1 / 10 ^ 10) := by
  intro a ha i hi j hj
  rw [C22_tensor_mapped_back g.make _ a i j hi hj, C22_tensor_mapped_back g.make _ a i j hi hj, ← sum_sub_distrib,
    ← C18_number_of_copies g.make i hi, ← C18_number_of_copies g.make j hj]
  have inner : ∀ u ∈ range e.m.n, |(∑ v ∈ range e.m.n, if e.m.orig u = i ∧ e.m.orig v = j then y (varId e.m.n a u v) else 0) -
      ∑ v ∈ range e.m.n, if e.m.orig u = i ∧ e.m.orig v = j then y' (varId e.m.n a u v) else 0| ≤
      if e.m.orig u = i then (((range e.m.n).filter fun v => e.m.orig v = j).card : ℚ) * (1 / 10 ^ 10) else 0 := by
    intro u hu
    rw [← sum_sub_distrib]
    refine (abs_sum_le_sum_abs _ _).trans ?_
    by_cases h1 : e.m.orig u = i
    · rw [if_pos h1, ← nsmul_eq_mul, ← sum_const, sum_filter]
      refine sum_le_sum fun v hv => ?_
      by_cases h2 : e.m.orig v = j
      · rw [if_pos ⟨h1, h2⟩, if_pos ⟨h1, h2⟩, if_pos h2]
        exact (hpos a ha u (mem_range.1 hu) v (mem_range.1 hv))
      · simp [h2]
    · simp [h1]
  refine (abs_sum_le_sum_abs _ _).trans ((sum_le_sum inner).trans ?_)
  rw [← sum_filter, sum_const, nsmul_eq_mul, mul_assoc]

/-- **C71.** Whenever the callback is called - for every accepted input, every interleaving and all LP answers - it is given
values of which none is negative and which, but for the LP solver's noise of at most 1e-10 for every pair of nodes that stand
for the input nodes, are those of an `AgentFlow`. -/
theorem C71_callback_values (g : e.Good rows w starts ends) (hst : e.Started) (h : BRun e r tr s) (hu : u < e.threads)
    (hx : s.callbackArg e u = some x) :
    (∀ a < starts.length, ∀ i < rows, ∀ j < rows, 0 ≤ x a i j) ∧
    ∃ x' : Tensor3, AgentFlow rows starts ends x' ∧ ∀ a < starts.length, ∀ i < rows, ∀ j < rows,
      |x a i j - x' a i j| ≤ (max 1 ((starts ++ ends).count i) : Nat) * (max 1 ((starts ++ ends).count j) : Nat) * (1 / 10 ^ 10) := by
  obtain ⟨y, y', rfl, hpos, hr⟩ := callback_rows g hst h hu hx
  obtain ⟨_, _, hls, _⟩ := C18_own_starts_and_ends g.make
  rw [hls] at hpos
  refine ⟨?_, _, agentFlow_of_rows g (fun a ha i hi j hj => (hpos a ha i hi j hj).2.1) hr, ?_⟩
  · intro a ha i hi j hj
    rw [C22_tensor_mapped_back g.make _ a i j hi hj]
    refine sum_nonneg fun u hu => sum_nonneg fun v hv => ?_
    split
    · exact (hpos a ha u (mem_range.1 hu) v (mem_range.1 hv)).1
    · exact le_refl _
  · exact tensor_near g fun a ha i hi j hj => (hpos a ha i hi j hj).2.2

end

/-! ### when the LP solution is integral -/

/-- how often a path goes from `i` directly to `j` -/
def travels (i j : Nat) (p : List Nat) : Nat := (p.zip p.tail).count (i, j)

theorem pathCost_indicator (f : Nat → Nat) (i j : Nat) : ∀ p : List Nat,
    pathCost (fun u v => if f u = i ∧ f v = j then 1 else 0) p = (travels i j (p.map f) : ℚ)
  | [] => by simp [pathCost, travels]
  | [y] => by simp [pathCost, travels]
  | y :: z :: l => by
    rw [pathCost_cons_cons, pathCost_indicator f i j (z :: l)]
    simp only [travels, List.map_cons, List.tail_cons, List.zip_cons_cons, List.count_cons, beq_iff_eq, Prod.mk.injEq]
    by_cases h : f y = i ∧ f z = j
    · simp [h.1, h.2]; ring
    · simp [h]

/-- **C71, integral solutions.** If the LP solution is that of a set of paths, the callback is given, for every agent and pair of
input nodes, how often the agent's path (in terms of input nodes) goes from the one directly to the other, with the arc from
the agent's end to the next agent's start counted in addition. -/
theorem C71_integral {rows cols : Nat} {w : Weights} {starts ends : List Nat} {m : WM} (h : WM.make rows cols w starts ends = .ok m)
    {P : Paths} (hc : IsCover m.n m.starts m.ends P) {y : Nat → ℚ} (hy : IsPoint m.n m.starts m.ends P y) {a i j : Nat}
    (ha : a < starts.length) (hi : i < rows) (hj : j < rows) :
    m.transformTensorBack (fun a u v => y (varId m.n a u v)) a i j =
      (travels i j ((P.getD a []).map m.orig) : ℚ) + if ends[a]? = some i ∧ starts[(a + 1) % starts.length]? = some j then 1 else 0 := by
  obtain ⟨hnd, hltn, hls, hle, hmS, hmE, hrn, hid, hlt, hcov⟩ := C18_own_starts_and_ends h
  have hI := WM.inst h
  rw [C22_tensor_mapped_back h _ a i j hi hj, ← pathCost_indicator]
  have key := agent_cost hy hc hI.lenEq hI.lt (fun u v => if m.orig u = i ∧ m.orig v = j then 1 else 0) (a := a) (by rw [hls]; exact ha)
  have e0 : ∀ u ∈ range m.n, ∀ v ∈ range m.n, (if m.orig u = i ∧ m.orig v = j then y (varId m.n a u v) else 0) =
      (if m.orig u = i ∧ m.orig v = j then 1 else 0) * y (varId m.n a u v) := by
    intro u _ v _; split <;> simp
  rw [sum_congr rfl fun u hu => sum_congr rfl fun v hv => e0 u hu v hv, key]
  congr 1
  have hA : 0 < starts.length := by omega
  have hmod : (a + 1) % starts.length < starts.length := Nat.mod_lt _ hA
  have e1 : ends[a]? = some (m.orig (m.ends.getD a 0)) := by
    have : a < m.ends.length := by have := hI.lenEq; omega
    rw [← hmE, List.getElem?_map, List.getD_eq_getElem?_getD, List.getElem?_eq_getElem this]; rfl
  have e2 : starts[(a + 1) % starts.length]? = some (m.orig (m.starts.getD ((a + 1) % m.starts.length) 0)) := by
    have : (a + 1) % starts.length < m.starts.length := by omega
    rw [hls]
    conv_lhs => rw [← hmS, List.length_map, hls, List.getElem?_map, List.getElem?_eq_getElem this]
    rw [List.getD_eq_getElem?_getD, List.getElem?_eq_getElem this]; rfl
  rw [e1, e2]
  simp only [Option.some.injEq]

/-! ### a call of the callback -/

def hasCallback (e : BEnv) (s : BState) (t : Nat) : Bool := (s.callbackArg e t).isSome

set_option maxHeartbeats 4000000 in
theorem c71_play : hasCallback c67rEnv (play c67rEnv c67rS (solo (c67rCycle.take 8))) 0 = true := by decide +kernel

example : ∃ (r : ResState) (tr : List (Nat × Inp)) (s : BState) (x : Tensor3), c67rEnv.Good 6 c67rW [0] [5] ∧ c67rEnv.Started ∧
    BRun c67rEnv r tr s ∧ s.callbackArg c67rEnv 0 = some x := by
  obtain ⟨r, t', hr, hrun, _⟩ := exStart_run (e := c67rEnv) (t := 100) (by decide +kernel)
  have hp : playB c67rEnv c67rS (solo (c67rCycle.take 8)) = true := by
    have key : ∀ (l l' : List (Nat × Cue)) (s : BState), playB c67rEnv s (l ++ l') = true → playB c67rEnv s l = true := by
      intro l
      induction l with
      | nil => intros; rfl
      | cons x l ih =>
        intro l' s h
        simp only [List.cons_append, playB, Bool.and_eq_true] at h ⊢
        exact ⟨h.1, ih l' _ h.2⟩
    exact key _ (solo (c67rCycle.drop 8 ++ c67rCycle ++ c67rCycle)) _ c67r_play
  obtain ⟨x, hx⟩ := Option.isSome_iff_exists.1 (show (BState.callbackArg c67rEnv _ 0).isSome = true from c71_play)
  exact ⟨r, _, _, x, c67r_good, ⟨100, t', r, hr⟩, hrun.play _ hp, hx⟩

end Mtsp
