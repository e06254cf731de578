import Verif.Proof.GHLoop
import Verif.Props.Cuts
import Verif.Props.Comb
import Mathlib.Data.Nat.Bitwise

/-! C50, C51: the cuts reported by the Gomory-Hu construction.  C52: the dense graph.  C61: table accesses. -/

namespace Mtsp
open Relation Finset

variable {mf : MaxFlow} {pt : Partition}

/-! ### C50, C51 -/

theorem createGomoryHuTree_result (hmf : mf.Correct) (hpt : pt.Correct) (N : Nat) (ws : List ℚ) (stop : List GHCall → Bool)
    {fuel : Nat} (hf : N - 1 ≤ fuel) : GHResult N ws stop (createGomoryHuTree mf pt N ws stop fuel) := by
  unfold createGomoryHuTree
  by_cases h : N ≤ 1
  · rw [if_pos h]
    refine ⟨by simp, by simp, List.Pairwise.nil, by simp, Or.inl (by simp; omega), ?_, rfl⟩
    intro p q hpq hq _
    exact absurd (List.append_eq_nil_iff.1 hpq).2 hq
  · rw [if_neg h]
    obtain ⟨h1, h2⟩ := ghInit_inv (ws := ws) (show 2 ≤ N by omega)
    refine ghLoop_result hmf hpt fuel h1 h2 (by simp [ghInit]; omega) ?_
    intro p q hpq hp
    exact absurd (List.append_eq_nil_iff.1 hpq).2 hp

/-- **C50.** For every graph, every behaviour of the callback, every order `std::partition` may leave, and every
maximum flow algorithm that returns cuts: the construction ends after at most `N - 1` iterations; each call reports
two disjoint components that cover all nodes and separate the two nodes named; no pair of nodes is named twice; there
are exactly `N - 1` calls unless the callback asks to stop, and none after it did. -/
theorem C50_partitions (hmf : mf.Correct) (hpt : pt.Correct) (N : Nat) (ws : List ℚ) (stop : List GHCall → Bool)
    {fuel : Nat} (hf : N - 1 ≤ fuel) :
    (createGomoryHuTree mf pt N ws stop fuel).2 = true ∧
    (∀ c ∈ (createGomoryHuTree mf pt N ws stop fuel).1, c.IsPartition N) ∧
    (createGomoryHuTree mf pt N ws stop fuel).1.Pairwise (fun c c' => ¬ ((c.u = c'.u ∧ c.v = c'.v) ∨ (c.u = c'.v ∧ c.v = c'.u))) ∧
    (createGomoryHuTree mf pt N ws stop fuel).1.length ≤ N - 1 ∧
    ((createGomoryHuTree mf pt N ws stop fuel).1.length = N - 1 ∨ stop (createGomoryHuTree mf pt N ws stop fuel).1.reverse = true) ∧
    ∀ p q, p ++ q = (createGomoryHuTree mf pt N ws stop fuel).1 → q ≠ [] → p ≠ [] → stop p.reverse = false := by
  have h := createGomoryHuTree_result hmf hpt N ws stop hf
  exact ⟨h.ended, h.part, h.dist, h.le, h.full, h.go⟩

/-- **C50**, without a request to stop: exactly `N - 1` calls. -/
theorem C50_number_of_calls (hmf : mf.Correct) (hpt : pt.Correct) (N : Nat) (ws : List ℚ) {fuel : Nat} (hf : N - 1 ≤ fuel) :
    (createGomoryHuTree mf pt N ws (fun _ => false) fuel).1.length = N - 1 := by
  have h := createGomoryHuTree_result hmf hpt N ws (fun _ => false) hf
  rcases h.full with h | h
  · exact h
  · simp at h

/-- **C51.** For nonnegative weights each call reports a minimum cut of the input graph between the two nodes it
names, although the cuts are computed in contracted graphs. -/
theorem C51_minimum_cuts (hmf : mf.Correct) (hpt : pt.Correct) (N : Nat) {ws : List ℚ} (h0 : ∀ q ∈ ws, 0 ≤ q) (stop : List GHCall → Bool)
    {fuel : Nat} (hf : N - 1 ≤ fuel) : ∀ c ∈ (createGomoryHuTree mf pt N ws stop fuel).1, c.IsMinCut N ws :=
  (createGomoryHuTree_result hmf hpt N ws stop hf).min h0

/-! ### the stream of cuts for `TwoMatching` -/

theorem capTable_lookup {N : Nat} (cap : Nat → Nat → ℚ) {u v : Nat} (hv : v < u) (hu : u < N) : edgeWeight (capTable N cap) u v = cap u v := by
  rw [edgeWeight_lt hv]
  unfold tableWeight capTable
  rw [List.getD_eq_getElem?_getD, table_lookup_aux _ hv N hu]
  rfl

/-- the stream of cuts produced by the Gomory-Hu construction satisfies the contract that C40 and C60 assume -/
theorem ghStream_correct (hmf : mf.Correct) (hpt : pt.Correct) : (ghStream mf pt).Correct := by
  have key : ∀ N cap, 2 ≤ N → ∀ c ∈ ghStream mf pt N cap, ∃ d ∈ (createGomoryHuTree mf pt N (capTable N cap) (fun _ => false) N).1,
      c = (d.size, d.compU, d.compV) := by
    intro N cap _ c hc
    obtain ⟨d, hd, rfl⟩ := List.mem_map.1 hc
    exact ⟨d, hd, rfl⟩
  constructor
  · intro N cap hN _ _ c hc
    obtain ⟨d, hd, rfl⟩ := key N cap hN c hc
    have hp := (createGomoryHuTree_result hmf hpt N (capTable N cap) (fun _ => false) (Nat.sub_le N 1)).part d hd
    refine (List.perm_ext_iff_of_nodup ?_ List.nodup_range).2 ?_
    · exact List.nodup_append.2 ⟨hp.nodup.1, hp.nodup.2, fun a ha b hb e => hp.disjoint a ha (e ▸ hb)⟩
    · intro a
      rw [List.mem_append, List.mem_range]
      exact (hp.cover a).symm
  · intro N cap hN h0 hsym c hc
    obtain ⟨d, hd, rfl⟩ := key N cap hN c hc
    have hr := createGomoryHuTree_result hmf hpt N (capTable N cap) (fun _ => false) (Nat.sub_le N 1)
    have hp := hr.part d hd
    have hm := hr.min (by
      intro q hq
      obtain ⟨u, _, hq⟩ := List.mem_flatMap.1 hq
      obtain ⟨v, _, rfl⟩ := List.mem_map.1 hq
      exact h0 u v) d hd
    simp only
    rw [hm.size]
    congr 1
    apply List.map_congr_left
    intro u hu
    congr 1
    apply List.map_congr_left
    intro v hv
    have hu' := (hp.cover u).2 (Or.inl hu)
    have hv' := (hp.cover v).2 (Or.inr hv)
    have hne : u ≠ v := by rintro rfl; exact hp.disjoint u hu hv
    rcases Nat.lt_or_gt_of_ne hne with h | h
    · rw [edgeWeight_comm, capTable_lookup cap h hv', hsym]
    · rw [capTable_lookup cap h hu']

/-- **C40** with the cuts of the Gomory-Hu construction. -/
theorem C40_comb_cuts_valid_gomory_hu {rows cols : Nat} {w : Weights} {starts ends : List Nat} {m : WM} {P : Paths} {x y : Nat → ℚ}
    (hmf : mf.Correct) (hpt : pt.Correct) (h : WM.make rows cols w starts ends = .ok m)
    (hsize : m.starts.length * m.n * m.n ≤ 2147483647) (h3 : 3 ≤ m.n)
    {c : LinCon} (hcut : c ∈ twoMatching (ghStream mf pt) m.starts.length m.n y)
    (hc : IsCover m.n m.starts m.ends P) (hx : IsPoint m.n m.starts m.ends P x) : c.Sat x :=
  C40_comb_cuts_valid h (ghStream_correct hmf hpt) hsize h3 hcut hc hx

/-! ### C52 -/

/-- **C52.** The enumerations of the dense graph: the edges are exactly the ordered pairs of distinct vertices, each
once, as many as announced; the same for the edges leaving a vertex; different edges have different indices, all inside
a table of `N * N` entries (hence inside every bigger table), and the reverse of an edge is an edge. -/
theorem C52_dense_graph (N : Nat) :
    (pcgEdges N).Nodup ∧ (∀ u v, (u, v) ∈ pcgEdges N ↔ u < N ∧ v < N ∧ u ≠ v) ∧ (pcgEdges N).length = pcgNumEdges N ∧
    (∀ u < N, (pcgOutEdges N u).Nodup ∧ (∀ e, e ∈ pcgOutEdges N u ↔ e ∈ pcgEdges N ∧ e.1 = u) ∧ (pcgOutEdges N u).length = pcgOutDegree N) ∧
    (∀ e ∈ pcgEdges N, ∀ e' ∈ pcgEdges N, pcgIndex N e = pcgIndex N e' → e = e') ∧
    (∀ e ∈ pcgEdges N, pcgIndex N e < N * N) ∧ (∀ e ∈ pcgEdges N, pcgReverse e ∈ pcgEdges N ∧ pcgReverse e ≠ e ∧ pcgReverse (pcgReverse e) = e) := by
  have hmem : ∀ u v, (u, v) ∈ pcgEdges N ↔ u < N ∧ v < N ∧ u ≠ v := by
    intro u v
    unfold pcgEdges pcgNumEdges n2Edge
    simp only [List.mem_map, List.mem_range, Prod.mk.injEq]
    constructor
    · rintro ⟨i, hi, rfl, rfl⟩
      have hN : 1 < N := by
        by_contra h
        have : N - 1 = 0 := by omega
        rw [this] at hi; simp at hi
      have h1 : i / (N - 1) < N := Nat.div_lt_of_lt_mul (by rwa [Nat.mul_comm])
      have h2 : i % (N - 1) < N - 1 := Nat.mod_lt _ (by omega)
      refine ⟨h1, ?_, ?_⟩ <;> split_ifs <;> omega
    · rintro ⟨hu, hv, hne⟩
      have hN : 1 < N := by omega
      rcases Nat.lt_or_gt_of_ne hne with h | h
      · refine ⟨u * (N - 1) + (v - 1), ?_, ?_, ?_⟩
        · calc u * (N - 1) + (v - 1) < u * (N - 1) + (N - 1) := by omega
            _ = (u + 1) * (N - 1) := by ring
            _ ≤ N * (N - 1) := Nat.mul_le_mul_right _ hu
        · rw [Nat.add_comm, Nat.add_mul_div_right _ _ (by omega), Nat.div_eq_of_lt (by omega)]; omega
        · have e1 : (u * (N - 1) + (v - 1)) % (N - 1) = v - 1 := by
            rw [Nat.add_comm, Nat.add_mul_mod_self_right, Nat.mod_eq_of_lt (by omega)]
          have e2 : (u * (N - 1) + (v - 1)) / (N - 1) = u := by
            rw [Nat.add_comm, Nat.add_mul_div_right _ _ (by omega), Nat.div_eq_of_lt (by omega)]; omega
          rw [e1, e2, if_pos (by omega)]; omega
      · refine ⟨u * (N - 1) + v, ?_, ?_, ?_⟩
        · calc u * (N - 1) + v < u * (N - 1) + (N - 1) := by omega
            _ = (u + 1) * (N - 1) := by ring
            _ ≤ N * (N - 1) := Nat.mul_le_mul_right _ hu
        · rw [Nat.add_comm, Nat.add_mul_div_right _ _ (by omega), Nat.div_eq_of_lt (by omega)]; omega
        · have e1 : (u * (N - 1) + v) % (N - 1) = v := by
            rw [Nat.add_comm, Nat.add_mul_mod_self_right, Nat.mod_eq_of_lt (by omega)]
          have e2 : (u * (N - 1) + v) / (N - 1) = u := by
            rw [Nat.add_comm, Nat.add_mul_div_right _ _ (by omega), Nat.div_eq_of_lt (by omega)]; omega
          rw [e1, e2, if_neg (by omega), Nat.add_zero]
  have hinj : ∀ i j, n2Edge N i = n2Edge N j → i = j := by
    intro i j h
    unfold n2Edge at h
    simp only [Prod.mk.injEq] at h
    obtain ⟨h1, h2⟩ := h
    rw [h1] at h2
    have h3 : i % (N - 1) = j % (N - 1) := by
      split_ifs at h2 <;> omega
    rw [← Nat.div_add_mod i (N - 1), ← Nat.div_add_mod j (N - 1), h1, h3]
  have hout : ∀ u v, (u, v) ∈ pcgOutEdges N u ↔ v < N ∧ u ≠ v := by
    intro u v; simp [pcgOutEdges]
  refine ⟨List.nodup_range.map hinj, hmem, by simp [pcgEdges], ?_, ?_, ?_, ?_⟩
  · intro u hu
    refine ⟨(List.nodup_range.filter _).map fun a b e => congrArg Prod.snd e, ?_, ?_⟩
    · rintro ⟨a, b⟩
      constructor
      · intro h
        have ha : a = u := by
          obtain ⟨v, _, e⟩ := List.mem_map.1 h
          exact (congrArg Prod.fst e).symm
        subst ha
        exact ⟨(hmem a b).2 ⟨hu, (hout a b).1 h⟩, rfl⟩
      · rintro ⟨h, rfl⟩
        exact (hout a b).2 ((hmem a b).1 h).2
    · have hcount : ∀ n, ((List.range n).filter fun v => decide (u ≠ v)).length = if u < n then n - 1 else n := by
        intro n
        induction n with
        | zero => simp
        | succ n ih =>
          rw [List.range_succ, List.filter_append, List.length_append, ih]
          by_cases h1 : u < n
          · have : u ≠ n := by omega
            simp [h1, this, show u < n + 1 by omega]; omega
          · by_cases h2 : u = n
            · subst h2; simp
            · simp [h1, h2, show ¬ u < n + 1 by omega]
      unfold pcgOutEdges pcgOutDegree
      rw [List.length_map, hcount, if_pos hu]
  · rintro ⟨a, b⟩ h ⟨a', b'⟩ h' e
    obtain ⟨h1, h2, h3⟩ := (hmem a b).1 h
    obtain ⟨k1, k2, k3⟩ := (hmem a' b').1 h'
    unfold pcgIndex at e
    simp only at e
    have e1 : (N * a + b) % N = (N * a' + b') % N := by rw [e]
    have e2 : (N * a + b) / N = (N * a' + b') / N := by rw [e]
    rw [Nat.mul_add_mod, Nat.mul_add_mod, Nat.mod_eq_of_lt h2, Nat.mod_eq_of_lt k2] at e1
    rw [Nat.mul_add_div (by omega), Nat.mul_add_div (by omega), Nat.div_eq_of_lt h2, Nat.div_eq_of_lt k2] at e2
    rw [e1, show a = a' by omega]
  · rintro ⟨a, b⟩ h
    obtain ⟨h1, h2, h3⟩ := (hmem a b).1 h
    unfold pcgIndex
    calc N * a + b < N * a + N := by omega
      _ = N * (a + 1) := by ring
      _ ≤ N * N := Nat.mul_le_mul_left _ h1
  · rintro ⟨a, b⟩ h
    obtain ⟨h1, h2, h3⟩ := (hmem a b).1 h
    refine ⟨(hmem b a).2 ⟨h2, h1, h3.symm⟩, ?_, rfl⟩
    intro e
    exact h3 (congrArg Prod.snd e)

/-! ### C61 -/

/-- the states of the construction at the head of the loop -/
inductive GHReach (mf : MaxFlow) (pt : Partition) (N : Nat) (ws : List ℚ) : GHState → Prop
  | init : 2 ≤ N → GHReach mf pt N ws (ghInit N)
  | step {s s' c} : GHReach mf pt N ws s → ghStep mf pt N ws s = some (s', c) → GHReach mf pt N ws s'

theorem GHReach.inv {N : Nat} {ws : List ℚ} {s : GHState} (hmf : mf.Correct) (hpt : pt.Correct) (h : GHReach mf pt N ws s) :
    GHInv N ws s ∧ ∃ calls, GHCalls N ws s calls := by
  induction h with
  | init h => exact ⟨(ghInit_inv h).1, [], (ghInit_inv h).2⟩
  | step _ hs ih =>
    obtain ⟨h1, calls, h2⟩ := ih
    obtain ⟨k1, k2⟩ := ghStep_inv hmf hpt h1 h2 hs
    exact ⟨k1, _, k2⟩

theorem length_eraseDups_le (n : Nat) (l : List Nat) (h : l.length ≤ n) : l.eraseDups.length ≤ l.length := by
  induction n generalizing l with
  | zero =>
    have : l = [] := List.length_eq_zero_iff.1 (by omega)
    subst this; simp
  | succ n ih =>
    cases l with
    | nil => simp
    | cons a t =>
      rw [List.eraseDups_cons, List.length_cons, List.length_cons]
      have h1 := List.length_filter_le (fun b => !b == a) t
      have h2 := ih (t.filter fun b => !b == a) (by simp at h; omega)
      omega

/-- **C61.** Whenever the construction starts an iteration (on a nonempty stack, with split vertex `X`): the vertex
exists and its bag has a first and another last node; there is room for one more vertex in the table of `N` bags; the
contracted graph has at most `N` vertices, so its tables of `N` and `N * N` entries suffice, and every node has a
position in it; every neighbour in the tree has a nonempty bag; and all looked-up weights are in the table. -/
theorem C61_table_accesses {N : Nat} {ws : List ℚ} {s : GHState} (hmf : mf.Correct) (hpt : pt.Correct) (h : GHReach mf pt N ws s)
    {X : Nat} {rest : List Nat} (hst : s.stack = X :: rest) (hws : ws.length = N * (N - 1) / 2) :
    X < s.bags.length ∧ 2 ≤ (s.bags.getD X []).length ∧ s.bags.length < N ∧
    (forestReps s.bags.length s.edges X).length + (s.bags.getD X []).length ≤ N ∧
    (∀ v < N, ghPos s X v < (forestReps s.bags.length s.edges X).length + (s.bags.getD X []).length) ∧
    (∀ e ∈ s.edges, e.1 < s.bags.length ∧ e.2.1 < s.bags.length ∧ s.bags.getD e.1 [] ≠ [] ∧ s.bags.getD e.2.1 [] ≠ []) ∧
    (∀ e ∈ ghPairs N, triIndex e.1 e.2 < ws.length) := by
  obtain ⟨hi, _⟩ := h.inv hmf hpt
  have hX := (hi.stack X).1 (by rw [hst]; simp)
  have hsum := hi.total
  have hsplit : s.bags = s.bags.take X ++ s.bags[X]'hX.1 :: s.bags.drop (X + 1) := by simp
  have hlen : s.bags.length = (s.bags.take X).length + 1 + (s.bags.drop (X + 1)).length := by
    have := congrArg List.length hsplit
    simp only [List.length_append, List.length_cons] at this
    omega
  have h1 := sum_ge_length (s.bags.take X) fun b hb => hi.ne b (List.mem_of_mem_take hb)
  have h2 := sum_ge_length (s.bags.drop (X + 1)) fun b hb => hi.ne b (List.mem_of_mem_drop hb)
  have h3 : (s.bags[X]'hX.1).length = (s.bags.getD X []).length := by
    have hx := hX.1
    simp [List.getD_eq_getElem?_getD, hx]
  rw [hsplit, List.map_append, List.sum_append, List.map_cons, List.sum_cons] at hsum
  have hne : ∀ i < s.bags.length, s.bags.getD i [] ≠ [] := by
    intro i hi'
    rw [List.getD_eq_getElem?_getD, List.getElem?_eq_getElem hi']
    exact hi.ne _ (List.getElem_mem hi')
  have hreps : (forestReps s.bags.length s.edges X).length ≤ s.bags.length - 1 := by
    unfold forestReps
    refine (length_eraseDups_le _ _ le_rfl).trans ?_
    rw [List.length_map]
    have hcount : ∀ n, X < n → ((List.range n).filter fun v => decide (v ≠ X)).length ≤ n - 1 := by
      intro n
      induction n with
      | zero => simp
      | succ n ih =>
        intro hn
        rw [List.range_succ, List.filter_append, List.length_append]
        by_cases hx : X < n
        · have := ih hx
          have h4 := List.length_filter_le (fun v => decide (v ≠ X)) [n]
          simp only [List.length_singleton] at h4
          omega
        · have : X = n := by omega
          subst this
          have h4 := List.length_filter_le (fun v => decide (v ≠ X)) (List.range X)
          simp only [List.length_range] at h4
          simp
          simpa using h4
    exact hcount _ hX.1
  refine ⟨hX.1, hX.2, by omega, by omega, fun v hv => hi.pos_lt hv, ?_, ?_⟩
  · intro e he
    have := hi.lt e he
    exact ⟨this.1, this.2, hne _ this.1, hne _ this.2⟩
  · intro e he
    obtain ⟨e1, e2⟩ := mem_ghPairs.1 he
    rw [hws]
    unfold triIndex
    have : e.1 * (e.1 - 1) / 2 + e.1 ≤ N * (N - 1) / 2 := by
      have h5 := Nat.triangle_succ e.1
      have h6 : (e.1 + 1) * (e.1 + 1 - 1) / 2 ≤ N * (N - 1) / 2 :=
        Nat.div_le_div_right (Nat.mul_le_mul (by omega) (by omega))
      omega
    omega

/-! ### executable instances of the oracles -/

/-- a maximum flow algorithm that tries all cuts -/
def bruteFlow : MaxFlow := fun N keep c s t =>
  let masks := (List.range (2 ^ N)).filter fun m => m.testBit s && !m.testBit t
  let best := masks.foldl (fun (b : ℚ × Nat) m =>
    let q := flowCut N keep c fun v => m.testBit v
    if q < b.1 then (q, m) else b) (flowCut N keep c fun v => decide (v = s), 2 ^ s)
  (best.1, fun v => best.2.testBit v)

theorem bruteFold (f : Nat → ℚ) (l : List Nat) (b : ℚ × Nat) (P : Nat → Prop) (hb : b.1 = f b.2 ∧ P b.2) (hl : ∀ m ∈ l, P m) :
    let r := l.foldl (fun (b : ℚ × Nat) m => if f m < b.1 then (f m, m) else b) b
    r.1 = f r.2 ∧ P r.2 ∧ r.1 ≤ b.1 ∧ ∀ m ∈ l, r.1 ≤ f m := by
  induction l generalizing b with
  | nil => exact ⟨hb.1, hb.2, le_refl _, by simp⟩
  | cons a l ih =>
    simp only [List.foldl_cons]
    by_cases h : f a < b.1
    · rw [if_pos h]
      obtain ⟨h1, h2, h3, h4⟩ := ih (f a, a) ⟨rfl, hl a (by simp)⟩ fun m hm => hl m (by simp [hm])
      refine ⟨h1, h2, h3.trans h.le, ?_⟩
      intro m hm
      rcases List.mem_cons.1 hm with rfl | hm
      · exact h3
      · exact h4 m hm
    · rw [if_neg h]
      obtain ⟨h1, h2, h3, h4⟩ := ih b hb fun m hm => hl m (by simp [hm])
      refine ⟨h1, h2, h3, ?_⟩
      intro m hm
      rcases List.mem_cons.1 hm with rfl | hm
      · exact h3.trans (not_lt.1 h)
      · exact h4 m hm

theorem bruteFlow_correct : bruteFlow.Correct := by
  have key : ∀ N keep c s t, s < N → s ≠ t →
      (bruteFlow N keep c s t).1 = flowCut N keep c (bruteFlow N keep c s t).2 ∧
      ((bruteFlow N keep c s t).2 s = true ∧ (bruteFlow N keep c s t).2 t = false) ∧
      ∀ B : Nat → Bool, B s = true → B t = false → t < N → (bruteFlow N keep c s t).1 ≤ flowCut N keep c B := by
    intro N keep c s t hs hst
    have hbit : ∀ v, (2 ^ s).testBit v = decide (v = s) := by
      intro v
      rw [Nat.testBit_two_pow]
      simp [eq_comm]
    obtain ⟨h1, h2, h3, h4⟩ := bruteFold (fun m => flowCut N keep c fun v => m.testBit v)
      ((List.range (2 ^ N)).filter fun m => m.testBit s && !m.testBit t)
      (flowCut N keep c fun v => decide (v = s), 2 ^ s) (fun m => m.testBit s = true ∧ m.testBit t = false)
      ⟨by simp only [hbit], by simp [hbit, Ne.symm hst]⟩ (by
        intro m hm
        have := (List.mem_filter.1 hm).2
        simpa using this)
    refine ⟨h1, h2, ?_⟩
    intro B b1 b2 ht
    have hlt : Nat.ofBits (fun i : Fin N => B i) < 2 ^ N := Nat.ofBits_lt_two_pow _
    have hval : ∀ v < N, (Nat.ofBits fun i : Fin N => B i).testBit v = B v := fun v hv => by rw [Nat.testBit_ofBits_lt _ _ hv]
    have := h4 (Nat.ofBits fun i : Fin N => B i) (List.mem_filter.2 ⟨List.mem_range.2 hlt, by simp [hval s hs, hval t ht, b1, b2]⟩)
    refine this.trans (le_of_eq ?_)
    unfold flowCut
    refine Finset.sum_congr rfl fun u hu => Finset.sum_congr rfl fun v hv => ?_
    simp only [hval u (Finset.mem_range.1 hu), hval v (Finset.mem_range.1 hv)]
  constructor
  · intro N keep c s t hs ht hst _ _
    exact (key N keep c s t hs hst).2.1
  · intro N keep c s t hs ht hst _ _ _
    exact (key N keep c s t hs hst).1
  · intro N keep c s t hs ht hst _ _ _ B b1 b2
    exact (key N keep c s t hs hst).2.2 B b1 b2 ht

/-- a partition that keeps the order -/
def stablePartition : Partition := fun p l => (l.filter p, l.filter fun v => !p v)

theorem stablePartition_correct : stablePartition.Correct := by
  refine ⟨?_, ?_, ?_⟩
  · intro p l x hx; exact (List.mem_filter.1 hx).2
  · intro p l x hx; simpa using (List.mem_filter.1 hx).2
  · intro p l
    exact List.filter_append_perm p l

/-- a run of the construction on a triangle: the hypotheses of C50, C51 and C61 are met by computable oracles -/
example : bruteFlow.Correct ∧ stablePartition.Correct ∧
    (createGomoryHuTree bruteFlow stablePartition 3 [3, 1, 2] (fun _ => false) 3).1.map (fun c => (c.u, c.v, c.size, c.compU, c.compV)) =
      [(0, 2, 3, [0, 1], [2]), (0, 1, 4, [0], [1, 2])] :=
  ⟨bruteFlow_correct, stablePartition_correct, by decide +kernel⟩

/-- with a callback that stops at once -/
example : (createGomoryHuTree bruteFlow stablePartition 3 [3, 1, 2] (fun _ => true) 3).1.map (fun c => (c.u, c.v, c.size, c.compU, c.compV)) =
    [(0, 2, 3, [0, 1], [2])] := by decide +kernel

example : ∃ s X rest, GHReach bruteFlow stablePartition 3 [3, 1, 2] s ∧ s.stack = X :: rest ∧ s.edges ≠ [] := by
  have key : (match ghStep bruteFlow stablePartition 3 [3, 1, 2] (ghInit 3) with
    | some (s, _) => !s.stack.isEmpty && !s.edges.isEmpty
    | none => false) = true := by decide +kernel
  cases h : ghStep bruteFlow stablePartition 3 [3, 1, 2] (ghInit 3) with
  | none => rw [h] at key; simp at key
  | some sc =>
    obtain ⟨s, c⟩ := sc
    rw [h] at key
    simp only [Bool.and_eq_true, Bool.not_eq_true', List.isEmpty_eq_false_iff] at key
    obtain ⟨X, rest, hst⟩ := List.exists_cons_of_ne_nil key.1
    exact ⟨s, X, rest, GHReach.step (GHReach.init (by omega)) h, hst, key.2⟩

/-! ### C60 for the real construction -/

theorem ghLoop_mem {N : Nat} {ws : List ℚ} {stop : List GHCall → Bool} (fuel : Nat) (s : GHState) (calls : List GHCall) {c : GHCall} (h : c ∈ calls) :
    c ∈ (ghLoop mf pt N ws stop fuel s calls).1 := by
  induction fuel generalizing s calls with
  | zero => unfold ghLoop; simpa using h
  | succ fuel ih =>
    unfold ghLoop
    cases ghStep mf pt N ws s with
    | none => simpa using h
    | some sc =>
      simp only
      split
      · simp [h]
      · exact ih _ _ (by simp [h])

open Classical in
/-- an algorithm that prefers the cut `B0` if that is minimal -/
noncomputable def preferFlow (mf : MaxFlow) (B0 : Nat → Bool) : MaxFlow := fun N keep c s t =>
  if B0 s = true ∧ B0 t = false ∧ ∀ B : Nat → Bool, B s = true → B t = false → flowCut N keep c B0 ≤ flowCut N keep c B
  then (flowCut N keep c B0, B0) else mf N keep c s t

theorem preferFlow_correct (h : mf.Correct) (B0 : Nat → Bool) : (preferFlow mf B0).Correct := by
  constructor
  · intro N keep c s t hs ht hst ks kt
    unfold preferFlow
    split
    · rename_i hh; exact ⟨hh.1, hh.2.1⟩
    · exact h.sides N keep c s t hs ht hst ks kt
  · intro N keep c s t hs ht hst ks kt h0
    unfold preferFlow
    split
    · rfl
    · exact h.size N keep c s t hs ht hst ks kt h0
  · intro N keep c s t hs ht hst ks kt h0
    unfold preferFlow
    split
    · rename_i hh; exact hh.2.2
    · exact h.minimal N keep c s t hs ht hst ks kt h0

/-- the nodes 0, 1, 2 -/
def firstHalf (v : Nat) : Bool := decide (v < 3)

theorem gcut_six (ws : List ℚ) (B : Nat → Bool) (h0 : B 0 = true) (h5 : B 5 = false)
    (hall : ∀ b1 b2 b3 b4 : Bool, gcut 6 ws firstHalf ≤
      gcut 6 ws fun v => ([true, b1, b2, b3, b4, false] : List Bool).getD v false) : gcut 6 ws firstHalf ≤ gcut 6 ws B := by
  refine (hall (B 1) (B 2) (B 3) (B 4)).trans (le_of_eq (gcut_congr ?_))
  intro v hv
  have hv : v = 0 ∨ v = 1 ∨ v = 2 ∨ v = 3 ∨ v = 4 ∨ v = 5 := by omega
  rcases hv with rfl | rfl | rfl | rfl | rfl | rfl <;> simp [h0, h5]

/-- the first call for the graph `ws` on six nodes -/
theorem first_call {ws : List ℚ} (hall : ∀ b1 b2 b3 b4 : Bool, gcut 6 ws firstHalf ≤
    gcut 6 ws fun v => ([true, b1, b2, b3, b4, false] : List Bool).getD v false) :
    ⟨0, 5, gcut 6 ws firstHalf, [0, 1, 2], [3, 4, 5]⟩ ∈
      (createGomoryHuTree (preferFlow mf firstHalf) stablePartition 6 ws (fun _ => false) 6).1 := by
  have hreps : forestReps (ghInit 6).bags.length (ghInit 6).edges 0 = [] := by decide
  have hpos : ∀ v < 6, ghPos (ghInit 6) 0 v = v := by decide
  have hbag : (ghInit 6).bags.getD 0 [] = [0, 1, 2, 3, 4, 5] := by decide
  have hflow : ∀ B, flowCut 6 (fun _ => true) (fun u v => ghCaps 6 ws (ghPos (ghInit 6) 0) 6 (pcgIndex 6 (u, v))) B = gcut 6 ws B := by
    intro B
    rw [flowCut_caps fun v hv => by rw [hpos v hv]; exact hv]
    exact gcut_congr fun v hv => by rw [hpos v hv]
  have hmf : preferFlow mf firstHalf 6 (fun _ => true) (fun u v => ghCaps 6 ws (ghPos (ghInit 6) 0) 6 (pcgIndex 6 (u, v))) 0 5 =
      (gcut 6 ws firstHalf, firstHalf) := by
    unfold preferFlow
    rw [if_pos]
    · rw [hflow]
    · refine ⟨rfl, rfl, ?_⟩
      intro B b0 b5
      rw [hflow, hflow]
      exact gcut_six ws B b0 b5 hall
  have hpart : ∀ l : List Nat, (∀ v ∈ l, v < 6) → stablePartition (fun v => firstHalf (ghPos (ghInit 6) 0 v)) l = stablePartition firstHalf l := by
    intro l hl
    unfold stablePartition
    have h1 : l.filter (fun v => firstHalf (ghPos (ghInit 6) 0 v)) = l.filter firstHalf :=
      List.filter_congr fun v hv => by rw [hpos v (hl v hv)]
    have h2 : l.filter (fun v => !firstHalf (ghPos (ghInit 6) 0 v)) = l.filter fun v => !firstHalf v :=
      List.filter_congr fun v hv => by rw [hpos v (hl v hv)]
    rw [h1, h2]
  have hstep : ∃ s', ghStep (preferFlow mf firstHalf) stablePartition 6 ws (ghInit 6) = some (s', ⟨0, 5, gcut 6 ws firstHalf, [0, 1, 2], [3, 4, 5]⟩) := by
    have hst : (ghInit 6).stack = [0] := rfl
    unfold ghStep
    rw [hst]
    simp only
    rw [hreps, hbag]
    have e1 : ([] : List Nat).length + [0, 1, 2, 3, 4, 5].length = 6 := rfl
    have e2 : ([0, 1, 2, 3, 4, 5] : List Nat).headD 0 = 0 := rfl
    have e3 : ([0, 1, 2, 3, 4, 5] : List Nat).getLastD 0 = 5 := rfl
    rw [e1, e2, e3, hpos 0 (by omega), hpos 5 (by omega), hmf]
    have e4 : stablePartition (fun v => firstHalf (ghPos (ghInit 6) 0 v)) (ghInit 6).storage = ([0, 1, 2], [3, 4, 5]) := by
      rw [hpart _ (by decide)]
      decide
    simp only
    rw [e4]
    exact ⟨_, rfl⟩
  obtain ⟨s', hs⟩ := hstep
  unfold createGomoryHuTree
  rw [if_neg (by omega)]
  unfold ghLoop
  rw [hs]
  simp only [Bool.false_eq_true, if_false]
  exact ghLoop_mem _ _ _ (by simp)

/-- the weights `TwoMatching` hands to the construction for the point `mixY` -/
def mixCaps : List ℚ := capTable 6 fun u v => if v < u
  then min (tableWeight (weightTable 1 6 mixY) u v) (1 - tableWeight (weightTable 1 6 mixY) u v)
  else min (tableWeight (weightTable 1 6 mixY) v u) (1 - tableWeight (weightTable 1 6 mixY) v u)

/-- **C60 is false in full, also for the cuts of the Gomory-Hu construction itself** (with a correct maximum flow
algorithm and a correct partition): `TwoMatching` can add a constraint that the current point already satisfies. -/
theorem C60_refuted_gomory_hu : ∃ (w : Weights) (m : WM) (mf : MaxFlow) (pt : Partition) (y : Nat → ℚ) (c : LinCon),
    WM.make 6 6 w [0] [5] = .ok m ∧ mf.Correct ∧ pt.Correct ∧
    (∀ c ∈ buildConstraints m.n m.starts m.ends m.deps.arcs, c.Sat y) ∧
    (∀ i < m.starts.length * m.n * m.n, 0 ≤ y i ∧ y i ≤ 1) ∧
    c ∈ twoMatching (ghStream mf pt) m.starts.length m.n y ∧ c.Sat y := by
  have key : triTest mixY (fun l => match l with | c :: _ => satB mixY c | [] => false) = true := by decide +kernel
  obtain ⟨m, hm, hn, hA, hr, hb, hp⟩ := triTest_iff key
  have hlist : mixCaps = [1 / 5, 1 / 5, 1 / 5, 0, 0, 2 / 5, 0, 0, 0, 1 / 5, 0, 0, 0, 1 / 5, 1 / 5] := by decide +kernel
  have hall : ∀ b1 b2 b3 b4 : Bool, gcut 6 mixCaps firstHalf ≤
      gcut 6 mixCaps fun v => ([true, b1, b2, b3, b4, false] : List Bool).getD v false := by
    rw [hlist]
    decide +kernel
  cases e : twoMatching ghHalves m.starts.length m.n mixY with
  | nil => rw [e] at hp; simp at hp
  | cons c l =>
    rw [e] at hp
    refine ⟨_, m, preferFlow bruteFlow firstHalf, stablePartition, mixY, c, hm, preferFlow_correct bruteFlow_correct _, stablePartition_correct, hr, hb, ?_, (satB_iff _ _).1 hp⟩
    have hc : c ∈ twoMatching ghHalves m.starts.length m.n mixY := by rw [e]; simp
    rw [hn, hA] at hc ⊢
    unfold twoMatching at hc ⊢
    simp only [List.mem_filterMap] at hc ⊢
    obtain ⟨d, hd, hdc⟩ := hc
    unfold ghHalves at hd
    rw [if_pos rfl, List.mem_singleton] at hd
    refine ⟨d, ?_, hdc⟩
    unfold ghStream
    refine List.mem_map.2 ⟨_, first_call (mf := bruteFlow) (ws := mixCaps) hall, ?_⟩
    rw [hd]
    simp only [Prod.mk.injEq, and_true]
    rw [hlist]
    decide +kernel

end Mtsp
