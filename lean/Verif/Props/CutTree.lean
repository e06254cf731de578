import Verif.Proof.CombExact

/-! C74: the cuts of the Gomory-Hu construction answer every pair.  C75: the 2-matching separation is exact. -/

namespace Mtsp
open Finset

variable {mf : MaxFlow} {pt : Partition}

/-! ### C74 -/

theorem separating_call (hmf : mf.Correct) (hpt : pt.Correct) {N : Nat} {ws : List ℚ} (h0 : ∀ q ∈ ws, 0 ≤ q) {fuel : Nat} (hf : N - 1 ≤ fuel)
    {a b : Nat} (ha : a < N) (hb : b < N) {W : Nat → Bool} (hW : W a ≠ W b) :
    ∃ c ∈ (createGomoryHuTree mf pt N ws (fun _ => false) fuel).1, ¬ (a ∈ c.compU ↔ b ∈ c.compU) ∧ c.size ≤ cutWeight N (edgeWeight ws) W := by
  obtain ⟨k, L, h1, h2⟩ := createGomoryHuTree_span hmf hpt h0 hf W
  by_contra hno
  push Not at hno
  have hsame : (L.map fun c => ind (decide (a ∈ c.compU))) = L.map fun c => ind (decide (b ∈ c.compU)) := by
    apply List.map_congr_left
    intro c hc
    by_cases hs : a ∈ c.compU ↔ b ∈ c.compU
    · rw [decide_eq_decide.2 hs]
    · exact absurd (h1 c hc).2 (not_le.2 (hno c (h1 c hc).1 (by tauto)))
  have he : ind (W a) = ind (W b) := by rw [h2 a ha, h2 b hb, hsame]
  have := ind_ne hW
  rw [he, CharTwo.add_self_eq_zero] at this
  exact absurd this (by decide)

/-- **C74.** If the callback does not ask to stop, then for any two different nodes one of the (at most `N - 1`) reported cuts is a
minimum cut between them: it separates them, its size is the total weight of the edges between its two components, and no set of nodes that
separates them has less. -/
theorem C74_every_pair (hmf : mf.Correct) (hpt : pt.Correct) {N : Nat} {ws : List ℚ} (h0 : ∀ q ∈ ws, 0 ≤ q) {fuel : Nat} (hf : N - 1 ≤ fuel)
    {a b : Nat} (ha : a < N) (hb : b < N) (hab : a ≠ b) :
    ∃ c ∈ (createGomoryHuTree mf pt N ws (fun _ => false) fuel).1,
      (a ∈ c.compU ∧ b ∈ c.compV ∨ a ∈ c.compV ∧ b ∈ c.compU) ∧
      c.size = (c.compU.map fun u => (c.compV.map fun v => edgeWeight ws u v).sum).sum ∧
      ∀ W : Nat → Bool, W a ≠ W b → c.size ≤ cutWeight N (edgeWeight ws) W := by
  classical
  set calls := (createGomoryHuTree mf pt N ws (fun _ => false) fuel).1 with hcalls
  have hsep : ∀ W : Nat → Bool, W a ≠ W b → ∃ c ∈ calls.toFinset.filter (fun c => ¬ (a ∈ c.compU ↔ b ∈ c.compU)), c.size ≤ cutWeight N (edgeWeight ws) W := by
    intro W hW
    obtain ⟨c, h1, h2, h3⟩ := separating_call hmf hpt h0 hf ha hb hW
    exact ⟨c, Finset.mem_filter.2 ⟨List.mem_toFinset.2 h1, h2⟩, h3⟩
  obtain ⟨c0, hc0, _⟩ := hsep (fun v => decide (v = a)) (by simp [Ne.symm hab])
  obtain ⟨c, hc, hmin⟩ := Finset.exists_min_image _ GHCall.size ⟨c0, hc0⟩
  obtain ⟨hc1, hc2⟩ := Finset.mem_filter.1 hc
  have hc1 := List.mem_toFinset.1 hc1
  have hp := (C50_partitions hmf hpt N ws (fun _ => false) hf).2.1 c hc1
  have hm := C51_minimum_cuts hmf hpt N h0 (fun _ => false) hf c hc1
  refine ⟨c, hc1, ?_, hm.size, ?_⟩
  · have h1 := (hp.cover a).1 ha
    have h2 := (hp.cover b).1 hb
    have h3 := hp.disjoint a
    have h4 := hp.disjoint b
    tauto
  · intro W hW
    obtain ⟨c', h1, h2⟩ := hsep W hW
    exact (hmin c' h1).trans h2

/-- non-vacuity: in the triangle with weights 3 (0-1), 1 (0-2), 2 (1-2) the two reported cuts serve three pairs -/
example : ∃ c ∈ (createGomoryHuTree bruteFlow stablePartition 3 [3, 1, 2] (fun _ => false) 3).1,
    (1 ∈ c.compU ∧ 2 ∈ c.compV ∨ 1 ∈ c.compV ∧ 2 ∈ c.compU) ∧ c.size = 3 := by decide +kernel

example : ∃ c ∈ (createGomoryHuTree bruteFlow stablePartition 3 [3, 1, 2] (fun _ => false) 3).1,
    ∀ W : Nat → Bool, W 1 ≠ W 2 → c.size ≤ cutWeight 3 (edgeWeight [3, 1, 2]) W := by
  obtain ⟨c, h1, _, _, h2⟩ := C74_every_pair bruteFlow_correct stablePartition_correct (N := 3) (ws := [3, 1, 2]) (by decide +kernel) (fuel := 3) (by omega)
    (a := 1) (b := 2) (by omega) (by omega) (by omega)
  exact ⟨c, h1, h2⟩

/-! ### C75 -/

variable {rows cols : Nat} {w : Weights} {starts ends : List Nat} {m : WM} {y : Nat → ℚ}

/-- **C75.** At every point that satisfies the rows of the LP: the 2-matching separation reports constraints if and only if the
point violates some 2-matching inequality by more than the tolerance - although it looks at no more than `N - 1` of the `2^N` handles. -/
theorem C75_two_matching_exact (hmf : mf.Correct) (hpt : pt.Correct) (h : WM.make rows cols w starts ends = .ok m)
    (hy : ∀ i < m.starts.length * m.n * m.n, 0 ≤ y i)
    (hrows : ∀ c ∈ buildConstraints m.n m.starts m.ends m.deps.arcs, c.Sat y) :
    twoMatching (ghStream mf pt) m.starts.length m.n y ≠ [] ↔ CombViolated m.starts.length m.n y (1 / 10 ^ 10) :=
  ⟨comb_violated h (ghStream_correct hmf hpt) hy hrows, comb_found h (ghStream_correct hmf hpt) (ghStream_spans hmf hpt) hy hrows⟩

/-- **C75**, the case that nothing is reported: all 2-matching inequalities hold up to the tolerance. -/
theorem C75_nothing_reported (hmf : mf.Correct) (hpt : pt.Correct) (h : WM.make rows cols w starts ends = .ok m)
    (hy : ∀ i < m.starts.length * m.n * m.n, 0 ≤ y i)
    (hrows : ∀ c ∈ buildConstraints m.n m.starts m.ends m.deps.arcs, c.Sat y)
    (hnone : twoMatching (ghStream mf pt) m.starts.length m.n y = []) (W : Nat → Bool) (F : Nat → Nat → Bool) (hodd : teeth m.n W F % 2 = 1) :
    1 - 1 / 10 ^ 10 ≤ combValue m.starts.length m.n y W F := by
  by_contra hlt
  exact (C75_two_matching_exact hmf hpt h hy hrows).2 ⟨W, F, hodd, not_le.1 hlt⟩ hnone

/-- at the point `triY` the handle {0, 1, 2} with three heavy teeth is violated -/
theorem triY_violated : CombViolated 1 6 triY (1 / 10 ^ 10) := by
  refine ⟨firstHalf, fun u v => decide (edgeUse 1 6 triY u v > 1 / 2), ?_, ?_⟩ <;> decide +kernel

/-- non-vacuity of C75: a point with a violated inequality, hence something is reported; and a tour, where nothing is -/
example : ∃ m, WM.make 6 6 (fun _ _ => 1) [0] [5] = .ok m ∧
    (∀ c ∈ buildConstraints m.n m.starts m.ends m.deps.arcs, c.Sat triY) ∧
    twoMatching (ghStream bruteFlow stablePartition) m.starts.length m.n triY ≠ [] := by
  have key : triTest triY (fun _ => true) = true := by decide +kernel
  obtain ⟨m, hm, hn, hA, hr, hb, _⟩ := triTest_iff key
  refine ⟨m, hm, hr, ?_⟩
  rw [C75_two_matching_exact bruteFlow_correct stablePartition_correct hm (fun i hi => (hb i hi).1) hr, hn, hA]
  exact triY_violated

example : ∃ m, WM.make 6 6 (fun _ _ => 1) [0] [5] = .ok m ∧ ∀ W F, teeth m.n W F % 2 = 1 →
    1 - 1 / 10 ^ 10 ≤ combValue m.starts.length m.n triT W F := by
  have key : triTest triT (fun _ => true) = true := by decide +kernel
  have key2 : twoMatching (ghStream bruteFlow stablePartition) 1 6 triT = [] := by decide +kernel
  obtain ⟨m, hm, hn, hA, hr, hb, _⟩ := triTest_iff key
  refine ⟨m, hm, fun W F => C75_nothing_reported bruteFlow_correct stablePartition_correct hm (fun i hi => (hb i hi).1) hr ?_ W F⟩
  rw [hn, hA]; exact key2

end Mtsp
