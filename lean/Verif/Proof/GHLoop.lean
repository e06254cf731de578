import Verif.Proof.GHStep
import Mathlib.Algebra.BigOperators.Group.Finset.Basic
import Mathlib.Algebra.BigOperators.Group.Finset.Sigma

/-! The loop of the Gomory-Hu construction, and its cuts in terms of the specification. -/

namespace Mtsp
open Relation Finset

variable {N : Nat} {ws : List ℚ} {s s' : GHState} {X : Nat} {mf : MaxFlow} {pt : Partition} {c : GHCall}

theorem edgeWeight_comm (ws : List ℚ) (u v : Nat) : edgeWeight ws u v = edgeWeight ws v u := by
  unfold edgeWeight; rw [max_comm, min_comm]

theorem edgeWeight_lt {ws : List ℚ} {u v : Nat} (h : v < u) : edgeWeight ws u v = tableWeight ws u v := by
  unfold edgeWeight tableWeight triIndex
  rw [max_eq_left h.le, min_eq_right h.le]

theorem ghPairs_nodup (N : Nat) : (ghPairs N).Nodup := by
  unfold ghPairs
  rw [List.nodup_flatMap]
  constructor
  · intro u _
    exact List.nodup_range.map fun a b e => congrArg Prod.snd e
  · refine List.Pairwise.imp ?_ (List.nodup_range' (s := 1) (n := N - 1) (step := 1))
    intro a b hne e h1 h2
    obtain ⟨_, _, rfl⟩ := List.mem_map.1 h1
    obtain ⟨_, _, e⟩ := List.mem_map.1 h2
    exact hne (congrArg Prod.fst e).symm

theorem gcut_eq (N : Nat) (ws : List ℚ) (W : Nat → Bool) : gcut N ws W = cutWeight N (edgeWeight ws) W := by
  unfold gcut cutWeight
  rw [← List.sum_toFinset _ (ghPairs_nodup N)]
  have : (ghPairs N).toFinset = (range N ×ˢ range N).filter fun e => e.2 < e.1 := by
    ext e
    rw [List.mem_toFinset, mem_ghPairs, Finset.mem_filter, Finset.mem_product, Finset.mem_range, Finset.mem_range]
    omega
  rw [this, Finset.sum_filter, Finset.sum_product, Finset.sum_comm]
  refine Finset.sum_congr rfl fun u _ => Finset.sum_congr rfl fun v _ => ?_
  by_cases h : u < v
  · rw [if_pos h]
    by_cases hw : W u = W v
    · simp [hw]
    · rw [if_pos (Ne.symm hw), if_pos ⟨h, hw⟩, edgeWeight_comm, edgeWeight_lt h]
  · rw [if_neg h, if_neg fun hh => h hh.1]

theorem sum_filter_range (N : Nat) (p : Nat → Bool) (f : Nat → ℚ) (l : List Nat) (hl : l.Nodup) (hm : ∀ v, v ∈ l ↔ v < N ∧ p v = true) :
    (l.map f).sum = ∑ v ∈ range N, if p v = true then f v else 0 := by
  rw [← List.sum_toFinset _ hl, ← Finset.sum_filter]
  congr 1
  ext v
  rw [List.mem_toFinset, hm, Finset.mem_filter, Finset.mem_range]

/-- size of a cut as the sum over both sides -/
theorem cutWeight_sides (N : Nat) (ws : List ℚ) (B : Nat → Bool) (U V : List Nat) (hU : U.Nodup) (hV : V.Nodup)
    (mU : ∀ v, v ∈ U ↔ v < N ∧ B v = true) (mV : ∀ v, v ∈ V ↔ v < N ∧ B v = false) :
    cutWeight N (edgeWeight ws) B = (U.map fun u => (V.map fun v => edgeWeight ws u v).sum).sum := by
  rw [sum_filter_range N B _ U hU mU]
  have hV' : ∀ u, (V.map fun v => edgeWeight ws u v).sum = ∑ v ∈ range N, if B v = false then edgeWeight ws u v else 0 := by
    intro u
    rw [sum_filter_range N (fun v => !B v) _ V hV (by simpa using mV)]
    simp
  have key : ∀ u ∈ range N, (if B u = true then (V.map fun v => edgeWeight ws u v).sum else 0) =
      ∑ v ∈ range N, ((if u < v ∧ B u = true ∧ B v = false then edgeWeight ws u v else 0) +
        if v < u ∧ B u = true ∧ B v = false then edgeWeight ws u v else 0) := by
    intro u _
    by_cases hu : B u = true
    · rw [if_pos hu, hV']
      refine Finset.sum_congr rfl fun v _ => ?_
      by_cases hv : B v = false
      · have hne : u ≠ v := by rintro rfl; rw [hu] at hv; simp at hv
        rcases Nat.lt_or_gt_of_ne hne with h | h
        · simp [hu, hv, h, Nat.not_lt.2 h.le]
        · simp [hu, hv, h, Nat.not_lt.2 h.le]
      · simp [hv]
    · simp [hu]
  rw [Finset.sum_congr rfl key]
  simp only [Finset.sum_add_distrib]
  have hswap : ∑ u ∈ range N, ∑ v ∈ range N, (if v < u ∧ B u = true ∧ B v = false then edgeWeight ws u v else 0) =
      ∑ u ∈ range N, ∑ v ∈ range N, if u < v ∧ B v = true ∧ B u = false then edgeWeight ws u v else 0 := by
    rw [Finset.sum_comm]
    refine Finset.sum_congr rfl fun u _ => Finset.sum_congr rfl fun v _ => ?_
    rw [edgeWeight_comm]
  rw [hswap, ← Finset.sum_add_distrib]
  unfold cutWeight
  refine Finset.sum_congr rfl fun u _ => ?_
  rw [← Finset.sum_add_distrib]
  refine Finset.sum_congr rfl fun v _ => ?_
  by_cases h : u < v
  · cases hu : B u <;> cases hv : B v <;> simp [h]
  · simp [h]

/-- the two calls name the same pair of nodes -/
def SamePair (c c' : GHCall) : Prop := (c.u = c'.u ∧ c.v = c'.v) ∨ (c.u = c'.v ∧ c.v = c'.u)

/-- what is known about the calls so far -/
structure GHCalls (N : Nat) (ws : List ℚ) (s : GHState) (calls : List GHCall) : Prop where
  len : s.bags.length = calls.length + 1
  part : ∀ c ∈ calls, c.IsPartition N
  min : (∀ q ∈ ws, 0 ≤ q) → ∀ c ∈ calls, c.IsMinCut N ws
  sep : ∀ c ∈ calls, c.u < N ∧ c.v < N ∧ bagIdx s.bags c.u ≠ bagIdx s.bags c.v
  dist : calls.Pairwise fun c c' => ¬ SamePair c c'

theorem ghStep_inv (hmf : mf.Correct) (hpt : pt.Correct) (hi : GHInv N ws s) {calls : List GHCall} (hc : GHCalls N ws s calls)
    (hs : ghStep mf pt N ws s = some (s', c)) : GHInv N ws s' ∧ GHCalls N ws s' (c :: calls) := by
  unfold ghStep at hs
  split at hs
  · simp at hs
  · rename_i X rest hst
    obtain ⟨hctx, hsize⟩ := ghStep_ctx hmf hi hst
    simp only at hs hctx hsize
    generalize hr : mf _ _ _ _ _ = r at hs hctx hsize
    simp only [Option.some.injEq, Prod.mk.injEq] at hs
    obtain ⟨rfl, rfl⟩ := hs
    have hnd := hi.stackN
    rw [hst] at hnd
    have hstk := hi.stack
    rw [hst] at hstk
    have hXn : X ≠ s.bags.length := by have := hctx.lt; omega
    have hsto := hi.storage
    have hstoN : s.storage.Nodup := hsto.nodup_iff.2 List.nodup_range
    have hp := hpt.perm (fun v => r.2 (ghPos s X v)) s.storage
    have hpn : ((pt (fun v => r.2 (ghPos s X v)) s.storage).1 ++ (pt (fun v => r.2 (ghPos s X v)) s.storage).2).Nodup :=
      hp.nodup_iff.2 hstoN
    obtain ⟨hn1, hn2, hn3⟩ := List.nodup_append.1 hpn
    have hmem : ∀ v, v ∈ s.storage ↔ v < N := fun v => by rw [hsto.mem_iff, List.mem_range]
    obtain ⟨a1, a2⟩ := bag_mem hi.perm hctx.msrc
    obtain ⟨b1, b2⟩ := bag_mem hi.perm hctx.msnk
    refine ⟨hctx.inv' hpt r.1 ?_ ?_ (hp.trans hsto), ⟨?_, ?_, ?_, ?_, ?_⟩⟩
    · -- stack without duplicates
      have hrest := (List.nodup_cons.1 hnd)
      have hn : s.bags.length ∉ X :: rest := by
        intro hm
        have := (hstk _).1 hm
        omega
      have h1 : (if (pt (fun v => r.2 (ghPos s X v)) (s.bags.getD X [])).2.length > 1 then X :: rest else rest).Nodup := by
        split
        · exact hnd
        · exact hrest.2
      split
      · refine List.nodup_cons.2 ⟨?_, h1⟩
        split
        · exact hn
        · intro hm; exact hn (List.mem_cons_of_mem _ hm)
      · exact h1
    · -- contents of the stack
      intro i
      rw [splitBags_length, splitBags_getD _ _ _ hctx.lt]
      have hXrest := (List.nodup_cons.1 hnd).1
      have hold := hstk i
      have hnew := hstk s.bags.length
      have hXX := hstk X
      rw [List.mem_cons] at hold hnew hXX
      by_cases h1 : i = s.bags.length
      · subst h1
        have hnr : s.bags.length ∉ rest := fun hm => by have := hnew.1 (Or.inr hm); omega
        simp only [if_true]
        split_ifs <;> simp_all
      · by_cases h2 : i = X
        · subst h2
          simp only [if_neg h1, if_true]
          have := hctx.lt
          split_ifs <;> simp_all <;> omega
        · simp only [if_neg h1, if_neg h2]
          have e : (i = X ∨ i ∈ rest) ↔ i ∈ rest := by simp [h2]
          rw [e] at hold
          have e2 : i < s.bags.length + 1 ↔ i < s.bags.length := by omega
          rw [e2, ← hold]
          split_ifs <;> simp [h1, h2]
    · simp [splitBags, hc.len]
    · -- partitions
      intro c' hc'
      rcases List.mem_cons.1 hc' with rfl | hc'
      · refine ⟨?_, ?_, ⟨hn1, hn2⟩, ?_, ?_⟩
        · intro v
          simp only [hpt.mem_left, hpt.mem_right, hmem]
          cases r.2 (ghPos s X v) <;> simp
        · intro v h1 h2
          simp only [hpt.mem_left, hpt.mem_right] at h1 h2
          rw [h1.2] at h2; simp at h2
        · exact hpt.mem_left.2 ⟨(hmem _).2 a1, hctx.bsrc⟩
        · exact hpt.mem_right.2 ⟨(hmem _).2 b1, hctx.bsnk⟩
      · exact hc.part c' hc'
    · -- minimum cuts
      intro h0 c' hc'
      rcases List.mem_cons.1 hc' with rfl | hc'
      · have hsz := hsize h0
        constructor
        · show r.1 = _
          rw [hsz, gcut_eq]
          exact cutWeight_sides N ws _ _ _ hn1 hn2 (fun v => by rw [hpt.mem_left, hmem]) (fun v => by rw [hpt.mem_right, hmem])
        · intro W w1 w2
          show r.1 ≤ _
          rw [← gcut_eq, hsz]
          exact hctx.min h0 W w1 w2
      · exact hc.min h0 c' hc'
    · -- separated pairs
      intro c' hc'
      show c'.u < N ∧ c'.v < N ∧ bagIdx (splitBags pt s X fun v => r.2 (ghPos s X v)) c'.u ≠ bagIdx (splitBags pt s X fun v => r.2 (ghPos s X v)) c'.v
      rcases List.mem_cons.1 hc' with rfl | hc'
      · refine ⟨a1, b1, ?_⟩
        simp only
        rw [hctx.bagIdx' hpt a1, hctx.bagIdx' hpt b1, if_pos a2, if_pos b2]
        simp only [hctx.bsrc, hctx.bsnk, if_true, Bool.false_eq_true, if_false]
        exact hXn.symm
      · obtain ⟨h1, h2, h3⟩ := hc.sep c' hc'
        refine ⟨h1, h2, ?_⟩
        rw [hctx.bagIdx' hpt h1, hctx.bagIdx' hpt h2]
        have l1 := (bag_of_lt hi.perm h1).1
        have l2 := (bag_of_lt hi.perm h2).1
        split_ifs <;> omega
    · -- no pair twice
      refine List.pairwise_cons.2 ⟨?_, hc.dist⟩
      intro c' hc' hsame
      obtain ⟨h1, h2, h3⟩ := hc.sep c' hc'
      apply h3
      rcases hsame with ⟨e1, e2⟩ | ⟨e1, e2⟩
      · simp only at e1 e2
        rw [← e1, ← e2, a2, b2]
      · simp only at e1 e2
        rw [← e1, ← e2, a2, b2]

theorem ghInit_inv (h : 2 ≤ N) : GHInv N ws (ghInit N) ∧ GHCalls N ws (ghInit N) [] := by
  refine ⟨⟨?_, ?_, ?_, ?_, ?_, ?_, ?_, ?_⟩, ⟨?_, ?_, ?_, ?_, ?_⟩⟩
  · simp [ghInit]
  · intro b hb
    simp only [ghInit, List.mem_singleton] at hb
    subst hb
    simp; omega
  · simp [ghInit]
  · intro i hi j hj
    simp only [ghInit, List.length_singleton] at hi hj
    have : i = j := by omega
    subst this
    exact ReflTransGen.refl
  · simp [ghInit]
  · simp [ghInit]
  · intro i
    simp only [ghInit, List.mem_singleton, List.length_singleton]
    constructor
    · rintro rfl; simp; omega
    · rintro ⟨h1, _⟩; omega
  · simp [ghInit]
  · simp [ghInit]
  · simp
  · simp
  · simp
  · exact List.Pairwise.nil

theorem sum_ge_length (l : List (List Nat)) (h : ∀ b ∈ l, b ≠ []) : l.length ≤ (l.map List.length).sum := by
  induction l with
  | nil => simp
  | cons a t ih =>
    have := ih fun b hb => h b (by simp [hb])
    have ha := List.length_pos_iff.2 (h a (by simp))
    simp only [List.length_cons, List.map_cons, List.sum_cons]
    omega

theorem sum_eq_length (l : List (List Nat)) (h : ∀ b ∈ l, b.length = 1) : (l.map List.length).sum = l.length := by
  induction l with
  | nil => simp
  | cons a t ih =>
    have := ih fun b hb => h b (by simp [hb])
    have ha := h a (by simp)
    simp only [List.length_cons, List.map_cons, List.sum_cons]
    omega

theorem GHInv.total (h : GHInv N ws s) : (s.bags.map List.length).sum = N := by
  have := h.perm.length_eq
  rwa [List.length_flatten, List.length_range] at this

theorem GHInv.length_le (h : GHInv N ws s) : s.bags.length ≤ N := by
  have := sum_ge_length _ h.ne
  rw [h.total] at this
  exact this

theorem GHInv.length_eq (h : GHInv N ws s) (hst : s.stack = []) : s.bags.length = N := by
  rw [← h.total]
  refine (sum_eq_length _ ?_).symm
  intro b hb
  have h1 := List.length_pos_iff.2 (h.ne b hb)
  obtain ⟨i, hi, rfl⟩ := List.mem_iff_getElem.1 hb
  have := h.stack i
  rw [hst] at this
  simp only [List.not_mem_nil, false_iff, not_and, not_lt, List.getD_eq_getElem?_getD, List.getElem?_eq_getElem hi, Option.getD_some] at this
  have := this hi
  omega

theorem ghStep_none (h : ghStep mf pt N ws s = none) : s.stack = [] := by
  unfold ghStep at h
  split at h
  · assumption
  · simp at h

/-- what the loop guarantees about its calls -/
structure GHResult (N : Nat) (ws : List ℚ) (stop : List GHCall → Bool) (r : List GHCall × Bool) : Prop where
  part : ∀ c ∈ r.1, c.IsPartition N
  min : (∀ q ∈ ws, 0 ≤ q) → ∀ c ∈ r.1, c.IsMinCut N ws
  dist : r.1.Pairwise fun c c' => ¬ SamePair c c'
  le : r.1.length ≤ N - 1
  full : r.1.length = N - 1 ∨ stop r.1.reverse = true
  go : ∀ p q, p ++ q = r.1 → q ≠ [] → p ≠ [] → stop p.reverse = false
  ended : r.2 = true

theorem SamePair.symm {c c' : GHCall} (h : SamePair c c') : SamePair c' c := by
  rcases h with ⟨h1, h2⟩ | ⟨h1, h2⟩
  · exact Or.inl ⟨h1.symm, h2.symm⟩
  · exact Or.inr ⟨h2.symm, h1.symm⟩

theorem GHCalls.result {calls : List GHCall} (hi : GHInv N ws s) (hc : GHCalls N ws s calls) {stop : List GHCall → Bool}
    (hgo : ∀ p q, q ++ p = calls → q ≠ [] → p ≠ [] → stop p = false) (hend : s.stack = [] ∨ stop calls = true) :
    GHResult N ws stop (calls.reverse, true) := by
  have hl := hc.len
  have hle := hi.length_le
  refine ⟨?_, ?_, ?_, ?_, ?_, ?_, rfl⟩
  · intro c h; exact hc.part c (by simpa using h)
  · intro h0 c h; exact hc.min h0 c (by simpa using h)
  · rw [List.pairwise_reverse]
    exact hc.dist.imp fun h h' => h h'.symm
  · simp only [List.length_reverse]; omega
  · rcases hend with h | h
    · left
      have := hi.length_eq h
      simp only [List.length_reverse]; omega
    · right; simpa using h
  · intro p q hpq hq hp
    refine hgo p.reverse q.reverse ?_ (by simpa using hq) (by simpa using hp)
    rw [← List.reverse_append, hpq, List.reverse_reverse]

theorem ghLoop_result (hmf : mf.Correct) (hpt : pt.Correct) {stop : List GHCall → Bool} (fuel : Nat) {calls : List GHCall}
    (hi : GHInv N ws s) (hc : GHCalls N ws s calls) (hf : N ≤ s.bags.length + fuel)
    (hgo : ∀ p q, q ++ p = calls → p ≠ [] → stop p = false) :
    GHResult N ws stop (ghLoop mf pt N ws stop fuel s calls) := by
  induction fuel generalizing s calls with
  | zero =>
    unfold ghLoop
    have hst : s.stack = [] := by
      by_contra hne
      obtain ⟨X, rest, hst⟩ := List.exists_cons_of_ne_nil hne
      have hX := (hi.stack X).1 (by rw [hst]; simp)
      -- all other bags have at least one element
      have hsum := hi.total
      have hsplit : s.bags = s.bags.take X ++ s.bags[X]'hX.1 :: s.bags.drop (X + 1) := by simp
      have hlen : s.bags.length = (s.bags.take X).length + 1 + (s.bags.drop (X + 1)).length := by
        have := congrArg List.length hsplit
        simp only [List.length_append, List.length_cons] at this
        omega
      have h1 := sum_ge_length (s.bags.take X) fun b hb => hi.ne b (List.mem_of_mem_take hb)
      have h2 := sum_ge_length (s.bags.drop (X + 1)) fun b hb => hi.ne b (List.mem_of_mem_drop hb)
      have h3 : 1 < (s.bags[X]'hX.1).length := by
        have := hX.2
        rwa [List.getD_eq_getElem?_getD, List.getElem?_eq_getElem hX.1] at this
      rw [hsplit, List.map_append, List.sum_append, List.map_cons, List.sum_cons] at hsum
      omega
    rw [hst]
    exact GHCalls.result hi hc (fun p q h _ => hgo p q h) (Or.inl hst)
  | succ fuel ih =>
    unfold ghLoop
    cases hs : ghStep mf pt N ws s with
    | none => exact GHCalls.result hi hc (fun p q h _ => hgo p q h) (Or.inl (ghStep_none hs))
    | some sc =>
      obtain ⟨s', c⟩ := sc
      obtain ⟨hi', hc'⟩ := ghStep_inv hmf hpt hi hc hs
      simp only
      have hlen := hc.len
      have hlen' := hc'.len
      simp only [List.length_cons] at hlen'
      have hgo' : ∀ p q, q ++ p = c :: calls → q ≠ [] → p ≠ [] → stop p = false := by
        intro p q hpq hq hp
        cases q with
        | nil => exact absurd rfl hq
        | cons a q =>
          rw [List.cons_append, List.cons.injEq] at hpq
          exact hgo p q hpq.2 hp
      cases hstop : stop (c :: calls)
      · simp only [Bool.false_eq_true, if_false]
        refine ih hi' hc' (by omega) ?_
        intro p q hpq hp
        cases q with
        | nil => rw [List.nil_append] at hpq; rw [hpq]; exact hstop
        | cons a q => exact hgo' p (a :: q) hpq (by simp) hp
      · simp only [if_true]
        exact GHCalls.result hi' hc' hgo' (Or.inr hstop)

end Mtsp
