import Verif.Model.CutsRounded
import Verif.Spec.CutsRounded
import Verif.Proof.GHLoop

/-! The Gomory-Hu construction with rounded numbers: its calls are partitions.  The proof reuses the invariant of the exact
construction for a table of weights with a negative entry, for which it says nothing about sizes. -/

namespace Mtsp
open Relation

variable {fl : ℚ → ℚ} {N : Nat} {ws : List ℚ} {s s' : GHState} {X : Nat} {mf : MaxFlow} {pt : Partition} {c : GHCall}

theorem neg_entry {p : Prop} (h : ∀ q ∈ ([-1] : List ℚ), 0 ≤ q) : p := by
  have := h (-1) (by simp)
  norm_num at this

theorem Rounding.zero' (hfl : Rounding fl) : fl 0 = 0 := by simpa using hfl.int 0 (by norm_num)
theorem Rounding.one' (hfl : Rounding fl) : fl 1 = 1 := by simpa using hfl.int 1 (by norm_num)
theorem Rounding.nonneg' (hfl : Rounding fl) {q : ℚ} (h : 0 ≤ q) : 0 ≤ fl q := by
  have := hfl.mono 0 q h
  rwa [hfl.zero'] at this

theorem ghCapsF_nonneg (hfl : Rounding fl) {n : Nat} (h0 : ∀ q ∈ ws, 0 ≤ q) (pos : Nat → Nat) (i : Nat) : 0 ≤ ghCapsF fl N ws pos n i := by
  have hw : ∀ e : Nat × Nat, 0 ≤ tableWeight ws e.1 e.2 := by
    intro e
    unfold tableWeight
    rw [List.getD_eq_getElem?_getD]
    cases hq : ws[triIndex e.1 e.2]? with
    | none => simp
    | some q => exact h0 q (List.mem_of_getElem? hq)
  unfold ghCapsF
  have key : ∀ (l : List (Nat × Nat)) (c : Nat → ℚ), (∀ i, 0 ≤ c i) → ∀ i, 0 ≤ (l.foldl (fun c e =>
      if pos e.1 = pos e.2 then c
      else
        let wt := tableWeight ws e.1 e.2
        let c1 := Function.update c (pos e.1 * n + pos e.2) (fl (c (pos e.1 * n + pos e.2) + wt))
        Function.update c1 (pos e.2 * n + pos e.1) (fl (c1 (pos e.2 * n + pos e.1) + wt))) c) i := by
    intro l
    induction l with
    | nil => intro c hc i; exact hc i
    | cons e l ih =>
      intro c hc
      rw [List.foldl_cons]
      apply ih
      have up : ∀ (c : Nat → ℚ), (∀ i, 0 ≤ c i) → ∀ k i, 0 ≤ Function.update c k (fl (c k + tableWeight ws e.1 e.2)) i := by
        intro c hc k i
        rw [Function.update_apply]
        split
        · exact hfl.nonneg' (add_nonneg (hc k) (hw e))
        · exact hc i
      split
      · exact hc
      · exact up _ (up c hc _) _
  exact key _ _ (fun _ => le_refl _) i

/-- the split vertex, its colours and the call of one iteration -/
theorem ghStepF_ctx (hfl : Rounding fl) (hmf : mf.Proper) (hi : GHInv N [-1] s) (h0 : ∀ q ∈ ws, 0 ≤ q) {rest : List Nat} (hst : s.stack = X :: rest) :
    let bag := s.bags.getD X []
    let n := (forestReps s.bags.length s.edges X).length + bag.length
    let r := mf n (fun _ => true) (fun u v => ghCapsF fl N ws (ghPos s X) n (pcgIndex n (u, v))) (ghPos s X (bag.headD 0)) (ghPos s X (bag.getLastD 0))
    SplitCtx N [-1] s X (fun v => r.2 (ghPos s X v)) (bag.headD 0) (bag.getLastD 0) ∧ 0 ≤ r.1 := by
  intro bag n r
  have hX := (hi.stack X).1 (by rw [hst]; simp)
  have hn := hi.perm.nodup_iff.2 List.nodup_range
  have hnd : bag.Nodup := by
    have : bag = s.bags[X] := by show s.bags.getD X [] = _; simp [List.getD_eq_getElem?_getD, hX.1]
    rw [this]
    exact (List.nodup_flatten.1 hn).1 _ (List.getElem_mem hX.1)
  obtain ⟨h1, h2, h3⟩ := head_last_ne hnd hX.2
  obtain ⟨a1, a2⟩ := bag_mem hi.perm (i := X) h1
  obtain ⟨b1, b2⟩ := bag_mem hi.perm (i := X) h2
  have hpn : ∀ v < N, ghPos s X v < n := fun v hv => hi.pos_lt hv
  have hpne : ghPos s X (bag.headD 0) ≠ ghPos s X (bag.getLastD 0) := by
    intro e
    rcases hi.pos_eq a1 b1 e with e | ⟨e, _⟩
    · exact h3 e
    · exact e a2
  have hs := hmf.sides n (fun _ => true) (fun u v => ghCapsF fl N ws (ghPos s X) n (pcgIndex n (u, v))) _ _ (hpn _ a1) (hpn _ b1) hpne rfl rfl
  refine ⟨⟨hi, hX.1, h1, h2, hs.1, hs.2, fun u v _ _ e => by simp only [e], neg_entry⟩, ?_⟩
  exact hmf.nonneg n _ _ _ _ (hpn _ a1) (hpn _ b1) hpne rfl rfl fun u v _ _ => ghCapsF_nonneg hfl h0 _ _

theorem ghStepF_inv (hfl : Rounding fl) (hmf : mf.Proper) (hpt : pt.Correct) (hi : GHInv N [-1] s) (h0 : ∀ q ∈ ws, 0 ≤ q) {calls : List GHCall}
    (hc : GHCalls N [-1] s calls) (hs : ghStepF fl mf pt N ws s = some (s', c)) : (GHInv N [-1] s' ∧ GHCalls N [-1] s' (c :: calls)) ∧ 0 ≤ c.size := by
  unfold ghStepF at hs
  split at hs
  · simp at hs
  · rename_i X rest hst
    obtain ⟨hctx, hsize⟩ := ghStepF_ctx hfl hmf hi h0 hst
    simp only at hs hctx hsize
    generalize hr : mf _ _ _ _ _ = r at hs hctx hsize
    simp only [Option.some.injEq, Prod.mk.injEq] at hs
    obtain ⟨rfl, rfl⟩ := hs
    refine ⟨?_, hsize⟩
    have hnd := hi.stackN
    rw [hst] at hnd
    have hstk := hi.stack
    rw [hst] at hstk
    have hXn : X ≠ s.bags.length := by have := hctx.lt; omega
    have hsto := hi.storage
    have hstoN : s.storage.Nodup := hsto.nodup_iff.2 List.nodup_range
    have hp := hpt.perm (fun v => r.2 (ghPos s X v)) s.storage
    have hpn : ((pt (fun v => r.2 (ghPos s X v)) s.storage).1 ++ (pt (fun v => r.2 (ghPos s X v)) s.storage).2).Nodup :=
      hp.nodup_iff.2 hstoN
    obtain ⟨hn1, hn2, hn3⟩ := List.nodup_append.1 hpn
    have hmem : ∀ v, v ∈ s.storage ↔ v < N := fun v => by rw [hsto.mem_iff, List.mem_range]
    obtain ⟨a1, a2⟩ := bag_mem hi.perm hctx.msrc
    obtain ⟨b1, b2⟩ := bag_mem hi.perm hctx.msnk
    refine ⟨hctx.inv' hpt r.1 ?_ ?_ (hp.trans hsto), ⟨?_, ?_, neg_entry, ?_, ?_⟩⟩
    · -- stack without duplicates
      have hrest := (List.nodup_cons.1 hnd)
      have hn : s.bags.length ∉ X :: rest := by
        intro hm
        have := (hstk _).1 hm
        omega
      have h1 : (if (pt (fun v => r.2 (ghPos s X v)) (s.bags.getD X [])).2.length > 1 then X :: rest else rest).Nodup := by
        split
        · exact hnd
        · exact hrest.2
      split
      · refine List.nodup_cons.2 ⟨?_, h1⟩
        split
        · exact hn
        · intro hm; exact hn (List.mem_cons_of_mem _ hm)
      · exact h1
    · -- contents of the stack
      intro i
      rw [splitBags_length, splitBags_getD _ _ _ hctx.lt]
      have hXrest := (List.nodup_cons.1 hnd).1
      have hold := hstk i
      have hnew := hstk s.bags.length
      have hXX := hstk X
      rw [List.mem_cons] at hold hnew hXX
      by_cases h1 : i = s.bags.length
      · subst h1
        have hnr : s.bags.length ∉ rest := fun hm => by have := hnew.1 (Or.inr hm); omega
        simp only [if_true]
        split_ifs <;> simp_all
      · by_cases h2 : i = X
        · subst h2
          simp only [if_neg h1, if_true]
          have := hctx.lt
          split_ifs <;> simp_all <;> omega
        · simp only [if_neg h1, if_neg h2]
          have e : (i = X ∨ i ∈ rest) ↔ i ∈ rest := by simp [h2]
          rw [e] at hold
          have e2 : i < s.bags.length + 1 ↔ i < s.bags.length := by omega
          rw [e2, ← hold]
          split_ifs <;> simp [h1, h2]
    · simp [splitBags, hc.len]
    · -- partitions
      intro c' hc'
      rcases List.mem_cons.1 hc' with rfl | hc'
      · refine ⟨?_, ?_, ⟨hn1, hn2⟩, ?_, ?_⟩
        · intro v
          simp only [hpt.mem_left, hpt.mem_right, hmem]
          cases r.2 (ghPos s X v) <;> simp
        · intro v h1 h2
          simp only [hpt.mem_left, hpt.mem_right] at h1 h2
          rw [h1.2] at h2; simp at h2
        · exact hpt.mem_left.2 ⟨(hmem _).2 a1, hctx.bsrc⟩
        · exact hpt.mem_right.2 ⟨(hmem _).2 b1, hctx.bsnk⟩
      · exact hc.part c' hc'
    · -- separated pairs
      intro c' hc'
      show c'.u < N ∧ c'.v < N ∧ bagIdx (splitBags pt s X fun v => r.2 (ghPos s X v)) c'.u ≠ bagIdx (splitBags pt s X fun v => r.2 (ghPos s X v)) c'.v
      rcases List.mem_cons.1 hc' with rfl | hc'
      · refine ⟨a1, b1, ?_⟩
        simp only
        rw [hctx.bagIdx' hpt a1, hctx.bagIdx' hpt b1, if_pos a2, if_pos b2]
        simp only [hctx.bsrc, hctx.bsnk, if_true, Bool.false_eq_true, if_false]
        exact hXn.symm
      · obtain ⟨h1, h2, h3⟩ := hc.sep c' hc'
        refine ⟨h1, h2, ?_⟩
        rw [hctx.bagIdx' hpt h1, hctx.bagIdx' hpt h2]
        have l1 := (bag_of_lt hi.perm h1).1
        have l2 := (bag_of_lt hi.perm h2).1
        split_ifs <;> omega
    · -- no pair twice
      refine List.pairwise_cons.2 ⟨?_, hc.dist⟩
      intro c' hc' hsame
      obtain ⟨h1, h2, h3⟩ := hc.sep c' hc'
      apply h3
      rcases hsame with ⟨e1, e2⟩ | ⟨e1, e2⟩
      · simp only at e1 e2
        rw [← e1, ← e2, a2, b2]
      · simp only at e1 e2
        rw [← e1, ← e2, a2, b2]

theorem ghStepF_none (h : ghStepF fl mf pt N ws s = none) : s.stack = [] := by
  unfold ghStepF at h
  split at h
  · assumption
  · simp at h

theorem ghLoopF_result (hfl : Rounding fl) (hmf : mf.Proper) (hpt : pt.Correct) (h0 : ∀ q ∈ ws, 0 ≤ q) (fuel : Nat) : ∀ {s : GHState} {calls : List GHCall},
    GHInv N [-1] s → GHCalls N [-1] s calls → (∀ c ∈ calls, 0 ≤ c.size) → N ≤ s.bags.length + fuel →
    GHResult N [-1] (fun _ => false) (ghLoopF fl mf pt N ws fuel s calls) ∧ ∀ c ∈ (ghLoopF fl mf pt N ws fuel s calls).1, 0 ≤ c.size := by
  induction fuel with
  | zero =>
    intro s calls hi hc hpos hf
    unfold ghLoopF
    have hst : s.stack = [] := by
      by_contra hne
      obtain ⟨X, rest, hst⟩ := List.exists_cons_of_ne_nil hne
      have hX := (hi.stack X).1 (by rw [hst]; simp)
      have hsum := hi.total
      have hsplit : s.bags = s.bags.take X ++ s.bags[X]'hX.1 :: s.bags.drop (X + 1) := by simp
      have hlen : s.bags.length = (s.bags.take X).length + 1 + (s.bags.drop (X + 1)).length := by
        have := congrArg List.length hsplit
        simp only [List.length_append, List.length_cons] at this
        omega
      have h1 := sum_ge_length (s.bags.take X) fun b hb => hi.ne b (List.mem_of_mem_take hb)
      have h2 := sum_ge_length (s.bags.drop (X + 1)) fun b hb => hi.ne b (List.mem_of_mem_drop hb)
      have h3 : 1 < (s.bags[X]'hX.1).length := by
        have := hX.2
        rwa [List.getD_eq_getElem?_getD, List.getElem?_eq_getElem hX.1] at this
      rw [hsplit, List.map_append, List.sum_append, List.map_cons, List.sum_cons] at hsum
      omega
    rw [hst]
    exact ⟨GHCalls.result hi hc (fun p q _ _ _ => rfl) (Or.inl hst), fun c hc' => hpos c (List.mem_reverse.1 hc')⟩
  | succ fuel ih =>
    intro s calls hi hc hpos hf
    unfold ghLoopF
    cases hs : ghStepF fl mf pt N ws s with
    | none => exact ⟨GHCalls.result hi hc (fun p q _ _ _ => rfl) (Or.inl (ghStepF_none hs)), fun c hc' => hpos c (List.mem_reverse.1 hc')⟩
    | some sc =>
      obtain ⟨s', c⟩ := sc
      obtain ⟨⟨hi', hc'⟩, hp'⟩ := ghStepF_inv hfl hmf hpt hi h0 hc hs
      have hlen := hc.len
      have hlen' := hc'.len
      simp only [List.length_cons] at hlen'
      refine ih hi' hc' ?_ (by omega)
      intro d hd
      rcases List.mem_cons.1 hd with rfl | hd
      · exact hp'
      · exact hpos d hd

theorem createGomoryHuTreeF_result (hfl : Rounding fl) (hmf : mf.Proper) (hpt : pt.Correct) (h0 : ∀ q ∈ ws, 0 ≤ q) {fuel : Nat} (hf : N - 1 ≤ fuel) :
    GHResult N [-1] (fun _ => false) (createGomoryHuTreeF fl mf pt N ws fuel) ∧ ∀ c ∈ (createGomoryHuTreeF fl mf pt N ws fuel).1, 0 ≤ c.size := by
  unfold createGomoryHuTreeF
  by_cases h : N ≤ 1
  · rw [if_pos h]
    refine ⟨⟨by simp, by simp, List.Pairwise.nil, by simp, Or.inl (by simp; omega), ?_, rfl⟩, by simp⟩
    intro p q hpq hq _
    exact absurd (List.append_eq_nil_iff.1 hpq).2 hq
  · rw [if_neg h]
    obtain ⟨h1, h2⟩ := ghInit_inv (ws := [-1]) (show 2 ≤ N by omega)
    exact ghLoopF_result hfl hmf hpt h0 fuel h1 h2 (by simp) (by simp [ghInit]; omega)

end Mtsp
