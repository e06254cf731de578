import Verif.Model.Heap

/-! libstdc++'s heap algorithms meet the standard's contract. -/

namespace Mtsp

theorem swapAt_length (l : List SData) (i j : Nat) : (swapAt l i j).length = l.length := by
  simp [swapAt]

theorem swapAt_perm (l : List SData) (i j : Nat) (hi : i < l.length) (hj : j < l.length) :
    (swapAt l i j).Perm l := by
  unfold swapAt
  have e1 : l.getD i default = l[i] := by simp [List.getD_eq_getElem?_getD, hi]
  have e2 : l.getD j default = l[j] := by simp [List.getD_eq_getElem?_getD, hj]
  rw [e1, e2]
  exact List.set_set_perm hi hj

theorem keyAt_swapAt (l : List SData) (i j k : Nat) (hi : i < l.length) (hj : j < l.length) :
    keyAt (swapAt l i j) k = if k = j then keyAt l i else if k = i then keyAt l j else keyAt l k := by
  unfold keyAt swapAt
  simp only [List.getD_eq_getElem?_getD]
  rw [List.getElem?_set]
  by_cases h1 : k = j
  · subst h1; simp [hj]
  · rw [if_neg (fun h => h1 h.symm), List.getElem?_set]
    by_cases h2 : k = i
    · subst h2; simp [h1, hi]
    · rw [if_neg (fun h => h2 h.symm)]; simp [h1, h2]

/-- heap except that position `i` may be too good for its parent -/
def UpInv (l : List SData) (i : Nat) : Prop :=
  (∀ j, 0 < j → j < l.length → j ≠ i → keyAt l ((j - 1) / 2) ≤ keyAt l j) ∧
  (∀ j, 0 < j → j < l.length → (j - 1) / 2 = i → 0 < i → keyAt l ((i - 1) / 2) ≤ keyAt l j)

theorem siftUp_spec (l : List SData) (i : Nat) (hi : i < l.length ∨ l = []) (h : UpInv l i) :
    IsHeap (siftUp l i) ∧ (siftUp l i).Perm l := by
  induction i using Nat.strong_induction_on generalizing l with
  | _ i ih =>
    rcases hi with hi | hi
    swap
    · subst hi
      unfold siftUp
      split
      · split
        · exfalso; next h => simp [keyAt] at h
        · exact ⟨fun i _ h => by simp at h, .refl _⟩
      · exact ⟨fun i _ h => by simp at h, .refl _⟩
    unfold siftUp
    split
    · next h0 =>
      set p := (i - 1) / 2 with hp
      have hpi : p < i := by omega
      have hpl : p < l.length := by omega
      split
      · next hk =>
        have hlen := swapAt_length l p i
        have inv : UpInv (swapAt l p i) p := by
          constructor
          · intro j hj0 hjl hjp
            rw [keyAt_swapAt l p i _ hpl hi, keyAt_swapAt l p i _ hpl hi]
            rw [hlen] at hjl
            by_cases hji : j = i
            · subst hji; simp only [← hp, if_true]
              rw [if_neg (by omega)]; exact hk.le
            · rw [if_neg hji, if_neg hjp]
              by_cases h1 : (j - 1) / 2 = i
              · rw [if_pos h1]
                exact h.2 j hj0 hjl h1 h0
              · rw [if_neg h1]
                by_cases h2 : (j - 1) / 2 = p
                · rw [if_pos h2]
                  have := h.1 j hj0 hjl hji
                  rw [h2] at this; linarith
                · rw [if_neg h2]; exact h.1 j hj0 hjl hji
          · intro j hj0 hjl hjp hp0
            rw [hlen] at hjl
            rw [keyAt_swapAt l p i _ hpl hi, keyAt_swapAt l p i _ hpl hi]
            rw [if_neg (show (p - 1) / 2 ≠ i by omega), if_neg (show (p - 1) / 2 ≠ p by omega)]
            have hpp := h.1 p hp0 hpl (by omega)
            by_cases hji : j = i
            · rw [if_pos hji]; exact hpp
            · rw [if_neg hji, if_neg (by omega)]
              have := h.1 j hj0 hjl hji
              rw [hjp] at this; linarith
        obtain ⟨r1, r2⟩ := ih p hpi (swapAt l p i) (Or.inl (by rw [hlen]; omega)) inv
        exact ⟨r1, r2.trans (swapAt_perm l p i hpl hi)⟩
      · next hk =>
        refine ⟨fun j hj0 hjl => ?_, .refl _⟩
        by_cases hji : j = i
        · subst hji; push Not at hk; exact hk
        · exact h.1 j hj0 hjl hji
    · next h0 =>
      refine ⟨fun j hj0 hjl => h.1 j hj0 hjl (by omega), .refl _⟩

theorem UpInv.of_swap_child {l : List SData} {h c : Nat} (hc : c < l.length) (hpar : (c - 1) / 2 = h) (hc0 : 0 < c)
    (hbest : ∀ j, 0 < j → j < l.length → (j - 1) / 2 = h → keyAt l c ≤ keyAt l j)
    (hinv1 : ∀ j, 0 < j → j < l.length → j ≠ h → (j - 1) / 2 ≠ h → keyAt l ((j - 1) / 2) ≤ keyAt l j)
    (hinv2 : ∀ j, 0 < j → j < l.length → (j - 1) / 2 = h → 0 < h → keyAt l ((h - 1) / 2) ≤ keyAt l j) :
    (∀ j, 0 < j → j < l.length → j ≠ c → (j - 1) / 2 ≠ c →
      keyAt (swapAt l h c) ((j - 1) / 2) ≤ keyAt (swapAt l h c) j) ∧
    (∀ j, 0 < j → j < l.length → (j - 1) / 2 = c → 0 < c →
      keyAt (swapAt l h c) ((c - 1) / 2) ≤ keyAt (swapAt l h c) j) := by
  have hh : h < l.length := by omega
  constructor
  · intro j hj0 hjl hjc hjp
    rw [keyAt_swapAt l h c _ hh hc, keyAt_swapAt l h c _ hh hc, if_neg hjp, if_neg hjc]
    by_cases h1 : j = h
    · subst h1
      rw [if_pos rfl, if_neg (by omega)]
      exact hinv2 c hc0 hc hpar hj0
    · rw [if_neg h1]
      by_cases h2 : (j - 1) / 2 = h
      · rw [if_pos h2]; exact hbest j hj0 hjl h2
      · rw [if_neg h2]; exact hinv1 j hj0 hjl h1 h2
  · intro j hj0 hjl hjp _
    rw [keyAt_swapAt l h c _ hh hc, keyAt_swapAt l h c _ hh hc, hpar,
      if_neg (show h ≠ c by omega), if_pos rfl, if_neg (by omega), if_neg (by omega)]
    have := hinv1 j hj0 hjl (by omega) (by omega)
    rwa [hjp] at this

theorem siftDown_spec (n : Nat) (l : List SData) (h : Nat) (hn : n = l.length) (hh : h < n)
    (hinv1 : ∀ j, 0 < j → j < l.length → j ≠ h → (j - 1) / 2 ≠ h → keyAt l ((j - 1) / 2) ≤ keyAt l j)
    (hinv2 : ∀ j, 0 < j → j < l.length → (j - 1) / 2 = h → 0 < h → keyAt l ((h - 1) / 2) ≤ keyAt l j) :
    (siftDown n l h).1.Perm l ∧ (siftDown n l h).2 < n ∧ UpInv (siftDown n l h).1 (siftDown n l h).2 := by
  induction hm : n - h using Nat.strong_induction_on generalizing l h with
  | _ m ih =>
    unfold siftDown
    split
    · next hlt =>
      simp only
      set s := 2 * (h + 1) with hs
      have hsn : s < n := by omega
      set c := if keyAt l s > keyAt l (s - 1) then s - 1 else s with hcdef
      have hc : c = s ∨ c = s - 1 := by rw [hcdef]; split <;> simp
      have hcn : c < n := by omega
      have hbest : ∀ j, 0 < j → j < l.length → (j - 1) / 2 = h → keyAt l c ≤ keyAt l j := by
        intro j hj0 _ hjp
        have hj : j = s ∨ j = s - 1 := by omega
        rw [hcdef]
        split
        · next hk => rcases hj with rfl | rfl <;> linarith
        · next hk => push Not at hk; rcases hj with rfl | rfl <;> linarith
      have key := UpInv.of_swap_child (l := l) (h := h) (c := c) (by omega) (by omega) (by omega) hbest hinv1 hinv2
      have hlen := swapAt_length l h c
      obtain ⟨r1, r2, r3⟩ := ih (n - c) (by omega) (swapAt l h c) c (by omega) hcn
        (by rw [hlen]; exact key.1) (by rw [hlen]; exact key.2) rfl
      exact ⟨r1.trans (swapAt_perm l h c (by omega) (by omega)), r2, r3⟩
    · next hge =>
      split
      · next he =>
        obtain ⟨e1, e2, e3⟩ := he
        set c := 2 * (h + 1) - 1 with hcdef
        have hcn : c < n := by omega
        have hbest : ∀ j, 0 < j → j < l.length → (j - 1) / 2 = h → keyAt l c ≤ keyAt l j := by
          intro j hj0 _ hjp
          have hj : j = c := by omega
          rw [hj]
        have key := UpInv.of_swap_child (l := l) (h := h) (c := c) (by omega) (by omega) (by omega) hbest hinv1 hinv2
        have hlen := swapAt_length l h c
        refine ⟨swapAt_perm l h c (by omega) (by omega), hcn, ?_, ?_⟩
        · intro j hj0 hjl hjc
          rw [hlen] at hjl
          exact key.1 j hj0 hjl hjc (by omega)
        · intro j hj0 hjl hjp
          rw [hlen] at hjl
          omega
      · next he =>
        refine ⟨.refl _, hh, ?_, ?_⟩
        · intro j hj0 hjl hjc
          simp only at hjl hjc ⊢
          exact hinv1 j hj0 hjl hjc (by omega)
        · intro j hj0 hjl hjp
          simp only at hjl hjp ⊢
          omega

theorem keyAt_append_left (l m : List SData) (i : Nat) (h : i < l.length) : keyAt (l ++ m) i = keyAt l i := by
  simp [keyAt, List.getD_eq_getElem?_getD, List.getElem?_append, h]

theorem keyAt_take (l : List SData) (n i : Nat) (h : i < n) : keyAt (l.take n) i = keyAt l i := by
  simp [keyAt, List.getD_eq_getElem?_getD, h]

/-- libstdc++'s `push_heap`/`pop_heap` meet the standard's contract. -/
def libstdcxx : HeapImpl where
  push := libPush
  pop := libPop
  push_perm := by
    intro l
    unfold libPush
    -- permutation does not need the heap property
    have : ∀ i (l : List SData), i < l.length ∨ l = [] → (siftUp l i).Perm l := by
      intro i
      induction i using Nat.strong_induction_on with
      | _ i ih =>
        intro l hi
        unfold siftUp
        split
        · split
          · rcases hi with hi | hi
            · exact (ih ((i - 1) / 2) (by omega) _ (Or.inl (by rw [swapAt_length]; omega))).trans
                (swapAt_perm l _ _ (by omega) hi)
            · next h => subst hi; simp [keyAt] at h
          · exact .refl _
        · exact .refl _
    apply this
    rcases l with _ | ⟨a, l⟩
    · right; rfl
    · left; simp
  push_heap := by
    intro l x hl
    unfold libPush
    refine (siftUp_spec _ _ (Or.inl (by simp)) ⟨?_, ?_⟩).1
    · intro j hj0 hjl hjn
      simp at hjl hjn
      rw [keyAt_append_left _ _ _ (by omega), keyAt_append_left _ _ _ (by omega)]
      exact hl j hj0 (by omega)
    · intro j hj0 hjl hjp
      simp at hjl hjp; omega
  pop_spec := by
    intro x l hl
    unfold libPop
    rcases eq_or_ne l [] with rfl | hne
    · simp; intro i hi h; simp at h
    have hpos : 0 < l.length := List.length_pos_iff.2 hne
    rw [if_neg (by simp; omega)]
    simp only [List.length_cons, Nat.add_sub_cancel]
    set n := l.length with hn
    have hsw : swapAt (x :: l) 0 n = (l.getLast hne :: l.dropLast) ++ [x] := by
      have hlast : (x :: l).getD n default = l.getLast hne := by
        rw [List.getLast_eq_getElem, List.getD_eq_getElem?_getD]
        obtain ⟨m, hm⟩ : ∃ m, n = m + 1 := ⟨n - 1, by omega⟩
        have hlm : l.length = m + 1 := by omega
        have hm' : m < l.length := by omega
        simp only [hm, List.getElem?_cons_succ, hlm, Nat.add_sub_cancel]
        rw [List.getElem?_eq_getElem hm']; rfl
      unfold swapAt
      rw [hlast]
      obtain ⟨m, hm⟩ : ∃ m, n = m + 1 := ⟨n - 1, by omega⟩
      simp only [hm, List.set_cons_zero, List.set_cons_succ, List.getD_cons_zero, List.cons_append]
      congr 1
      have : l = l.dropLast ++ [l.getLast hne] := (List.dropLast_append_getLast hne).symm
      conv_lhs => rw [this]
      rw [List.set_append, if_neg (by simp; omega)]
      have : m - l.dropLast.length = 0 := by simp; omega
      rw [this]; rfl
    rw [hsw]
    have htake : ((l.getLast hne :: l.dropLast) ++ [x]).take n = l.getLast hne :: l.dropLast := by
      rw [List.take_append_of_le_length (by simp; omega), List.take_of_length_le (by simp; omega)]
    rw [htake]
    set l1 := l.getLast hne :: l.dropLast with hl1
    have hl1len : l1.length = n := by simp [hl1]; omega
    have hperm1 : l1.Perm l := by
      rw [hl1]
      have h1 : (l.dropLast ++ [l.getLast hne]).Perm (l.getLast hne :: l.dropLast) :=
        List.perm_append_singleton _ _
      rw [List.dropLast_append_getLast hne] at h1
      exact h1.symm
    have hkey : ∀ j, 0 < j → j < n → keyAt l1 j = keyAt (x :: l) j := by
      intro j hj hjn
      obtain ⟨m, rfl⟩ : ∃ m, j = m + 1 := ⟨j - 1, by omega⟩
      simp only [keyAt, hl1, List.getD_eq_getElem?_getD, List.getElem?_cons_succ]
      rw [List.getElem?_dropLast, if_pos (by omega)]
    have hs := siftDown_spec n l1 0 hl1len.symm (by omega)
      (by
        intro j hj0 hjl hjne hjp
        rw [hkey _ (by omega) (by omega), hkey _ (by omega) (by omega)]
        exact hl j hj0 (by simp; omega))
      (by intro j _ _ _ h; omega)
    obtain ⟨s1, s2, s3⟩ := hs
    have hu := siftUp_spec _ _ (Or.inl (by rw [s1.length_eq, hl1len]; exact s2)) s3
    refine ⟨siftUp (siftDown n l1 0).1 (siftDown n l1 0).2, by simp, hu.2.trans (s1.trans hperm1), hu.1⟩

theorem HeapImpl.front_le (l : List SData) (hl : IsHeap l) :
    ∀ i, i < l.length → keyAt l 0 ≤ keyAt l i := by
  intro i
  induction i using Nat.strong_induction_on with
  | _ i ih =>
    intro hi
    rcases Nat.eq_zero_or_pos i with rfl | h0
    · exact le_refl _
    · exact le_trans (ih ((i - 1) / 2) (by omega) (by omega)) (hl i h0 hi)

theorem heap_front_min {x : SData} {l : List SData} (h : IsHeap (x :: l)) : ∀ y ∈ x :: l, x.lb ≤ y.lb := by
  intro y hy
  obtain ⟨i, hi, rfl⟩ := List.mem_iff_getElem.1 hy
  have := HeapImpl.front_le _ h i hi
  simpa [keyAt, List.getD_eq_getElem?_getD, List.getElem?_eq_getElem hi] using this

end Mtsp
