import Verif.Model.TwoOpt
import Verif.Props.Heuristics

namespace Mtsp

/-! ### reading and writing positions -/

theorem getD_setNode (P : Paths) (a i v b : Nat) :
    (setNode P a i v).getD b [] = if b = a then (P.getD b []).set i v else P.getD b [] := by
  unfold setNode
  rw [List.getD_eq_getElem?_getD, List.getElem?_modify, List.getD_eq_getElem?_getD]
  by_cases h : a = b
  · subst h
    simp only [if_true]
    cases h : P[a]? with
    | none => simp
    | some p => simp
  · have h' : ¬ b = a := fun e => h e.symm
    simp only [h, if_false, h']
    simp

theorem setNode_length (P : Paths) (a i v : Nat) : (setNode P a i v).length = P.length := by simp [setNode]

theorem setNode_path_length (P : Paths) (a i v b : Nat) :
    ((setNode P a i v).getD b []).length = (P.getD b []).length := by
  rw [getD_setNode]; split <;> simp

theorem nodeAt_setNode (P : Paths) (a i v b j : Nat) (hi : i < (P.getD a []).length) :
    nodeAt (setNode P a i v) b j = if b = a ∧ j = i then v else nodeAt P b j := by
  unfold nodeAt
  rw [getD_setNode]
  by_cases h : b = a
  · subst h
    simp only [if_true, true_and]
    rw [List.getD_eq_getElem?_getD, List.getElem?_set]
    by_cases hj : i = j
    · subst hj; rw [if_pos rfl, if_pos hi]; simp
    · have : ¬ j = i := fun e => hj e.symm
      simp only [hj, if_false, this]
      rw [← List.getD_eq_getElem?_getD]
  · simp [h]

theorem nodeAt_swapNodes (P : Paths) (a1 i a2 j b k : Nat) (hi : i < (P.getD a1 []).length) (hj : j < (P.getD a2 []).length) :
    nodeAt (swapNodes P a1 i a2 j) b k =
      if b = a2 ∧ k = j then nodeAt P a1 i else if b = a1 ∧ k = i then nodeAt P a2 j else nodeAt P b k := by
  unfold swapNodes
  rw [nodeAt_setNode _ _ _ _ _ _ (by rw [setNode_path_length]; exact hj), nodeAt_setNode _ _ _ _ _ _ hi]

theorem swapNodes_path_length (P : Paths) (a1 i a2 j b : Nat) :
    ((swapNodes P a1 i a2 j).getD b []).length = (P.getD b []).length := by
  unfold swapNodes; rw [setNode_path_length, setNode_path_length]

theorem swapNodes_length (P : Paths) (a1 i a2 j : Nat) : (swapNodes P a1 i a2 j).length = P.length := by
  unfold swapNodes; rw [setNode_length, setNode_length]

/-! ### counting -/

theorem count_set (p : List Nat) (i v x : Nat) (hi : i < p.length) :
    (p.set i v).count x + (if p.getD i 0 = x then 1 else 0) = p.count x + (if v = x then 1 else 0) := by
  induction p generalizing i with
  | nil => simp at hi
  | cons a p ih =>
    cases i with
    | zero =>
      simp only [List.set_cons_zero, List.getD_cons_zero, List.count_cons, beq_iff_eq]
      split <;> split <;> omega
    | succ i =>
      simp only [List.set_cons_succ, List.getD_cons_succ, List.count_cons]
      have := ih i (by simpa using hi)
      omega

theorem count_modify (P : Paths) (a : Nat) (f : List Nat → List Nat) (x : Nat) (ha : a < P.length) :
    (P.modify a f).flatten.count x + (P.getD a []).count x = P.flatten.count x + (f (P.getD a [])).count x := by
  induction P generalizing a with
  | nil => simp at ha
  | cons p P ih =>
    cases a with
    | zero => simp; omega
    | succ a =>
      have := ih a (by simpa using ha)
      simp only [List.modify_succ_cons, List.flatten_cons, List.count_append, List.getD_cons_succ]
      omega

theorem count_setNode (P : Paths) (a i v x : Nat) (ha : a < P.length) (hi : i < (P.getD a []).length) :
    (setNode P a i v).flatten.count x + (if nodeAt P a i = x then 1 else 0) = P.flatten.count x + (if v = x then 1 else 0) := by
  have h1 := count_modify P a (fun p => p.set i v) x ha
  have h2 := count_set (P.getD a []) i v x hi
  unfold setNode nodeAt
  omega

theorem swapNodes_perm (P : Paths) (a1 i a2 j : Nat) (ha1 : a1 < P.length) (ha2 : a2 < P.length)
    (hi : i < (P.getD a1 []).length) (hj : j < (P.getD a2 []).length) (hne : a1 = a2 → i ≠ j) :
    (swapNodes P a1 i a2 j).flatten.Perm P.flatten := by
  rw [List.perm_iff_count]
  intro x
  unfold swapNodes
  have h1 := count_setNode P a1 i (nodeAt P a2 j) x ha1 hi
  have h2 := count_setNode (setNode P a1 i (nodeAt P a2 j)) a2 j (nodeAt P a1 i) x
    (by rw [setNode_length]; exact ha2) (by rw [setNode_path_length]; exact hj)
  have e : nodeAt (setNode P a1 i (nodeAt P a2 j)) a2 j = nodeAt P a2 j := by
    rw [nodeAt_setNode _ _ _ _ _ _ hi, if_neg (fun h => hne h.1.symm h.2.symm)]
  rw [e] at h2
  omega

/-! ### costs -/

theorem pathCost_set (w : Weights) (p : List Nat) (i v : Nat) (h1 : 1 ≤ i) (h2 : i + 1 < p.length) :
    pathCost w (p.set i v) = pathCost w p - w (p.getD (i - 1) 0) (p.getD i 0) - w (p.getD i 0) (p.getD (i + 1) 0) +
      w (p.getD (i - 1) 0) v + w v (p.getD (i + 1) 0) := by
  obtain ⟨k, rfl⟩ : ∃ k, i = k + 1 := ⟨i - 1, by omega⟩
  simp only [Nat.add_sub_cancel]
  induction p generalizing k with
  | nil => simp at h2
  | cons a p ih =>
    cases k with
    | zero =>
      match p, h2 with
      | b :: c :: r, _ => simp [pathCost]; ring
    | succ k =>
      match p, h2 with
      | b :: r, h2 =>
        have hh := ih k (by omega) (by simp at h2 ⊢; omega)
        have e1 : (a :: b :: r).set (k + 1 + 1) v = a :: (b :: r).set (k + 1) v := rfl
        rw [e1]
        have e2 : (b :: r).set (k + 1) v = b :: r.set k v := rfl
        rw [e2, pathCost_cons_cons, pathCost_cons_cons, ← e2, hh]
        simp only [List.getD_cons_succ]
        ring

/-- the length of path `b` -/
def costAt (w : Weights) (P : Paths) (b : Nat) : ℚ := pathCost w (P.getD b [])

theorem costAt_setNode (w : Weights) (P : Paths) (a i v b : Nat) (h1 : 1 ≤ i) (h2 : i + 1 < (P.getD a []).length) :
    costAt w (setNode P a i v) b = costAt w P b - if b = a then
      (w (nodeAt P a (i - 1)) (nodeAt P a i) + w (nodeAt P a i) (nodeAt P a (i + 1)) -
      w (nodeAt P a (i - 1)) v - w v (nodeAt P a (i + 1))) else 0 := by
  unfold costAt
  rw [getD_setNode]
  by_cases h : b = a
  · subst h; simp only [if_true]; rw [pathCost_set w _ i v h1 h2]; simp only [nodeAt]; ring
  · simp [h]

theorem costAt_swapNodes (w : Weights) (P : Paths) (a1 i a2 j b : Nat) (hi1 : 1 ≤ i) (hi2 : i + 1 < (P.getD a1 []).length)
    (hj1 : 1 ≤ j) (hj2 : j + 1 < (P.getD a2 []).length) (hlt : a1 = a2 → i < j) :
    costAt w (swapNodes P a1 i a2 j) b = costAt w P b - (if b = a1 then (swapGain w P a1 i a2 j).1 else 0) -
      (if b = a2 then (swapGain w P a1 i a2 j).2 else 0) := by
  unfold swapNodes
  rw [costAt_setNode w _ _ _ _ _ hj1 (by rw [setNode_path_length]; exact hj2), costAt_setNode w _ _ _ _ _ hi1 hi2]
  have hi : i < (P.getD a1 []).length := by omega
  rw [nodeAt_setNode _ _ _ _ _ _ hi, nodeAt_setNode _ _ _ _ _ _ hi, nodeAt_setNode _ _ _ _ _ _ hi]
  by_cases ha : a1 = a2
  · subst ha
    have hlt := hlt rfl
    have n1 : ¬ (j = i) := by omega
    have n2 : ¬ (j + 1 = i) := by omega
    by_cases hadj : j = i + 1
    · subst hadj
      simp only [swapGain, true_and, if_true, Nat.add_sub_cancel, n1, n2, if_false]
      by_cases hb : b = a1
      · simp only [hb, if_true]; ring_nf
      · simp only [hb, if_false]; try ring
    · have n3 : ¬ (j - 1 = i) := by omega
      simp only [swapGain, true_and, n1, n2, n3, hadj, if_false]
  · have ha' : ¬ a2 = a1 := fun h => ha h.symm
    simp only [swapGain, ha, ha', false_and, if_false]

theorem calcObjective_eq (mode : Mode) (P : Paths) (w : Weights) : calcObjective mode P (fun _ => w) =
    match mode with
    | .sum => ((List.range P.length).map (costAt w P)).sum
    | .max => (List.range P.length).foldl (fun o a => max (costAt w P a) o) 0 := by
  cases mode with
  | sum => rw [C23_sum_objective, sumCost_eq]; rfl
  | max => simp only [calcObjective, calcPathLength_eq]; rfl

/-! ### the invariant -/

structure SameShape (P0 P : Paths) : Prop where
  len : P.length = P0.length
  plen : ∀ a, (P.getD a []).length = (P0.getD a []).length
  ends : ∀ a, (P.getD a []).head? = (P0.getD a []).head? ∧ (P.getD a []).getLast? = (P0.getD a []).getLast?
  perm : P.flatten.Perm P0.flatten

theorem SameShape.refl (P : Paths) : SameShape P P := ⟨rfl, fun _ => rfl, fun _ => ⟨rfl, rfl⟩, List.Perm.refl _⟩

theorem head?_eq_nodeAt (P : Paths) (a : Nat) (h : 0 < (P.getD a []).length) : (P.getD a []).head? = some (nodeAt P a 0) := by
  unfold nodeAt
  cases hp : P.getD a [] with
  | nil => rw [hp] at h; simp at h
  | cons x l => simp

theorem getLast?_eq_nodeAt (P : Paths) (a : Nat) (h : 0 < (P.getD a []).length) :
    (P.getD a []).getLast? = some (nodeAt P a ((P.getD a []).length - 1)) := by
  unfold nodeAt
  generalize P.getD a [] = p at h ⊢
  rw [List.getLast?_eq_getElem?, List.getD_eq_getElem?_getD, List.getElem?_eq_getElem (by omega)]; rfl

theorem SameShape.swap {P0 P : Paths} (h : SameShape P0 P) {a1 i a2 j : Nat} (ha1 : a1 < P.length) (ha2 : a2 < P.length)
    (hi1 : 1 ≤ i) (hi2 : i + 1 < (P.getD a1 []).length)
    (hj1 : 1 ≤ j) (hj2 : j + 1 < (P.getD a2 []).length) (hlt : a1 = a2 → i < j) : SameShape P0 (swapNodes P a1 i a2 j) := by
  refine ⟨by rw [swapNodes_length, h.len], fun a => by rw [swapNodes_path_length, h.plen], ?_,
    (swapNodes_perm P a1 i a2 j ha1 ha2 (by omega) (by omega) (fun e => by have := hlt e; omega)).trans h.perm⟩
  intro a
  have hl := swapNodes_path_length P a1 i a2 j a
  by_cases h0 : (P.getD a []).length = 0
  · have e1 : P.getD a [] = [] := List.length_eq_zero_iff.1 h0
    have e2 : (swapNodes P a1 i a2 j).getD a [] = [] := List.length_eq_zero_iff.1 (by rw [hl, h0])
    rw [e2, ← (h.ends a).1, ← (h.ends a).2, e1]; exact ⟨rfl, rfl⟩
  · have hp : 0 < (P.getD a []).length := by omega
    rw [head?_eq_nodeAt _ _ (hl ▸ hp), getLast?_eq_nodeAt _ _ (hl ▸ hp), ← (h.ends a).1, ← (h.ends a).2,
      head?_eq_nodeAt P _ hp, getLast?_eq_nodeAt P _ hp, hl]
    constructor
    · rw [nodeAt_swapNodes _ _ _ _ _ _ _ (by omega) (by omega), if_neg, if_neg]
      · rintro ⟨rfl, e⟩; omega
      · rintro ⟨rfl, e⟩; omega
    · rw [nodeAt_swapNodes _ _ _ _ _ _ _ (by omega) (by omega), if_neg, if_neg]
      · rintro ⟨rfl, e⟩; omega
      · rintro ⟨rfl, e⟩; omega

structure TOInv (mode : Mode) (w : Weights) (P0 : Paths) (s : TOState) : Prop where
  shape : SameShape P0 s.paths
  lensLen : s.lens.length = P0.length
  longest : s.longest < P0.length
  info : mode = .max → s.lens = (List.range P0.length).map (costAt w s.paths) ∧ IsLongest P0.length (costAt w s.paths) s.longest
  obj : s.impSum = calcObjective mode P0 (fun _ => w) - calcObjective mode s.paths (fun _ => w)

theorem foldl_if_max (l : List Nat) (f : Nat → ℚ) (x : ℚ) :
    l.foldl (fun o a => if f a > o then f a else o) x = l.foldl (fun o a => max (f a) o) x := by
  congr 1
  funext o a
  by_cases h : f a > o
  · rw [if_pos h, max_eq_left (le_of_lt h)]
  · rw [if_neg h, max_eq_right (le_of_not_gt h)]

theorem foldl_congr_mem {α β : Type} (l : List α) (f g : β → α → β) (x : β) (h : ∀ b, ∀ a ∈ l, f b a = g b a) :
    l.foldl f x = l.foldl g x := by
  induction l generalizing x with
  | nil => rfl
  | cons a l ih =>
    rw [List.foldl_cons, List.foldl_cons, h x a (by simp)]
    exact ih _ (fun b c hc => h b c (List.mem_cons_of_mem _ hc))

theorem getD_map_range (A : Nat) (f : Nat → ℚ) (b : Nat) (hb : b < A) : ((List.range A).map f).getD b 0 = f b := by
  simp [List.getD_eq_getElem?_getD, hb]

/-- the exact effect of a swap on the objective -/
theorem gain_eq {mode : Mode} {w : Weights} {P0 : Paths} {s : TOState} (h : TOInv mode w P0 s) {a1 i a2 j : Nat}
    (ha1 : a1 < P0.length) (ha2 : a2 < P0.length) (hi1 : 1 ≤ i) (hi2 : i + 1 < (s.paths.getD a1 []).length)
    (hj1 : 1 ≤ j) (hj2 : j + 1 < (s.paths.getD a2 []).length) (hlt : a1 = a2 → i < j)
    (hpos : 0 < overallImprovement mode s.lens s.longest a1 (swapGain w s.paths a1 i a2 j).1 a2 (swapGain w s.paths a1 i a2 j).2) :
    overallImprovement mode s.lens s.longest a1 (swapGain w s.paths a1 i a2 j).1 a2 (swapGain w s.paths a1 i a2 j).2 =
      calcObjective mode s.paths (fun _ => w) - calcObjective mode (swapNodes s.paths a1 i a2 j) (fun _ => w) := by
  have hc := fun b => costAt_swapNodes w s.paths a1 i a2 j b hi1 hi2 hj1 hj2 hlt
  set g := swapGain w s.paths a1 i a2 j with hg
  rw [calcObjective_eq, calcObjective_eq, swapNodes_length, h.shape.len]
  cases mode with
  | sum =>
    dsimp only [overallImprovement]
    have e1 : ((List.range P0.length).map fun b => costAt w s.paths b - (if b = a1 then g.1 else 0)).sum =
        ((List.range P0.length).map (costAt w s.paths)).sum + (- g.1) :=
      sum_map_update _ a1 ha1 _ _ _ (by simp; ring) (fun b hb => by simp [hb])
    have e2 : ((List.range P0.length).map (costAt w (swapNodes s.paths a1 i a2 j))).sum =
        ((List.range P0.length).map fun b => costAt w s.paths b - (if b = a1 then g.1 else 0)).sum + (- g.2) :=
      sum_map_update _ a2 ha2 _ _ _ (by rw [hc]; simp; ring) (fun b hb => by rw [hc]; simp [hb])
    rw [e2, e1]; ring
  | max =>
    obtain ⟨hl, hlg⟩ := h.info rfl
    dsimp only [overallImprovement] at hpos ⊢
    rw [h.lensLen] at hpos ⊢
    have hnew : (List.range P0.length).foldl (fun o a =>
        if s.lens.getD a 0 - (if a = a1 then g.1 else 0) - (if a = a2 then g.2 else 0) > o
        then s.lens.getD a 0 - (if a = a1 then g.1 else 0) - (if a = a2 then g.2 else 0) else o) 0 =
        (List.range P0.length).foldl (fun o a => max (costAt w (swapNodes s.paths a1 i a2 j) a) o) 0 := by
      rw [← foldl_if_max]
      apply foldl_congr_mem
      intro o a ha
      have ha := List.mem_range.1 ha
      rw [hl, getD_map_range _ _ _ ha, ← hc]
    rw [hnew] at hpos ⊢
    rw [hl, getD_map_range _ _ _ hlg.1] at hpos ⊢
    congr 1
    obtain ⟨k1, k2, k3⟩ := foldl_max_spec (List.range P0.length) (costAt w (swapNodes s.paths a1 i a2 j)) 0
    obtain ⟨m1, m2, m3⟩ := foldl_max_spec (List.range P0.length) (costAt w s.paths) 0
    apply le_antisymm
    · exact m2 _ (List.mem_range.2 hlg.1)
    · rcases m3 with m3 | ⟨b, hb, m3⟩
      · rw [m3]; linarith
      · rw [m3]; exact hlg.2 b (List.mem_range.1 hb)

theorem longest_scan (A : Nat) (hA : 0 < A) (lens : List ℚ) (f : Nat → ℚ) (hl : lens.length = A) (hf : ∀ b, b < A → lens.getD b 0 = f b) :
    IsLongest A f ((List.range' 1 (lens.length - 1)).foldl (fun l a => if lens.getD a 0 > lens.getD l 0 then a else l) 0) := by
  have key : ∀ k, k + 1 ≤ A → IsLongest (k + 1) f
      ((List.range' 1 k).foldl (fun l a => if lens.getD a 0 > lens.getD l 0 then a else l) 0) := by
    intro k
    induction k with
    | zero => intro _; refine ⟨by simp, ?_⟩; intro b hb; have : b = 0 := by omega
              subst this; simp
    | succ k ih =>
      intro hk
      obtain ⟨h1, h2⟩ := ih (by omega)
      rw [show List.range' 1 (k + 1) = List.range' 1 k ++ [1 + k] by rw [List.range'_concat]; simp, List.foldl_append]
      simp only [List.foldl_cons, List.foldl_nil]
      set r := (List.range' 1 k).foldl (fun l a => if lens.getD a 0 > lens.getD l 0 then a else l) 0
      rw [hf (1 + k) (by omega), hf r (by omega)]
      by_cases hgt : f (1 + k) > f r
      · rw [if_pos hgt]
        refine ⟨by omega, ?_⟩
        intro b hb
        by_cases hbk : b = 1 + k
        · rw [hbk]
        · exact le_trans (h2 b (by omega)) (le_of_lt hgt)
      · rw [if_neg hgt]
        refine ⟨by omega, ?_⟩
        intro b hb
        by_cases hbk : b = 1 + k
        · rw [hbk]; exact le_of_not_gt hgt
        · exact h2 b (by omega)
  have := key (A - 1) (by omega)
  rw [hl]
  rwa [show A - 1 + 1 = A by omega] at this

/-- a performed swap keeps the invariant -/
theorem TOInv.swap {mode : Mode} {w : Weights} {P0 : Paths} {s : TOState} (h : TOInv mode w P0 s) {a1 i a2 j : Nat} {b : Bool}
    (ha1 : a1 < P0.length) (ha2 : a2 < P0.length) (hi1 : 1 ≤ i) (hi2 : i + 1 < (s.paths.getD a1 []).length)
    (hj1 : 1 ≤ j) (hj2 : j + 1 < (s.paths.getD a2 []).length) (hlt : a1 = a2 → i < j)
    (hpos : 0 < overallImprovement mode s.lens s.longest a1 (swapGain w s.paths a1 i a2 j).1 a2 (swapGain w s.paths a1 i a2 j).2) :
    TOInv mode w P0
      { paths := swapNodes s.paths a1 i a2 j,
        lens := (applyImprovement mode s.lens s.longest a1 (swapGain w s.paths a1 i a2 j).1 a2 (swapGain w s.paths a1 i a2 j).2).1,
        longest := (applyImprovement mode s.lens s.longest a1 (swapGain w s.paths a1 i a2 j).1 a2 (swapGain w s.paths a1 i a2 j).2).2,
        impSum := s.impSum + overallImprovement mode s.lens s.longest a1 (swapGain w s.paths a1 i a2 j).1 a2 (swapGain w s.paths a1 i a2 j).2,
        improved := b } := by
  have hg := gain_eq h ha1 ha2 hi1 hi2 hj1 hj2 hlt hpos
  have hsh := h.shape.swap (by rw [h.shape.len]; exact ha1) (by rw [h.shape.len]; exact ha2) hi1 hi2 hj1 hj2 hlt
  have hobj : s.impSum + overallImprovement mode s.lens s.longest a1 (swapGain w s.paths a1 i a2 j).1 a2 (swapGain w s.paths a1 i a2 j).2
      = calcObjective mode P0 (fun _ => w) - calcObjective mode (swapNodes s.paths a1 i a2 j) (fun _ => w) := by
    rw [hg, h.obj]; ring
  have hc := fun b => costAt_swapNodes w s.paths a1 i a2 j b hi1 hi2 hj1 hj2 hlt
  cases mode with
  | sum => exact ⟨hsh, h.lensLen, h.longest, by simp, hobj⟩
  | max =>
    obtain ⟨hl, hlg⟩ := h.info rfl
    set g := swapGain w s.paths a1 i a2 j
    have hA : 0 < P0.length := by omega
    set lens1 := s.lens.set a1 (s.lens.getD a1 0 - g.1) with hl1
    set lens2 := lens1.set a2 (lens1.getD a2 0 - g.2) with hl2
    have hlen1 : lens1.length = P0.length := by simp [hl1, h.lensLen]
    have hlen2 : lens2.length = P0.length := by simp [hl2, hlen1]
    have hget1 : ∀ b, b < P0.length → lens1.getD b 0 = costAt w s.paths b - (if b = a1 then g.1 else 0) := by
      intro b hb
      rw [hl1, List.getD_eq_getElem?_getD, List.getElem?_set]
      by_cases hba : a1 = b
      · subst hba
        simp only [if_true, h.lensLen, hb, Option.getD_some]
        rw [hl, getD_map_range _ _ _ hb]
      · have : ¬ b = a1 := fun e => hba e.symm
        simp only [hba, if_false, this]
        rw [← List.getD_eq_getElem?_getD, hl, getD_map_range _ _ _ hb]; ring
    have hget2 : ∀ b, b < P0.length → lens2.getD b 0 = costAt w (swapNodes s.paths a1 i a2 j) b := by
      intro b hb
      rw [hc, hl2, List.getD_eq_getElem?_getD, List.getElem?_set]
      by_cases hba : a2 = b
      · subst hba
        simp only [if_true, hlen1, hb, Option.getD_some]
        rw [hget1 _ hb]
      · have : ¬ b = a2 := fun e => hba e.symm
        simp only [hba, if_false, this]
        rw [← List.getD_eq_getElem?_getD, hget1 _ hb]; ring
    have hlong := longest_scan P0.length hA lens2 _ hlen2 hget2
    have hlenseq : lens2 = (List.range P0.length).map (costAt w (swapNodes s.paths a1 i a2 j)) := by
      apply List.ext_getElem
      · simp [hlen2]
      · intro k hk hk'
        have := hget2 k (by simpa using hk')
        rw [List.getD_eq_getElem?_getD, List.getElem?_eq_getElem hk] at this
        simpa using this
    exact ⟨hsh, hlen2, hlong.1, fun _ => ⟨hlenseq, hlong⟩, hobj⟩

theorem pathsInfo_spec (w : Weights) (P : Paths) (hA : 0 < P.length) :
    (pathsInfoInit .max P w).1 = (List.range P.length).map (costAt w P) ∧
    IsLongest P.length (costAt w P) (pathsInfoInit .max P w).2 := by
  have key : ∀ k, k ≤ P.length →
      let r := (List.range k).foldl (fun (b : List ℚ × Nat) a =>
        let lens := b.1.set a (calcPathLength (P.getD a []) w)
        (lens, if lens.getD a 0 > lens.getD b.2 0 then a else b.2)) (List.replicate P.length 0, 0)
      r.1.length = P.length ∧ (∀ j, j < k → r.1.getD j 0 = costAt w P j) ∧ (r.2 < k ∨ (k = 0 ∧ r.2 = 0)) ∧
        ∀ b, b < k → costAt w P b ≤ costAt w P r.2 := by
    intro k
    induction k with
    | zero => intro _; simp
    | succ k ih =>
      intro hk
      obtain ⟨h1, h2, h3, h4⟩ := ih (by omega)
      rw [List.range_succ, List.foldl_append]
      simp only [List.foldl_cons, List.foldl_nil]
      set r := (List.range k).foldl (fun (b : List ℚ × Nat) a =>
        let lens := b.1.set a (calcPathLength (P.getD a []) w)
        (lens, if lens.getD a 0 > lens.getD b.2 0 then a else b.2)) (List.replicate P.length 0, 0) with hr
      have hset : ∀ j, j < k + 1 → (r.1.set k (costAt w P k)).getD j 0 = costAt w P j := by
        intro j hj
        rw [List.getD_eq_getElem?_getD, List.getElem?_set]
        by_cases hjk : k = j
        · subst hjk; simp [h1, show k < P.length by omega]
        · rw [if_neg hjk, ← List.getD_eq_getElem?_getD]; exact h2 j (by omega)
      have hk2 : (r.1.set k (costAt w P k)).getD k 0 = costAt w P k := hset k (by omega)
      have hr2 : (r.1.set k (costAt w P k)).getD r.2 0 = costAt w P r.2 := hset _ (by omega)
      have hfk : calcPathLength (P.getD k []) w = costAt w P k := calcPathLength_eq _ _
      rw [hfk, hk2, hr2]
      refine ⟨by simp [h1], hset, ?_, ?_⟩
      · left; split <;> omega
      · intro b hb
        by_cases hgt : costAt w P k > costAt w P r.2
        · rw [if_pos hgt]
          by_cases hbk : b = k
          · rw [hbk]
          · exact le_trans (h4 b (by omega)) (le_of_lt hgt)
        · rw [if_neg hgt]
          by_cases hbk : b = k
          · rw [hbk]; exact le_of_not_gt hgt
          · exact h4 b (by omega)
  obtain ⟨h1, h2, h3, h4⟩ := key P.length (le_refl _)
  refine ⟨?_, ?_, h4⟩
  · apply List.ext_getElem
    · rw [List.length_map, List.length_range]; exact h1
    · intro j hj hj'
      have := h2 j (by simpa using hj')
      rw [List.getD_eq_getElem?_getD] at this
      unfold pathsInfoInit at hj ⊢
      rw [List.getElem?_eq_getElem hj] at this
      simpa using this
  · unfold pathsInfoInit
    rcases h3 with h3 | h3
    · exact h3
    · omega

theorem TOInv.init (mode : Mode) (w : Weights) (P : Paths) (hA : 0 < P.length) (b : Bool) :
    TOInv mode w P { paths := P, lens := (pathsInfoInit mode P w).1, longest := (pathsInfoInit mode P w).2,
                     impSum := 0, improved := b } := by
  cases mode with
  | sum => exact ⟨SameShape.refl P, by simp [pathsInfoInit], by simpa [pathsInfoInit] using hA, by simp, by simp⟩
  | max =>
    obtain ⟨h1, h2⟩ := pathsInfo_spec w P hA
    exact ⟨SameShape.refl P, by rw [h1]; simp, h2.1, fun _ => ⟨h1, h2⟩, by simp⟩

/-! ### induction over one round -/

theorem foldl_inv {α β : Type} (l : List α) (f : β → α → β) (x : β) (I : β → Prop) (h0 : I x)
    (hs : ∀ b, ∀ a ∈ l, I b → I (f b a)) : I (l.foldl f x) := by
  induction l generalizing x with
  | nil => exact h0
  | cons a l ih =>
    exact ih _ (hs x a (by simp) h0) (fun b c hc => hs b c (List.mem_cons_of_mem _ hc))

theorem foldl_range'_inv {β : Type} (f : β → Nat → β) (I : Nat → β → Prop) (n : Nat) :
    ∀ (a : Nat) (x : β), I a x → (∀ k b, a ≤ k → k < a + n → I k b → I (k + 1) (f b k)) →
      I (a + n) ((List.range' a n).foldl f x) := by
  induction n with
  | zero => intro a x h _; simpa using h
  | succ n ih =>
    intro a x h hs
    rw [List.range'_succ, List.foldl_cons, show a + (n + 1) = a + 1 + n by omega]
    exact ih (a + 1) _ (hs a x (le_refl _) (by omega) h) (fun k b h1 h2 => hs k b (by omega) (by omega))

/-- the conditions under which the code looks at `(a1, i)` and `(a2, j)` -/
structure Visit (P0 : Paths) (deps : DepGraph) (a1 a2 i : Nat) (u : Nat) : Prop where
  h1 : a1 < P0.length
  h2 : a2 < P0.length
  i1 : 1 ≤ i
  i2 : i + 1 < (P0.getD a1 []).length
  free : a1 ≠ a2 → hasDeps deps u = false

theorem a2range_lt {mode : Mode} {w : Weights} {P0 : Paths} {s : TOState} (h : TOInv mode w P0 s) (a1 : Nat) :
    (getA2Range mode s.lens s.longest a1).2 ≤ P0.length := by
  have := h.longest
  have := h.lensLen
  cases mode with
  | sum => simp [getA2Range]; omega
  | max => simp only [getA2Range]; split; · dsimp only; omega
           split <;> dsimp only <;> omega

theorem round_inv (mode : Mode) (w : Weights) (deps : DepGraph) (P0 : Paths) (I : TOState → Prop)
    (J : Nat → Nat → Nat → Nat → Nat → TOState → Prop)
    (hI : ∀ s, I s → TOInv mode w P0 s)
    (hstart : ∀ a1 a2 i s, I s → Visit P0 deps a1 a2 i (nodeAt s.paths a1 i) →
      J a1 a2 i (nodeAt s.paths a1 i) (if a1 = a2 then i + 1 else 1) s)
    (hstep : ∀ a1 a2 i u j s, Visit P0 deps a1 a2 i u → 1 ≤ j → (a1 = a2 → i < j) → j + 1 < (P0.getD a2 []).length →
      J a1 a2 i u j s → J a1 a2 i u (j + 1) (toStepJ mode w deps a1 a2 i u s j))
    (hend : ∀ a1 a2 i u j s, Visit P0 deps a1 a2 i u → J a1 a2 i u j s → I s)
    (A : Nat) (hA : A ≤ P0.length) (s : TOState) (h : I s) : I ((List.range A).foldl (toStepA1 mode w deps) s) := by
  refine foldl_inv _ _ _ I h ?_
  intro s a1 ha1 hs
  have ha1 : a1 < P0.length := by have := List.mem_range.1 ha1; omega
  unfold toStepA1
  have hr := a2range_lt (hI s hs) a1
  refine foldl_inv _ _ _ I hs ?_
  intro s a2 ha2 hs
  rw [List.mem_range'_1] at ha2
  have ha2 : a2 < P0.length := by omega
  unfold toStepA2
  refine foldl_inv _ _ _ I hs ?_
  intro s' i hi hs'
  rw [List.mem_range'_1] at hi
  rw [(hI s hs).shape.plen] at hi
  unfold toStepI
  dsimp only
  split
  · exact hs'
  next hfree =>
    have hv : Visit P0 deps a1 a2 i (nodeAt s'.paths a1 i) := ⟨ha1, ha2, hi.1, by omega, by
      intro hne; by_contra hc; exact hfree ⟨hne, by simpa using hc⟩⟩
    have hlen : (s'.paths.getD a2 []).length = (P0.getD a2 []).length := (hI s' hs').shape.plen a2
    rw [hlen]
    refine hend a1 a2 i _ _ _ hv (foldl_range'_inv (toStepJ mode w deps a1 a2 i (nodeAt s'.paths a1 i))
      (fun j s => J a1 a2 i (nodeAt s'.paths a1 i) j s) _ _ s' (hstart a1 a2 i s' hs' hv) ?_)
    intro k b hk1 hk2 hJ
    refine hstep a1 a2 i _ k b hv ?_ ?_ ?_ hJ
    · split at hk1 <;> omega
    · intro e; rw [if_pos e] at hk1; omega
    · by_cases e : a1 = a2
      · rw [if_pos e] at hk1 hk2; omega
      · rw [if_neg e] at hk1 hk2; omega

/-- what one inner step does -/
theorem stepJ_cases {mode : Mode} {w : Weights} {deps : DepGraph} {a1 a2 i u j : Nat} {s : TOState} :
    toStepJ mode w deps a1 a2 i u s j = s ∨
    (skipJ deps s.paths a1 a2 u (nodeAt s.paths a2 j) i j = false ∧
      0 < overallImprovement mode s.lens s.longest a1 (swapGain w s.paths a1 i a2 j).1 a2 (swapGain w s.paths a1 i a2 j).2 ∧
      toStepJ mode w deps a1 a2 i u s j =
        { paths := swapNodes s.paths a1 i a2 j,
          lens := (applyImprovement mode s.lens s.longest a1 (swapGain w s.paths a1 i a2 j).1 a2 (swapGain w s.paths a1 i a2 j).2).1,
          longest := (applyImprovement mode s.lens s.longest a1 (swapGain w s.paths a1 i a2 j).1 a2 (swapGain w s.paths a1 i a2 j).2).2,
          impSum := s.impSum + overallImprovement mode s.lens s.longest a1 (swapGain w s.paths a1 i a2 j).1 a2 (swapGain w s.paths a1 i a2 j).2,
          improved := true }) := by
  unfold toStepJ
  dsimp only
  split
  · exact Or.inl rfl
  next hsk =>
    split
    · next hp => right; exact ⟨by simpa using hsk, hp, rfl⟩
    · exact Or.inl rfl

/-- state of a round that started at objective `F0` -/
def RoundInv (mode : Mode) (w : Weights) (P0 : Paths) (F0 : ℚ) (s : TOState) : Prop :=
  TOInv mode w P0 s ∧ calcObjective mode s.paths (fun _ => w) ≤ F0 ∧
    (s.improved = true → calcObjective mode s.paths (fun _ => w) < F0)

theorem toRound_inv {mode : Mode} {w : Weights} {deps : DepGraph} {P0 : Paths} {s : TOState} (h : TOInv mode w P0 s) :
    RoundInv mode w P0 (calcObjective mode s.paths (fun _ => w)) (toRound mode w deps P0.length s) := by
  unfold toRound
  refine round_inv mode w deps P0 (RoundInv mode w P0 (calcObjective mode s.paths (fun _ => w)))
    (fun _ _ _ _ _ => RoundInv mode w P0 (calcObjective mode s.paths (fun _ => w))) (fun s h => h.1)
    (fun _ _ _ _ h _ => h) ?_ (fun _ _ _ _ _ _ _ h => h) P0.length (le_refl _) _
    ⟨⟨h.shape, h.lensLen, h.longest, h.info, h.obj⟩, le_refl _, by simp⟩
  intro a1 a2 i u j s' hv hj1 hlt hj2 hJ
  rcases stepJ_cases (mode := mode) (w := w) (deps := deps) (a1 := a1) (a2 := a2) (i := i) (u := u) (j := j) (s := s') with e | ⟨_, hpos, e⟩
  · rw [e]; exact hJ
  · rw [e]
    have hi2 : i + 1 < (s'.paths.getD a1 []).length := by rw [hJ.1.shape.plen]; exact hv.i2
    have hj2' : j + 1 < (s'.paths.getD a2 []).length := by rw [hJ.1.shape.plen]; exact hj2
    have hg := gain_eq hJ.1 hv.h1 hv.h2 hv.i1 hi2 hj1 hj2' hlt hpos
    rw [hg] at hpos
    refine ⟨hJ.1.swap hv.h1 hv.h2 hv.i1 hi2 hj1 hj2' hlt (by rw [hg]; exact hpos), ?_, ?_⟩
    · have := hJ.2.1; dsimp only; linarith
    · intro _; have := hJ.2.1; dsimp only; linarith

theorem toLoop_inv {mode : Mode} {w : Weights} {deps : DepGraph} {P0 : Paths} (t : Nat) (s : TOState) (h : TOInv mode w P0 s) :
    TOInv mode w P0 (toLoop mode w deps P0.length t s).1 ∧
    calcObjective mode (toLoop mode w deps P0.length t s).1.paths (fun _ => w) ≤ calcObjective mode s.paths (fun _ => w) := by
  induction t generalizing s with
  | zero => exact ⟨h, le_refl _⟩
  | succ t ih =>
    simp only [toLoop]
    split
    · have hr := toRound_inv (deps := deps) h
      obtain ⟨k1, k2⟩ := ih _ hr.1
      exact ⟨k1, le_trans k2 hr.2.1⟩
    · exact ⟨h, le_refl _⟩

end Mtsp
