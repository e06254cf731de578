import Verif.Model.Heuristics
import Verif.Spec.Cost
import Mathlib.Tactic.Abel

namespace Mtsp

theorem pathCost_cons_cons (w : Weights) (u v : Nat) (l : List Nat) :
    pathCost w (u :: v :: l) = w u v + pathCost w (v :: l) := rfl

theorem pathCost_append (w : Weights) (l : List Nat) (u v : Nat) (r : List Nat) :
    pathCost w (l ++ u :: v :: r) = pathCost w (l ++ [u]) + w u v + pathCost w (v :: r) := by
  induction l with
  | nil => simp [pathCost]
  | cons a l ih =>
    cases l with
    | nil => simp [pathCost]; ring
    | cons b l =>
      simp only [List.cons_append, pathCost_cons_cons] at ih ⊢
      rw [ih]; ring

theorem pathCost_snoc (w : Weights) (l : List Nat) (u v : Nat) :
    pathCost w (l ++ [u, v]) = pathCost w (l ++ [u]) + w u v := by
  rw [pathCost_append]; simp [pathCost]

theorem pathCost_split (w : Weights) (l : List Nat) (u : Nat) (r : List Nat) :
    pathCost w (l ++ u :: r) = pathCost w (l ++ [u]) + pathCost w (u :: r) := by
  cases r with
  | nil => simp [pathCost]
  | cons v r => rw [pathCost_append, pathCost_cons_cons]; ring

theorem foldl_add_map {α : Type} (l : List α) (f : α → ℚ) (x : ℚ) :
    l.foldl (fun acc i => acc + f i) x = x + (l.map f).sum := by
  induction l generalizing x with
  | nil => simp
  | cons a l ih => simp [ih]; ring

theorem calcPathLength_eq (p : List Nat) (w : Weights) : calcPathLength p w = pathCost w p := by
  unfold calcPathLength
  rw [foldl_add_map, zero_add]
  induction p with
  | nil => simp [pathCost]
  | cons a p ih =>
    cases p with
    | nil => simp [pathCost]
    | cons b p =>
      rw [pathCost_cons_cons, ← ih]
      simp only [List.length_cons, Nat.add_sub_cancel]
      rw [List.range'_succ, List.map_cons, List.sum_cons]
      congr 1
      rw [show 1 + 1 = 1 + 1 from rfl, ← List.map_add_range' (a := 1) (s := 1), List.map_map]
      congr 1
      apply List.map_congr_left
      intro i hi
      rw [List.mem_range'_1] at hi
      obtain ⟨k, rfl⟩ : ∃ k, i = k + 1 := ⟨i - 1, by omega⟩
      have e : 1 + (k + 1) = (k + 1) + 1 := by omega
      simp [e, List.getD_eq_getElem?_getD]

theorem sumCost_eq (W : Nat → Weights) (P : Paths) :
    sumCost W P = ((List.range P.length).map fun a => pathCost (W a) (P.getD a [])).sum := by
  unfold sumCost
  congr 1
  apply List.ext_getElem?
  intro i
  by_cases h : i < P.length
  · simp [h, List.getElem?_mapIdx, List.getD_eq_getElem?_getD]
  · simp [h, List.getElem?_mapIdx]

theorem insertAt_length (l : List Nat) (i x : Nat) : (insertAt l i x).length = l.length + 1 := by
  simp [insertAt]; omega

theorem insertAt_perm (l : List Nat) (i x : Nat) : (insertAt l i x).Perm (x :: l) := by
  unfold insertAt
  refine List.perm_middle.trans ?_
  rw [List.take_append_drop]

theorem insertAt_mid (s e : Nat) (I : List Nat) (i x : Nat) (h1 : 1 ≤ i) (h2 : i ≤ I.length + 1) :
    insertAt (s :: I ++ [e]) i x = s :: insertAt I (i - 1) x ++ [e] := by
  obtain ⟨k, rfl⟩ : ∃ k, i = k + 1 := ⟨i - 1, by omega⟩
  have hk : k ≤ I.length := by omega
  simp [insertAt, List.take_append_of_le_length hk, List.drop_append_of_le_length hk]

theorem pathCost_insertAt (w : Weights) (p : List Nat) (i n : Nat) (h1 : 1 ≤ i) (h2 : i < p.length) :
    pathCost w (insertAt p i n) = pathCost w p + niDelta w p i n := by
  have hsplit : p = p.take (i - 1) ++ p.getD (i - 1) 0 :: p.getD i 0 :: p.drop (i + 1) := by
    have a1 : p.getD (i - 1) 0 = p[i - 1]'(by omega) := by simp [List.getD_eq_getElem?_getD, show i - 1 < p.length by omega]
    have a2 : p.getD i 0 = p[i] := by simp [List.getD_eq_getElem?_getD, h2]
    rw [a1, a2]
    conv_lhs => rw [← List.take_append_drop (i - 1) p]
    congr 1
    rw [List.drop_eq_getElem_cons (by omega)]
    congr 1
    obtain ⟨k, rfl⟩ : ∃ k, i = k + 1 := ⟨i - 1, by omega⟩
    simp only [Nat.add_sub_cancel]
    rw [List.drop_eq_getElem_cons h2]
  have htake : p.take i = p.take (i - 1) ++ [p.getD (i - 1) 0] := by
    obtain ⟨k, rfl⟩ : ∃ k, i = k + 1 := ⟨i - 1, by omega⟩
    simp only [Nat.add_sub_cancel]
    rw [List.take_succ_eq_append_getElem (by omega)]
    simp [List.getD_eq_getElem?_getD, show k < p.length by omega]
  have hdrop : p.drop i = p.getD i 0 :: p.drop (i + 1) := by
    rw [List.drop_eq_getElem_cons h2]; simp [List.getD_eq_getElem?_getD, h2]
  unfold insertAt niDelta
  rw [htake, hdrop]
  conv_rhs => rw [hsplit]
  have hl : p.take (i - 1) ++ [p.getD (i - 1) 0] ++ n :: p.getD i 0 :: p.drop (i + 1) =
      p.take (i - 1) ++ p.getD (i - 1) 0 :: n :: (p.getD i 0 :: p.drop (i + 1)) := by simp
  rw [hl, pathCost_append, pathCost_append, pathCost_cons_cons]
  have e1 : (p.take (i - 1) ++ p.getD (i - 1) 0 :: p.getD i 0 :: p.drop (i + 1)).getD (i - 1) 0 = p.getD (i - 1) 0 := by
    rw [← hsplit]
  have e2 : (p.take (i - 1) ++ p.getD (i - 1) 0 :: p.getD i 0 :: p.drop (i + 1)).getD i 0 = p.getD i 0 := by
    rw [← hsplit]
  rw [e1, e2]
  ring

end Mtsp
