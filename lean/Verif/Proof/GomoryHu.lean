import Verif.Model.GomoryHu
import Verif.Spec.GomoryHu
import Verif.Proof.Graph
import Mathlib.Tactic.Ring
import Mathlib.Tactic.Linarith
import Mathlib.Algebra.Order.BigOperators.Group.List
import Mathlib.Data.List.Nodup
import Mathlib.Data.List.Perm.Basic

/-! Cuts of the input graph, uncrossing, contracted graphs. -/

namespace Mtsp
open Relation

/-! ### capacities of cuts -/

/-- size of the cut `W` of the input graph, over the pairs of the code's loops -/
def gcut (N : Nat) (ws : List ℚ) (W : Nat → Bool) : ℚ :=
  ((ghPairs N).map fun e => if W e.1 ≠ W e.2 then tableWeight ws e.1 e.2 else 0).sum

theorem mem_ghPairs {N : Nat} {e : Nat × Nat} : e ∈ ghPairs N ↔ e.2 < e.1 ∧ e.1 < N := by
  unfold ghPairs
  simp only [List.mem_flatMap, List.mem_range'_1, List.mem_map, List.mem_range]
  constructor
  · rintro ⟨u, hu, v, hv, rfl⟩
    simp only; omega
  · intro h
    exact ⟨e.1, by omega, e.2, h.1, rfl⟩

theorem gcut_congr {N : Nat} {ws : List ℚ} {W W' : Nat → Bool} (h : ∀ v < N, W v = W' v) : gcut N ws W = gcut N ws W' := by
  unfold gcut
  congr 1
  apply List.map_congr_left
  intro e he
  have := mem_ghPairs.1 he
  rw [h e.1 this.2, h e.2 (by omega)]

theorem gcut_not (N : Nat) (ws : List ℚ) (W : Nat → Bool) : gcut N ws (fun v => !W v) = gcut N ws W := by
  unfold gcut
  congr 1
  apply List.map_congr_left
  intro e _
  cases h1 : W e.1 <;> cases h2 : W e.2 <;> simp [h1, h2]

theorem gcut_four {N : Nat} {ws : List ℚ} {A B C D : Nat → Bool} (h0 : ∀ q ∈ ws, 0 ≤ q)
    (hle : ∀ u v : Nat, ∀ q : ℚ, 0 ≤ q → (if A u ≠ A v then q else 0) + (if B u ≠ B v then q else 0) ≤
      (if C u ≠ C v then q else 0) + (if D u ≠ D v then q else 0)) :
    gcut N ws A + gcut N ws B ≤ gcut N ws C + gcut N ws D := by
  unfold gcut
  rw [← List.sum_map_add, ← List.sum_map_add]
  apply List.sum_le_sum
  intro e _
  refine hle e.1 e.2 _ ?_
  unfold tableWeight
  rw [List.getD_eq_getElem?_getD]
  cases hq : ws[triIndex e.1 e.2]? with
  | none => simp
  | some q => exact h0 q (List.mem_of_getElem? hq)

theorem gcut_submod {N : Nat} {ws : List ℚ} (h0 : ∀ q ∈ ws, 0 ≤ q) (U W : Nat → Bool) :
    gcut N ws (fun v => U v && W v) + gcut N ws (fun v => U v || W v) ≤ gcut N ws U + gcut N ws W := by
  apply gcut_four h0
  intro u v q hq
  cases U u <;> cases U v <;> cases W u <;> cases W v <;> simp <;> linarith

theorem gcut_posimod {N : Nat} {ws : List ℚ} (h0 : ∀ q ∈ ws, 0 ≤ q) (U W : Nat → Bool) :
    gcut N ws (fun v => U v && !W v) + gcut N ws (fun v => W v && !U v) ≤ gcut N ws U + gcut N ws W := by
  apply gcut_four h0
  intro u v q hq
  cases U u <;> cases U v <;> cases W u <;> cases W v <;> simp <;> linarith

/-- `U` is a minimum cut between some node outside and some node inside -/
def MinSep (N : Nat) (ws : List ℚ) (U : Nat → Bool) : Prop :=
  ∃ x y, x < N ∧ y < N ∧ U x = false ∧ U y = true ∧ ∀ W : Nat → Bool, W x = false → W y = true → gcut N ws U ≤ gcut N ws W

theorem MinSep.not {N : Nat} {ws : List ℚ} {U : Nat → Bool} (h : MinSep N ws U) : MinSep N ws fun v => !U v := by
  obtain ⟨x, y, hx, hy, ux, uy, hm⟩ := h
  refine ⟨y, x, hy, hx, by simp [uy], by simp [ux], ?_⟩
  intro W wy wx
  rw [gcut_not, ← gcut_not N ws W]
  exact hm _ (by simp [wx]) (by simp [wy])

theorem MinSep.congr {N : Nat} {ws : List ℚ} {U U' : Nat → Bool} (h : MinSep N ws U) (he : ∀ v < N, U v = U' v) : MinSep N ws U' := by
  obtain ⟨x, y, hx, hy, ux, uy, hm⟩ := h
  refine ⟨x, y, hx, hy, he x hx ▸ ux, he y hy ▸ uy, ?_⟩
  intro W wx wy
  rw [← gcut_congr he]
  exact hm W wx wy

/-- a cut can be changed inside a minimum cut `U` so that it does not cross `U` and is not bigger -/
theorem MinSep.uncross {N : Nat} {ws : List ℚ} {U : Nat → Bool} (h0 : ∀ q ∈ ws, 0 ≤ q) (h : MinSep N ws U) (W : Nat → Bool) :
    ∃ W' : Nat → Bool, gcut N ws W' ≤ gcut N ws W ∧ (∀ v, U v = false → W' v = W v) ∧ ∀ u v, U u = true → U v = true → W' u = W' v := by
  obtain ⟨x, y, hx, hy, ux, uy, hm⟩ := h
  cases hw : W y
  · refine ⟨fun v => W v && !U v, ?_, ?_, ?_⟩
    · have h1 := gcut_posimod (N := N) h0 U W
      have h2 := hm (fun v => U v && !W v) (by simp [ux]) (by simp [uy, hw])
      linarith
    · intro v hv; simp [hv]
    · intro u v hu hv; simp [hu, hv]
  · refine ⟨fun v => U v || W v, ?_, ?_, ?_⟩
    · have h1 := gcut_submod (N := N) h0 U W
      have h2 := hm (fun v => U v && W v) (by simp [ux]) (by simp [uy, hw])
      linarith
    · intro v hv; simp [hv]
    · intro u v hu hv; simp [hu, hv]

/-- the same for several disjoint minimum cuts -/
theorem uncross_all {N : Nat} {ws : List ℚ} (h0 : ∀ q ∈ ws, 0 ≤ q) (Us : List (Nat → Bool)) (hU : ∀ U ∈ Us, MinSep N ws U)
    (hd : Us.Pairwise fun U U' => ∀ v, U v = true → U' v = false) (W : Nat → Bool) :
    ∃ W' : Nat → Bool, gcut N ws W' ≤ gcut N ws W ∧ (∀ v, (∀ U ∈ Us, U v = false) → W' v = W v) ∧
      ∀ U ∈ Us, ∀ u v, U u = true → U v = true → W' u = W' v := by
  induction Us with
  | nil => exact ⟨W, le_refl _, fun _ _ => rfl, by simp⟩
  | cons U Us ih =>
    obtain ⟨hd1, hd2⟩ := List.pairwise_cons.1 hd
    obtain ⟨W1, h1, h2, h3⟩ := ih (fun U hU' => hU U (by simp [hU'])) hd2
    obtain ⟨W2, k1, k2, k3⟩ := (hU U (by simp)).uncross h0 W1
    refine ⟨W2, k1.trans h1, ?_, ?_⟩
    · intro v hv
      rw [k2 v (hv U (by simp))]
      exact h2 v fun U' hU' => hv U' (by simp [hU'])
    · intro U' hU' u v hu hv
      rcases List.mem_cons.1 hU' with rfl | hU'
      · exact k3 u v hu hv
      · have hout : ∀ z, U' z = true → U z = false := by
          intro z hz
          cases hUz : U z
          · rfl
          · rw [hd1 U' hU' z hUz] at hz; simp at hz
        rw [k2 u (hout u hu), k2 v (hout v hv)]
        exact h3 U' hU' u v hu hv

/-! ### the contracted graph -/

theorem flowCut_update {n a b : Nat} {c : Nat → ℚ} {q : ℚ} {B : Nat → Bool} (ha : a < n) (hb : b < n) :
    flowCut n (fun _ => true) (fun u v => Function.update c (a * n + b) (c (a * n + b) + q) (pcgIndex n (u, v))) B =
    flowCut n (fun _ => true) (fun u v => c (pcgIndex n (u, v))) B + if a ≠ b ∧ B a = true ∧ B b = false then q else 0 := by
  have hidx : ∀ u < n, ∀ v < n, n * u + v = a * n + b ↔ u = a ∧ v = b := by
    intro u hu v hv
    constructor
    · intro h
      have h1 : (n * u + v) % n = (a * n + b) % n := by rw [h]
      have h2 : (n * u + v) / n = (a * n + b) / n := by rw [h]
      rw [Nat.mul_add_mod, Nat.mod_eq_of_lt hv, Nat.add_comm, Nat.add_mul_mod_self_right, Nat.mod_eq_of_lt hb] at h1
      rw [Nat.mul_add_div (by omega), Nat.div_eq_of_lt hv, Nat.add_comm (a * n), Nat.add_mul_div_right _ _ (by omega), Nat.div_eq_of_lt hb] at h2
      omega
    · rintro ⟨rfl, rfl⟩; ring
  unfold flowCut
  have key : ∀ u ∈ Finset.range n, ∀ v ∈ Finset.range n,
      (if u ≠ v ∧ (fun _ => true : Nat → Bool) u = true ∧ (fun _ => true : Nat → Bool) v = true ∧ B u = true ∧ B v = false
        then Function.update c (a * n + b) (c (a * n + b) + q) (pcgIndex n (u, v)) else 0) =
      (if u ≠ v ∧ (fun _ => true : Nat → Bool) u = true ∧ (fun _ => true : Nat → Bool) v = true ∧ B u = true ∧ B v = false
        then c (pcgIndex n (u, v)) else 0) + if u = a then (if v = b then (if a ≠ b ∧ B a = true ∧ B b = false then q else 0) else 0) else 0 := by
    intro u hu v hv
    have hu := Finset.mem_range.1 hu
    have hv := Finset.mem_range.1 hv
    have h := hidx u hu v hv
    unfold pcgIndex
    simp only
    by_cases hab : u = a ∧ v = b
    · obtain ⟨rfl, rfl⟩ := hab
      rw [h.2 ⟨rfl, rfl⟩, Function.update_self]
      simp only [true_and, if_true]
      split <;> simp
    · rw [Function.update_of_ne (fun e => hab (h.1 e))]
      have : (if u = a then (if v = b then (if a ≠ b ∧ B a = true ∧ B b = false then q else 0) else 0) else 0) = 0 := by
        split
        · split
          · rename_i h1 h2; exact absurd ⟨h1, h2⟩ hab
          · rfl
        · rfl
      rw [this, add_zero]
  rw [Finset.sum_congr rfl fun u hu => Finset.sum_congr rfl (key u hu)]
  simp only [Finset.sum_add_distrib]
  congr 1
  rw [Finset.sum_eq_single_of_mem a (Finset.mem_range.2 ha)]
  · rw [Finset.sum_eq_single_of_mem b (Finset.mem_range.2 hb)]
    · simp
    · intro v _ hv; simp [hv]
  · intro u _ hu; simp [hu]

/-- cuts of the contracted graph are the cuts of the input graph that do not cross a contracted node -/
theorem flowCut_caps {N n : Nat} {ws : List ℚ} {pos : Nat → Nat} {B : Nat → Bool} (hpos : ∀ v < N, pos v < n) :
    flowCut n (fun _ => true) (fun u v => ghCaps N ws pos n (pcgIndex n (u, v))) B = gcut N ws fun v => B (pos v) := by
  unfold ghCaps gcut
  have hl : ∀ e ∈ ghPairs N, pos e.1 < n ∧ pos e.2 < n := by
    intro e he
    have := mem_ghPairs.1 he
    exact ⟨hpos _ this.2, hpos _ (by omega)⟩
  generalize ghPairs N = l at hl
  induction l using List.reverseRecOn with
  | nil =>
    simp [flowCut]
  | append_singleton l e ih =>
    have ih := ih fun e he => hl e (by simp [he])
    obtain ⟨h1, h2⟩ := hl e (by simp)
    rw [List.foldl_append, List.map_append, List.sum_append, ← ih]
    simp only [List.foldl_cons, List.foldl_nil, List.map_cons, List.map_nil, List.sum_cons, List.sum_nil, add_zero]
    by_cases hp : pos e.1 = pos e.2
    · simp [hp]
    · simp only [if_neg hp]
      rw [flowCut_update h2 h1, flowCut_update h1 h2, add_assoc]
      congr 1
      have hp' : pos e.2 ≠ pos e.1 := fun h => hp h.symm
      rcases Bool.eq_false_or_eq_true (B (pos e.1)) with h1 | h1 <;> rcases Bool.eq_false_or_eq_true (B (pos e.2)) with h2 | h2 <;>
        simp [h1, h2, hp, hp']

theorem update_nonneg {c : Nat → ℚ} {q : ℚ} {k : Nat} (h : ∀ i, 0 ≤ c i) (hq : 0 ≤ q) (i : Nat) :
    0 ≤ Function.update c k (c k + q) i := by
  rw [Function.update_apply]
  split
  · exact add_nonneg (h k) hq
  · exact h i

theorem ghCaps_nonneg {N n : Nat} {ws : List ℚ} (h0 : ∀ q ∈ ws, 0 ≤ q) (pos : Nat → Nat) (i : Nat) : 0 ≤ ghCaps N ws pos n i := by
  unfold ghCaps
  generalize ghPairs N = l
  induction l using List.reverseRecOn generalizing i with
  | nil => simp
  | append_singleton l e ih =>
    rw [List.foldl_append]
    simp only [List.foldl_cons, List.foldl_nil]
    have hw : 0 ≤ tableWeight ws e.1 e.2 := by
      unfold tableWeight
      rw [List.getD_eq_getElem?_getD]
      cases hq : ws[triIndex e.1 e.2]? with
      | none => simp
      | some q => exact h0 q (List.mem_of_getElem? hq)
    split
    · exact ih i
    · exact update_nonneg (update_nonneg ih hw) hw i

end Mtsp
