import Verif.Spec.Cuts
import Verif.Proof.LPSat
import Verif.Props.Dependency
import Mathlib.Data.Finset.Powerset
import Mathlib.Data.Finset.Max

/-! Walking along the closed tour; sums over cuts. -/

namespace Mtsp
open Finset

/-- `z` is met when the closed tour is followed from `u` until `v` -/
def OnWay (T : List Nat) (u v z : Nat) : Prop :=
  if T.idxOf u ≤ T.idxOf v then T.idxOf u ≤ T.idxOf z ∧ T.idxOf z ≤ T.idxOf v
  else T.idxOf u ≤ T.idxOf z ∨ T.idxOf z ≤ T.idxOf v

theorem cross_walk {T : List Nat} (hn : T.Nodup) {B : Nat → Bool} {u v : Nat} (hu : u ∈ T) (hv : v ∈ T)
    (hBu : B u = true) (hBv : B v = false) :
    ∃ z ∈ T, B z = true ∧ B (nxt T z) = false ∧ OnWay T u v z ∧ OnWay T u v (nxt T z) := by
  have lu := List.idxOf_lt_length_of_mem hu
  have lv := List.idxOf_lt_length_of_mem hv
  have hN : 0 < T.length := by omega
  set N := T.length with hNd
  set iu := T.idxOf u with hiu
  set iv := T.idxOf v with hiv
  let f : Nat → Nat := fun j => T[(iu + j) % N]'(Nat.mod_lt _ hN)
  have hfm : ∀ j, f j ∈ T := fun j => List.getElem_mem _
  have hfi : ∀ j, T.idxOf (f j) = (iu + j) % N := fun j => hn.idxOf_getElem _ _
  have hfn : ∀ j, nxt T (f j) = f (j + 1) := by
    intro j
    apply mem_eq_of_idxOf (nxt_mem (List.ne_nil_of_mem hu)) (hfm _)
    rw [idxOf_nxt hn (hfm j), hfi, hfi, ← Nat.add_assoc, Nat.mod_add_mod]
  obtain ⟨k0, hk0, hk0v⟩ : ∃ k0, (if iu ≤ iv then k0 = iv - iu else k0 = N - iu + iv) ∧ f k0 = v := by
    by_cases h : iu ≤ iv
    · refine ⟨iv - iu, by rw [if_pos h], ?_⟩
      apply mem_eq_of_idxOf (hfm _) hv
      rw [hfi, Nat.add_sub_cancel' h, Nat.mod_eq_of_lt lv]
    · refine ⟨N - iu + iv, by rw [if_neg h], ?_⟩
      apply mem_eq_of_idxOf (hfm _) hv
      rw [hfi, ← Nat.add_assoc, Nat.add_sub_cancel' lu.le, Nat.add_mod_left, Nat.mod_eq_of_lt lv]
  have hf0 : f 0 = u := by
    apply mem_eq_of_idxOf (hfm _) hu
    rw [hfi, Nat.add_zero, Nat.mod_eq_of_lt lu]
  have hex : ∃ j, B (f j) = false := ⟨k0, by rw [hk0v]; exact hBv⟩
  classical
  set j := Nat.find hex with hj
  have h1 : B (f j) = false := Nat.find_spec hex
  have hjk : j ≤ k0 := Nat.find_le (by rw [hk0v]; exact hBv)
  have hj0 : j ≠ 0 := by
    intro h0; rw [h0, hf0, hBu] at h1; simp at h1
  obtain ⟨i, hji⟩ : ∃ i, j = i + 1 := ⟨j - 1, by omega⟩
  have h2 : B (f i) = true := by
    have := Nat.find_min hex (m := i) (by omega)
    simpa using this
  have honway : ∀ l ≤ k0, OnWay T u v (f l) := by
    intro l hl
    unfold OnWay
    rw [hfi, ← hiu, ← hiv]
    by_cases h : iu ≤ iv
    · rw [if_pos h]
      rw [if_pos h] at hk0
      rw [Nat.mod_eq_of_lt (by omega)]
      omega
    · rw [if_neg h]
      rw [if_neg h] at hk0
      rcases Nat.lt_or_ge (iu + l) N with hlt | hge
      · rw [Nat.mod_eq_of_lt hlt]; omega
      · right
        rw [Nat.mod_eq_sub_mod hge, Nat.mod_eq_of_lt (by omega)]
        omega
  exact ⟨f i, hfm i, h2, by rw [hfn, ← hji]; exact h1, honway i (by omega), by rw [hfn]; exact honway (i + 1) (by omega)⟩

/-- going once around: out of a proper subset, and into it -/
theorem cross_both {T : List Nat} (hn : T.Nodup) {B : Nat → Bool} {u v : Nat} (hu : u ∈ T) (hv : v ∈ T)
    (hBu : B u = true) (hBv : B v = false) :
    (∃ z ∈ T, B z = true ∧ B (nxt T z) = false) ∧ ∃ z ∈ T, B z = false ∧ B (nxt T z) = true := by
  constructor
  · obtain ⟨z, h1, h2, h3, _⟩ := cross_walk hn hu hv hBu hBv
    exact ⟨z, h1, h2, h3⟩
  · obtain ⟨z, h1, h2, h3, _⟩ := cross_walk (B := fun x => !B x) hn hv hu (by simp [hBv]) (by simp [hBu])
    exact ⟨z, h1, by simpa using h2, by simpa using h3⟩

/-! ### sums -/

theorem list_sum_filter_range (n : Nat) (p : Nat → Bool) (f : Nat → ℚ) :
    (((List.range n).filter p).map f).sum = ∑ i ∈ range n, if p i = true then f i else 0 := by
  induction n with
  | zero => simp
  | succ n ih =>
    rw [List.range_succ, List.filter_append, List.map_append, List.sum_append, ih, Finset.sum_range_succ]
    congr 1
    by_cases h : p n = true <;> simp [h]

theorem eval_sum_cutIds (A N : Nat) (x : Nat → ℚ) (edges : List (Nat × Nat)) :
    (sumVars (edges.flatMap fun uv => (List.range A).map fun a => varId N a uv.1 uv.2)).eval x =
      (edges.map fun uv => ∑ a ∈ range A, x (varId N a uv.1 uv.2)).sum := by
  rw [eval_sumVars, List.map_flatMap, list_sum_flatMap]
  congr 1
  apply List.map_congr_left
  intro e _
  rw [List.map_map, ← list_sum_range]; rfl

theorem sum_cutEdges (N : Nat) (keep black : Nat → Bool) (f : Nat → Nat → ℚ) :
    ((cutEdges N keep black).map fun uv => f uv.1 uv.2).sum =
      ∑ u ∈ range N, ∑ v ∈ range N,
        if u ≠ v ∧ keep u = true ∧ keep v = true ∧ black u = true ∧ black v = false then f u v else 0 := by
  unfold cutEdges
  rw [List.map_flatMap, list_sum_flatMap, list_sum_range]
  refine Finset.sum_congr rfl fun u _ => ?_
  rw [List.map_map]
  have := list_sum_filter_range N (fun v => decide (u ≠ v) && keep u && keep v && black u && !black v) (fun v => f u v)
  refine Eq.trans ?_ (this.trans ?_)
  · rfl
  · refine Finset.sum_congr rfl fun v _ => ?_
    congr 1
    simp [and_assoc]

theorem arcCapacity_eq (A N : Nat) (x : Nat → ℚ) (u v : Nat) : arcCapacity A N x u v = ∑ a ∈ range A, x (varId N a u v) := by
  unfold arcCapacity
  rw [← list_sum_range]
  have : ∀ (l : List Nat) (s : ℚ), l.foldl (fun s a => s + x (varId N a u v)) s = s + (l.map fun a => x (varId N a u v)).sum := by
    intro l
    induction l with
    | nil => simp
    | cons a l ih => intro s; rw [List.foldl_cons, ih]; simp [add_assoc]
  rw [this]; simp

theorem undirWeight_eq (A N : Nat) (x : Nat → ℚ) (u v : Nat) :
    undirWeight A N x u v = ∑ a ∈ range A, (x (varId N a u v) + x (varId N a v u)) := by
  unfold undirWeight
  rw [← list_sum_range]
  have : ∀ (l : List Nat) (s : ℚ), l.foldl (fun s a => s + (x (varId N a u v) + x (varId N a v u))) s =
      s + (l.map fun a => x (varId N a u v) + x (varId N a v u)).sum := by
    intro l
    induction l with
    | nil => simp
    | cons a l ih => intro s; rw [List.foldl_cons, ih]; simp [add_assoc]
  rw [this]; simp

theorem eval_ucutIds (A N : Nat) (x : Nat → ℚ) (par : Nat → Bool) :
    (sumVars (ucutIds A N par)).eval x =
      ∑ u ∈ range N, ∑ v ∈ range N, if par u ≠ par v then ∑ a ∈ range A, x (varId N a u v) else 0 := by
  rw [eval_sumVars, ucutIds, List.map_flatMap, list_sum_flatMap, list_sum_range]
  refine Finset.sum_congr rfl fun u _ => ?_
  rw [List.map_flatMap, list_sum_flatMap, list_sum_range]
  refine Finset.sum_congr rfl fun v _ => ?_
  by_cases h : par u = par v
  · simp [h]
  · rw [if_pos h, if_pos h, List.map_map, ← list_sum_range]; rfl

/-- `Σ … >= c` -/
theorem sat_ge_const (x : Nat → ℚ) (ids : List Nat) (c : ℚ) (h0 : (sumVars ids).eval x ≤ dblMax) (h1 : c ≤ (sumVars ids).eval x) :
    (LinCon.ge (sumVars ids) (.ofConst c)).Sat x := by
  rw [LinCon.sat_ge_iff]
  refine ⟨by simpa using h1, ?_⟩
  rw [LinCon.value_ge]
  have hc : (LinComp.sub (sumVars ids) (.ofConst c)).const = -c := by
    unfold LinComp.sub LinComp.add LinComp.addAssign LinComp.neg LinComp.ofConst
    split <;> simp [sumVars_const]
  rw [hc]; simpa using h0

theorem nat_le_dblMax {n : Nat} (h : n ≤ 2147483647) : (n : ℚ) ≤ dblMax := by
  have h1 : (n : ℚ) ≤ (2147483647 : ℕ) := by exact_mod_cast h
  have h2 : ((2147483647 : ℕ) : ℚ) ≤ dblMax := by
    unfold dblMax
    have e1 : (1 : ℚ) ≤ 2 ^ 971 := one_le_pow₀ (by norm_num)
    have e2 : ((2147483647 : ℕ) : ℚ) ≤ 2 ^ 53 - 1 := by norm_num
    calc ((2147483647 : ℕ) : ℚ) ≤ (2 ^ 53 - 1) * 1 := by rw [mul_one]; exact e2
      _ ≤ (2 ^ 53 - 1) * 2 ^ 971 := by
        apply mul_le_mul_of_nonneg_left e1; norm_num
  exact h1.trans h2

/-! ### a point of a solution meets a set of arcs it must use -/

section
variable {N A : Nat} {x : Nat → ℚ} {own nx pv : Nat → Nat}

theorem tour_sum_le (ht : TourPoint N A x own nx pv) (p : Nat → Nat → Prop) [∀ u v, Decidable (p u v)] :
    (∑ u ∈ range N, ∑ v ∈ range N, if p u v then ∑ a ∈ range A, x (varId N a u v) else 0) ≤ N := by
  have : ∀ u ∈ range N, (∑ v ∈ range N, if p u v then ∑ a ∈ range A, x (varId N a u v) else 0) ≤ 1 := by
    intro u hu
    have hu := Finset.mem_range.1 hu
    calc (∑ v ∈ range N, if p u v then ∑ a ∈ range A, x (varId N a u v) else 0)
        ≤ ∑ v ∈ range N, if nx u = v then (1 : ℚ) else 0 := by
          apply Finset.sum_le_sum
          intro v hv
          rw [ht.agents_eq hu (Finset.mem_range.1 hv)]
          split <;> split <;> norm_num
      _ = 1 := by simp [ht.nxLt u hu]
  calc _ ≤ ∑ u ∈ range N, (1 : ℚ) := Finset.sum_le_sum this
    _ = N := by simp

theorem tour_sum_eq (ht : TourPoint N A x own nx pv) (p : Nat → Nat → Prop) [∀ u v, Decidable (p u v)] :
    (∑ u ∈ range N, ∑ v ∈ range N, if p u v then ∑ a ∈ range A, x (varId N a u v) else 0) =
      ∑ u ∈ range N, if p u (nx u) then 1 else 0 := by
  refine Finset.sum_congr rfl fun u hu => ?_
  have hu := Finset.mem_range.1 hu
  rw [Finset.sum_eq_single (nx u)]
  · rw [ht.agents_eq hu (ht.nxLt u hu)]; simp
  · intro v hv hne
    have e0 := ht.agents_eq hu (Finset.mem_range.1 hv)
    rw [if_neg (fun h => hne h.symm)] at e0
    rw [e0]; simp
  · intro h; exact absurd (Finset.mem_range.2 (ht.nxLt u hu)) h

end

end Mtsp
