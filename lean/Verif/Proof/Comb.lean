import Verif.Props.Integral
import Mathlib.Algebra.BigOperators.Group.List.Basic
import Mathlib.Algebra.Order.BigOperators.Group.List

/-! Comb constraints: parity. -/

namespace Mtsp
open Finset

/-! ### xor and parity -/

theorem xor_decide_odd (a b : Nat) : xor (decide (a % 2 = 1)) (decide (b % 2 = 1)) = decide ((a + b) % 2 = 1) := by
  rcases Nat.mod_two_eq_zero_or_one a with h | h <;> rcases Nat.mod_two_eq_zero_or_one b with h' | h' <;>
    simp [Nat.add_mod, h, h']

theorem foldl_xor_odd {α : Type} (d : α → Nat) (l : List α) (k : Nat) :
    l.foldl (fun b v => xor b (decide (d v % 2 = 1))) (decide (k % 2 = 1)) = decide ((k + (l.map d).sum) % 2 = 1) := by
  induction l generalizing k with
  | nil => simp
  | cons v l ih => rw [List.foldl_cons, xor_decide_odd, ih, List.map_cons, List.sum_cons, Nat.add_assoc]

theorem foldl_xor_bool {α : Type} (f : α → Bool) (l : List α) (k : Nat) :
    l.foldl (fun b v => xor b (f v)) (decide (k % 2 = 1)) = decide ((k + (l.map fun v => if f v = true then 1 else 0).sum) % 2 = 1) := by
  rw [← foldl_xor_odd (fun v => if f v = true then 1 else 0) l k]
  congr 1
  funext b v
  cases f v <;> simp

/-! ### heavy edges -/

/-- edge `{u, v}` is heavy -/
def heavy (tab : List ℚ) (u v : Nat) : Bool := decide (tableWeight tab (max u v) (min u v) > 1 / 2)

theorem heavy_comm (tab : List ℚ) (u v : Nat) : heavy tab u v = heavy tab v u := by
  unfold heavy; rw [max_comm, min_comm]

/-- number of heavy edges at `u` -/
def hdeg (tab : List ℚ) (N u : Nat) : Nat := ∑ v ∈ range N, if v ≠ u ∧ heavy tab u v = true then 1 else 0

theorem nat_list_sum_range (n : Nat) (f : Nat → Nat) : ((List.range n).map f).sum = ∑ i ∈ range n, f i := by
  induction n with
  | zero => simp
  | succ n ih => rw [List.range_succ, List.map_append, List.sum_append, ih, Finset.sum_range_succ]; simp

theorem oddAt_eq (tab : List ℚ) {N u : Nat} (hu : u < N) : oddAt tab N u = decide (hdeg tab N u % 2 = 1) := by
  unfold oddAt
  have h1 := foldl_xor_bool (fun v => decide (tableWeight tab u v > 1 / 2)) (List.range u) 0
  have h0 : decide (0 % 2 = 1) = false := rfl
  rw [h0] at h1
  simp only
  rw [h1, foldl_xor_bool (fun v => decide (tableWeight tab v u > 1 / 2))]
  congr 3
  have hr : List.range N = List.range u ++ u :: List.range' (u + 1) (N - (u + 1)) := by
    have h1 : List.range' 0 u ++ List.range' (0 + u) (N - u) = List.range' 0 (u + (N - u)) := List.range'_append_1
    rw [List.range_eq_range', List.range_eq_range']
    conv_lhs => rw [show N = u + (N - u) by omega, ← h1]
    congr 1
    conv_lhs => rw [show N - u = N - (u + 1) + 1 by omega, List.range'_succ]
    simp
  unfold hdeg
  rw [← nat_list_sum_range, hr, List.map_append, List.sum_append, List.map_cons, List.sum_cons]
  simp only [ne_eq, not_true_eq_false, false_and, if_false, Nat.zero_add]
  congr 1
  · congr 1
    apply List.map_congr_left
    intro v hv
    have hv := List.mem_range.1 hv
    have : v ≠ u := by omega
    simp [this, heavy, Nat.max_eq_left hv.le, Nat.min_eq_right hv.le]
  · congr 1
    apply List.map_congr_left
    intro v hv
    rw [List.mem_range'_1] at hv
    have : v ≠ u := by omega
    have hle : u ≤ v := by omega
    simp [this, heavy, Nat.max_eq_right hle, Nat.min_eq_left hle]

/-- handshake: inside a set every edge is counted twice -/
theorem even_inside (g : Nat → Nat → Nat) (hs : ∀ u v, g u v = g v u) (hd : ∀ u, g u u = 0) (S : Finset Nat) :
    (∑ u ∈ S, ∑ v ∈ S, g u v) % 2 = 0 := by
  classical
  induction S using Finset.induction_on with
  | empty => simp
  | insert a S ha ih =>
    rw [Finset.sum_insert ha, Finset.sum_insert ha, hd]
    have : ∀ u ∈ S, ∑ v ∈ insert a S, g u v = g a u + ∑ v ∈ S, g u v := by
      intro u _
      rw [Finset.sum_insert ha, hs u a]
    rw [Finset.sum_congr rfl this, Finset.sum_add_distrib]
    omega

section
variable {N : Nat} {U V : List Nat}

theorem cutPairs_sum (hU : U.Nodup) (hV : V.Nodup) (f : Nat × Nat → Nat) :
    ((cutPairs U V).map f).sum = ∑ u ∈ U.toFinset, ∑ v ∈ V.toFinset, f (max u v, min u v) := by
  unfold cutPairs
  rw [List.sum_toFinset _ hU, List.map_flatMap]
  have : ∀ (l : List Nat) (g : Nat → List Nat), (l.flatMap g).sum = (l.map fun a => (g a).sum).sum := by
    intro l g
    induction l with
    | nil => simp
    | cons a l ih => simp [ih]
  rw [this]
  congr 1
  apply List.map_congr_left
  intro u _
  rw [List.sum_toFinset _ hV, List.map_map]; rfl

theorem sides (hp : (U ++ V).Perm (List.range N)) :
    U.Nodup ∧ V.Nodup ∧ Disjoint U.toFinset V.toFinset ∧ U.toFinset ∪ V.toFinset = range N := by
  have hn : (U ++ V).Nodup := hp.nodup_iff.2 List.nodup_range
  obtain ⟨h1, h2, h3⟩ := List.nodup_append.1 hn
  refine ⟨h1, h2, ?_, ?_⟩
  · rw [Finset.disjoint_left]
    intro z hz hz'
    exact h3 z (List.mem_toFinset.1 hz) z (List.mem_toFinset.1 hz') rfl
  · ext z
    rw [Finset.mem_union, List.mem_toFinset, List.mem_toFinset, ← List.mem_append, hp.mem_iff, List.mem_range, Finset.mem_range]

/-- the flag of the code is the parity of the number of heavy edges in the cut -/
theorem odd_flag (tab : List ℚ) (hp : (U ++ V).Perm (List.range N)) :
    U.foldl (fun b v => xor b (oddAt tab N v)) false =
      decide (((cutPairs U V).map fun e => if tableWeight tab e.1 e.2 > 1 / 2 then 1 else 0).sum % 2 = 1) := by
  classical
  obtain ⟨hU, hV, hd, hun⟩ := sides hp
  have hlt : ∀ u ∈ U, u < N := fun u hu => List.mem_range.1 (hp.mem_iff.1 (by simp [hu]))
  have h1 : U.foldl (fun b v => xor b (oddAt tab N v)) false =
      U.foldl (fun b v => xor b (decide (hdeg tab N v % 2 = 1))) false := by
    have : ∀ (l : List Nat) (b : Bool), (∀ u ∈ l, u < N) → l.foldl (fun b v => xor b (oddAt tab N v)) b =
        l.foldl (fun b v => xor b (decide (hdeg tab N v % 2 = 1))) b := by
      intro l
      induction l with
      | nil => simp
      | cons u l ih =>
        intro b h
        rw [List.foldl_cons, List.foldl_cons, oddAt_eq tab (h u (by simp)), ih _ fun v hv => h v (by simp [hv])]
    exact this U false hlt
  have h2 := foldl_xor_odd (hdeg tab N) U 0
  have h0 : decide (0 % 2 = 1) = false := rfl
  rw [h0] at h2
  rw [h1, h2]
  congr 1
  rw [Nat.zero_add, cutPairs_sum hU hV, ← List.sum_toFinset _ hU]
  have e1 : ∀ u ∈ U.toFinset, hdeg tab N u = (∑ v ∈ U.toFinset, if v ≠ u ∧ heavy tab u v = true then 1 else 0) +
      ∑ v ∈ V.toFinset, if tableWeight tab (max u v) (min u v) > 1 / 2 then 1 else 0 := by
    intro u hu
    unfold hdeg
    rw [← hun, Finset.sum_union hd]
    congr 1
    refine Finset.sum_congr rfl fun v hv => ?_
    have hne : v ≠ u := by rintro rfl; exact Finset.disjoint_left.1 hd hu hv
    simp only [heavy, ne_eq, hne, not_false_eq_true, true_and, decide_eq_true_eq]
  rw [Finset.sum_congr rfl e1, Finset.sum_add_distrib]
  have e2 := even_inside (fun u v => if v ≠ u ∧ heavy tab u v = true then 1 else 0)
    (by intro u v; simp only [heavy_comm tab u v, ne_eq, eq_comm]) (by simp) U.toFinset
  rw [Nat.add_mod, e2, Nat.zero_add, Nat.mod_mod]

/-- a closed tour crosses a cut an even number of times -/
theorem even_crossing {A : Nat} {x : Nat → ℚ} {own nx pv : Nat → Nat} (ht : TourPoint N A x own nx pv)
    (hp : (U ++ V).Perm (List.range N)) :
    ((cutPairs U V).map fun e => (if nx e.1 = e.2 then 1 else 0) + if nx e.2 = e.1 then 1 else 0).sum % 2 = 0 := by
  classical
  obtain ⟨hU, hV, hd, hun⟩ := sides hp
  have hlt : ∀ u ∈ U.toFinset, u < N := fun u hu => List.mem_range.1 (hp.mem_iff.1 (by simp [List.mem_toFinset.1 hu]))
  have hlt' : ∀ u ∈ V.toFinset, u < N := fun u hu => List.mem_range.1 (hp.mem_iff.1 (by simp [List.mem_toFinset.1 hu]))
  rw [cutPairs_sum hU hV]
  have e1 : ∀ u v : Nat, ((if nx (max u v) = min u v then 1 else 0) + if nx (min u v) = max u v then 1 else 0) =
      (if nx u = v then 1 else 0) + if nx v = u then 1 else 0 := by
    intro u v
    rcases le_total u v with h | h
    · rw [max_eq_right h, min_eq_left h, Nat.add_comm]
    · rw [max_eq_left h, min_eq_right h]
  simp only [e1, Finset.sum_add_distrib]
  rw [Finset.sum_comm (f := fun u v => if nx v = u then 1 else 0)]
  simp only [Finset.sum_ite_eq]
  -- out of U and out of V
  have e2 : (∑ u ∈ U.toFinset, if nx u ∈ V.toFinset then 1 else 0) + (∑ u ∈ U.toFinset, if nx u ∈ U.toFinset then 1 else 0) =
      #U.toFinset := by
    rw [← Finset.sum_add_distrib, Finset.card_eq_sum_ones]
    refine Finset.sum_congr rfl fun u hu => ?_
    have hm : nx u ∈ U.toFinset ∪ V.toFinset := by rw [hun]; exact Finset.mem_range.2 (ht.nxLt u (hlt u hu))
    by_cases h : nx u ∈ U.toFinset
    · simp [h, Finset.disjoint_left.1 hd h]
    · have := (Finset.mem_union.1 hm).resolve_left h
      simp [h, this]
  have e3 : (∑ u ∈ V.toFinset, if nx u ∈ U.toFinset then 1 else 0) + (∑ u ∈ U.toFinset, if nx u ∈ U.toFinset then 1 else 0) =
      #U.toFinset := by
    rw [Nat.add_comm, ← Finset.sum_union hd, hun, Finset.sum_boole, Nat.cast_id]
    apply Finset.card_bij (fun u _ => nx u)
    · intro u hu; exact (Finset.mem_filter.1 hu).2
    · intro u hu v hv e
      have hu := Finset.mem_range.1 (Finset.mem_filter.1 hu).1
      have hv := Finset.mem_range.1 (Finset.mem_filter.1 hv).1
      rw [← ht.pvnx u hu, ← ht.pvnx v hv, e]
    · intro u hu
      refine ⟨pv u, Finset.mem_filter.2 ⟨Finset.mem_range.2 (ht.pvLt u (hlt u hu)), ?_⟩, ht.nxpv u (hlt u hu)⟩
      rw [ht.nxpv u (hlt u hu)]; exact hu
  omega

end

/-! ### evaluating the constraint -/

theorem const_eval_zero (l : LinComp) : l.const = l.eval (fun _ => 0) := by
  rw [LinComp.eval_eq]
  have : LinComp.lin (fun _ => 0) l.coefs = 0 := by
    unfold LinComp.lin
    simp
  rw [this, add_zero]

/-- value of an edge -/
def edgeVal (A N : Nat) (x : Nat → ℚ) (e : Nat × Nat) : ℚ := ∑ a ∈ range A, (x (varId N a e.1 e.2) + x (varId N a e.2 e.1))

theorem eval_edgePart (A N : Nat) (x : Nat → ℚ) (u v : Nat) : (edgePart A N u v).eval x = edgeVal A N x (u, v) := by
  unfold edgePart edgeVal
  rw [← list_sum_range]
  have : ∀ (l : List Nat) (c : LinComp),
      (l.foldl (fun c a => (c.addAssign (.ofVar (varId N a u v))).addAssign (.ofVar (varId N a v u))) c).eval x =
        c.eval x + (l.map fun a => x (varId N a u v) + x (varId N a v u)).sum := by
    intro l
    induction l with
    | nil => simp
    | cons a l ih => intro c; rw [List.foldl_cons, ih]; simp [add_assoc]
  rw [this]; simp

theorem eval_comb (A N : Nat) (x : Nat → ℚ) (pairs : List (Nat × Nat)) (inF : Nat × Nat → Bool) :
    let s := pairs.foldl (fun (s : LinComp × LinComp) e =>
      if inF e then (s.1, s.2.addAssign ((edgePart A N e.1 e.2).sub (.ofConst 1)))
      else (s.1.addAssign (edgePart A N e.1 e.2), s.2)) (LinComp.ofConst 0, LinComp.ofConst 1)
    s.1.eval x - s.2.eval x + 1 = (pairs.map fun e => if inF e = true then 1 - edgeVal A N x e else edgeVal A N x e).sum := by
  suffices h : ∀ s0 : LinComp × LinComp,
      (pairs.foldl (fun (s : LinComp × LinComp) e =>
        if inF e then (s.1, s.2.addAssign ((edgePart A N e.1 e.2).sub (.ofConst 1)))
        else (s.1.addAssign (edgePart A N e.1 e.2), s.2)) s0).1.eval x -
      (pairs.foldl (fun (s : LinComp × LinComp) e =>
        if inF e then (s.1, s.2.addAssign ((edgePart A N e.1 e.2).sub (.ofConst 1)))
        else (s.1.addAssign (edgePart A N e.1 e.2), s.2)) s0).2.eval x =
      s0.1.eval x - s0.2.eval x + (pairs.map fun e => if inF e = true then 1 - edgeVal A N x e else edgeVal A N x e).sum by
    simp only; rw [h]; simp
  induction pairs with
  | nil => intro s0; simp
  | cons e l ih =>
    intro s0
    rw [List.foldl_cons, ih, List.map_cons, List.sum_cons]
    by_cases hf : inF e = true
    · simp only [hf, if_true, LinComp.eval_addAssign, LinComp.eval_sub, LinComp.eval_ofConst, eval_edgePart]; ring
    · simp only [hf, if_false, LinComp.eval_addAssign, eval_edgePart, Bool.false_eq_true]; ring

/-- when a point satisfies a comb constraint -/
theorem sat_comb (A N : Nat) (x : Nat → ℚ) (pairs : List (Nat × Nat)) (inF : Nat × Nat → Bool) :
    (combConstraint A N pairs inF).Sat x ↔
      1 ≤ (pairs.map fun e => if inF e = true then 1 - edgeVal A N x e else edgeVal A N x e).sum ∧
      (pairs.map fun e => if inF e = true then - edgeVal A N x e else edgeVal A N x e).sum ≤ dblMax := by
  unfold combConstraint
  simp only
  have h1 := eval_comb A N x pairs inF
  have h2 := eval_comb A N (fun _ => 0) pairs inF
  simp only at h1 h2
  rw [LinCon.sat_ge_iff, LinCon.value_ge, const_eval_zero, LinComp.eval_sub]
  generalize List.foldl _ _ pairs = s at *
  have h3 : (pairs.map fun e => if inF e = true then - edgeVal A N x e else edgeVal A N x e).sum =
      (pairs.map fun e => if inF e = true then 1 - edgeVal A N x e else edgeVal A N x e).sum -
      (pairs.map fun e => if inF e = true then 1 - edgeVal A N (fun _ => 0) e else edgeVal A N (fun _ => 0) e).sum := by
    have hz : ∀ e, edgeVal A N (fun _ => 0) e = 0 := by intro e; simp [edgeVal]
    simp only [hz]
    clear h1 h2
    induction pairs with
    | nil => simp
    | cons e l ih =>
      simp only [List.map_cons, List.sum_cons, ih]
      split <;> ring
  rw [h3, ← h1, ← h2]
  constructor
  · rintro ⟨a, b⟩; constructor <;> linarith
  · rintro ⟨a, b⟩; constructor <;> linarith

section
variable {N A : Nat} {x : Nat → ℚ} {own nx pv : Nat → Nat} {U V : List Nat}

theorem edgeVal_tour (ht : TourPoint N A x own nx pv) {u v : Nat} (hu : u < N) (hv : v < N) :
    edgeVal A N x (u, v) = (((if nx u = v then 1 else 0) + if nx v = u then 1 else 0 : Nat) : ℚ) := by
  unfold edgeVal
  rw [Finset.sum_add_distrib]
  simp only
  rw [ht.agents_eq hu hv, ht.agents_eq hv hu]
  push_cast
  rfl

theorem sum_nat_cast (l : List (Nat × Nat)) (f : Nat × Nat → Nat) : ((l.map f).sum : ℚ) = (l.map fun e => (f e : ℚ)).sum := by
  induction l with
  | nil => simp
  | cons e l ih => simp [ih]

/-- a tour satisfies every comb constraint with an odd number of teeth -/
theorem comb_valid (ht : TourPoint N A x own nx pv) (hN : N ≤ 2147483647)
    (h2c : ∀ u < N, nx (nx u) ≠ u) (hp : (U ++ V).Perm (List.range N)) (inF : Nat × Nat → Bool)
    (hodd : ((cutPairs U V).map fun e => if inF e = true then 1 else 0).sum % 2 = 1) :
    (combConstraint A N (cutPairs U V) inF).Sat x := by
  classical
  obtain ⟨hU, hV, hd, hun⟩ := sides hp
  have hmem : ∀ e ∈ cutPairs U V, e.1 < N ∧ e.2 < N := by
    intro e he
    obtain ⟨u, hu, he⟩ := List.mem_flatMap.1 he
    obtain ⟨v, hv, rfl⟩ := List.mem_map.1 he
    have hu : u < N := List.mem_range.1 (hp.mem_iff.1 (by simp [hu]))
    have hv : v < N := List.mem_range.1 (hp.mem_iff.1 (by simp [hv]))
    exact ⟨max_lt hu hv, lt_of_le_of_lt (min_le_left _ _) hu⟩
  let cr : Nat × Nat → Nat := fun e => (if nx e.1 = e.2 then 1 else 0) + if nx e.2 = e.1 then 1 else 0
  have hval : ∀ e ∈ cutPairs U V, edgeVal A N x e = (cr e : ℚ) := fun e he => edgeVal_tour ht (hmem e he).1 (hmem e he).2
  have hcr1 : ∀ e ∈ cutPairs U V, cr e ≤ 1 := by
    intro e he
    have := h2c e.1 (hmem e he).1
    simp only [cr]
    split <;> split <;> simp_all
  have hev := even_crossing ht hp
  rw [sat_comb]
  constructor
  · have hs : ((cutPairs U V).map fun e => if inF e = true then 1 - edgeVal A N x e else edgeVal A N x e) =
        (cutPairs U V).map fun e => (((if inF e = true then 1 - cr e else cr e : Nat)) : ℚ) := by
      apply List.map_congr_left
      intro e he
      rw [hval e he]
      split
      · rw [Nat.cast_sub (hcr1 e he)]; simp
      · rfl
    rw [hs, ← sum_nat_cast]
    have hpos : 1 ≤ ((cutPairs U V).map fun e => if inF e = true then 1 - cr e else cr e).sum := by
      by_contra h0
      have h0 : ((cutPairs U V).map fun e => if inF e = true then 1 - cr e else cr e).sum = 0 := by omega
      rw [List.sum_eq_zero_iff] at h0
      have heq : ((cutPairs U V).map fun e => if inF e = true then 1 else 0) = (cutPairs U V).map cr := by
        apply List.map_congr_left
        intro e he
        have := h0 _ (List.mem_map.2 ⟨e, he, rfl⟩)
        have h1 := hcr1 e he
        by_cases hf : inF e = true
        · rw [if_pos hf] at this ⊢; omega
        · rw [if_neg hf] at this ⊢; omega
      rw [heq] at hodd
      have : ((cutPairs U V).map cr).sum % 2 = 0 := hev
      omega
    exact_mod_cast hpos
  · have hle : ((cutPairs U V).map fun e => if inF e = true then - edgeVal A N x e else edgeVal A N x e).sum ≤
        ((cutPairs U V).map fun e => (cr e : ℚ)).sum := by
      apply List.sum_le_sum
      intro e he
      rw [hval e he]
      split
      · have : (0 : ℚ) ≤ cr e := Nat.cast_nonneg _
        linarith
      · exact le_refl _
    refine hle.trans ?_
    rw [← sum_nat_cast, cutPairs_sum hU hV]
    refine le_trans ?_ (nat_le_dblMax hN)
    have e1 : ∀ u v : Nat, cr (max u v, min u v) = (if nx u = v then 1 else 0) + if nx v = u then 1 else 0 := by
      intro u v
      simp only [cr]
      rcases le_total u v with h | h
      · rw [max_eq_right h, min_eq_left h, Nat.add_comm]
      · rw [max_eq_left h, min_eq_right h]
    have hb : ∑ u ∈ U.toFinset, ∑ v ∈ V.toFinset, cr (max u v, min u v) ≤ N := by
      simp only [e1, Finset.sum_add_distrib]
      rw [Finset.sum_comm (f := fun u v => if nx v = u then 1 else 0)]
      simp only [Finset.sum_ite_eq]
      calc _ ≤ (∑ u ∈ U.toFinset, 1) + ∑ v ∈ V.toFinset, 1 := by
            apply Nat.add_le_add <;> (apply Finset.sum_le_sum; intro u _; split <;> omega)
        _ = ∑ u ∈ U.toFinset ∪ V.toFinset, 1 := (Finset.sum_union hd).symm
        _ = N := by rw [hun]; simp
    exact_mod_cast hb

end

end Mtsp
