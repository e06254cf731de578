import Verif.Model.LP
import Verif.Proof.Linear
import Verif.Proof.Tour
import Mathlib.Algebra.BigOperators.Group.Finset.Basic
import Mathlib.Algebra.BigOperators.Group.Finset.Piecewise
import Mathlib.Algebra.BigOperators.Ring.Finset
import Mathlib.Algebra.Order.BigOperators.Group.Finset
import Mathlib.Tactic.Ring
import Mathlib.Tactic.Linarith
import Mathlib.Tactic.NormNum

/-! What the rows of the LP say. -/

namespace Mtsp
open Finset

theorem eval_foldl_addVar (x : Nat → ℚ) (ids : List Nat) (c : LinComp) :
    (ids.foldl (fun c i => c.addAssign (.ofVar i)) c).eval x = c.eval x + (ids.map x).sum := by
  induction ids generalizing c with
  | nil => simp
  | cons i ids ih => simp [ih, add_assoc]

@[simp] theorem eval_sumVars (x : Nat → ℚ) (ids : List Nat) : (sumVars ids).eval x = (ids.map x).sum := by
  unfold sumVars; rw [eval_foldl_addVar]; simp

theorem list_sum_range (n : Nat) (f : Nat → ℚ) : ((List.range n).map f).sum = ∑ i ∈ range n, f i := by
  induction n with
  | zero => simp
  | succ n ih => rw [List.range_succ, List.map_append, List.sum_append, ih, Finset.sum_range_succ]; simp

theorem list_sum_flatMap {α : Type} (l : List α) (g : α → List ℚ) : (l.flatMap g).sum = (l.map fun a => (g a).sum).sum := by
  induction l with
  | nil => simp
  | cons a l ih => simp [ih]

/-- outgoing value of agent `a` at `u` -/
def outA (N : Nat) (x : Nat → ℚ) (a u : Nat) : ℚ := ∑ v ∈ range N, x (varId N a u v)
/-- incoming value of agent `a` at `v` -/
def inA (N : Nat) (x : Nat → ℚ) (a v : Nat) : ℚ := ∑ u ∈ range N, x (varId N a u v)

theorem evOut (N : Nat) (x : Nat → ℚ) (a u : Nat) :
    (sumVars ((List.range N).map fun m => varId N a u m)).eval x = outA N x a u := by
  rw [eval_sumVars, List.map_map, outA, ← list_sum_range]; rfl

theorem evIn (N : Nat) (x : Nat → ℚ) (a v : Nat) :
    (sumVars ((List.range N).map fun m => varId N a m v)).eval x = inA N x a v := by
  rw [eval_sumVars, List.map_map, inA, ← list_sum_range]; rfl

theorem evIdsOut (A N : Nat) (x : Nat → ℚ) (u : Nat) : (sumVars (idsOut A N u)).eval x = ∑ a ∈ range A, outA N x a u := by
  rw [eval_sumVars, idsOut, List.map_flatMap, list_sum_flatMap, list_sum_range]
  refine Finset.sum_congr rfl fun a _ => ?_
  rw [List.map_map, outA, ← list_sum_range]; rfl

theorem evIdsIn (A N : Nat) (x : Nat → ℚ) (v : Nat) : (sumVars (idsIn A N v)).eval x = ∑ a ∈ range A, inA N x a v := by
  rw [eval_sumVars, idsIn, List.map_flatMap, list_sum_flatMap, list_sum_range]
  refine Finset.sum_congr rfl fun a _ => ?_
  rw [List.map_map, inA, ← list_sum_range]; rfl

theorem evAgents (A N : Nat) (x : Nat → ℚ) (u v : Nat) :
    (sumVars ((List.range A).map fun a => varId N a u v)).eval x = ∑ a ∈ range A, x (varId N a u v) := by
  rw [eval_sumVars, List.map_map, ← list_sum_range]; rfl

theorem evCycle (A N : Nat) (x : Nat → ℚ) (u v : Nat) :
    (sumVars ((List.range A).flatMap fun a => [varId N a u v, varId N a v u])).eval x =
      ∑ a ∈ range A, (x (varId N a u v) + x (varId N a v u)) := by
  rw [eval_sumVars, List.map_flatMap, list_sum_flatMap, list_sum_range]
  simp

/-- the rows of the initial LP, read as equations -/
structure LPRows (N : Nat) (starts ends : List Nat) (arcs : List (Nat × Nat)) (x : Nat → ℚ) : Prop where
  diag : ∀ a < starts.length, ∀ n < N, x (varId N a n n) = 0
  degIn : ∀ n < N, ∑ a ∈ range starts.length, inA N x a n = 1
  degOut : ∀ n < N, ∑ a ∈ range starts.length, outA N x a n = 1
  flow : ∀ n < N, n ∉ starts → ∀ a < starts.length, inA N x a n = outA N x a n
  start : ∀ a < starts.length, outA N x a (starts.getD a 0) = 1
  fin : ∀ a < starts.length, inA N x a (ends.getD a 0) = 1
  art : ∀ a < starts.length, x (varId N a (ends.getD a 0) (starts.getD ((a + 1) % starts.length) 0)) = 1
  rev : ∀ u v, (u, v) ∈ arcs → (starts.length > 1 ∨ u ≠ starts.getD 0 0 ∨ v ≠ ends.getD 0 0) →
    ∑ a ∈ range starts.length, x (varId N a v u) = 0
  same : ∀ u v, (u, v) ∈ arcs → starts.length > 1 → ∀ a < starts.length, outA N x a u = inA N x a v
  startTo : ∀ u v, (u, v) ∈ arcs → ∀ s ∈ starts, s ≠ u → ∑ a ∈ range starts.length, x (varId N a s v) = 0
  toEnd : ∀ u v, (u, v) ∈ arcs → ∀ e ∈ ends, e ≠ v → ∑ a ∈ range starts.length, x (varId N a u e) = 0
  cyc : ∀ u v, u < v → v < N → (LinCon.le (sumVars ((List.range starts.length).flatMap fun a => [varId N a u v, varId N a v u])) (.ofConst 1)).Sat x

theorem rows_iff (N : Nat) (starts ends : List Nat) (arcs : List (Nat × Nat)) (x : Nat → ℚ) :
    (∀ c ∈ buildConstraints N starts ends arcs, c.Sat x) ↔ LPRows N starts ends arcs x := by
  unfold buildConstraints
  simp only [List.forall_mem_append]
  constructor
  · rintro ⟨⟨⟨⟨h1, h2⟩, h3⟩, h4⟩, h5⟩
    have d : ∀ n < N, ∀ c ∈ (LinCon.eq (sumVars (idsIn starts.length N n)) (.ofConst 1) ::
        LinCon.eq (sumVars (idsOut starts.length N n)) (.ofConst 1) ::
        (if n ∈ starts then []
          else (List.range starts.length).map fun a =>
            LinCon.eq (sumVars ((List.range N).map fun m => varId N a m n)) (sumVars ((List.range N).map fun m => varId N a n m)))),
        c.Sat x := by
      intro n hn c hc
      exact h2 c (List.mem_flatMap.2 ⟨n, List.mem_range.2 hn, hc⟩)
    have e : ∀ a < starts.length, ∀ c ∈ [LinCon.eq (sumVars ((List.range N).map fun v => varId N a (starts.getD a 0) v)) (.ofConst 1),
        .eq (sumVars ((List.range N).map fun u => varId N a u (ends.getD a 0))) (.ofConst 1),
        .eq (.ofVar (varId N a (ends.getD a 0) (starts.getD ((a + 1) % starts.length) 0))) (.ofConst 1)], c.Sat x := by
      intro a ha c hc
      exact h3 c (List.mem_flatMap.2 ⟨a, List.mem_range.2 ha, hc⟩)
    have f : ∀ u v, (u, v) ∈ arcs → ∀ c ∈ conDep starts.length N starts ends u v, c.Sat x := by
      intro u v huv c hc
      exact h4 c (List.mem_flatMap.2 ⟨(u, v), huv, hc⟩)
    simp only [conDep, List.forall_mem_append] at f
    refine ⟨?_, ?_, ?_, ?_, ?_, ?_, ?_, ?_, ?_, ?_, ?_, ?_⟩
    · intro a ha n hn
      have := h1 _ (List.mem_flatMap.2 ⟨a, List.mem_range.2 ha, List.mem_map.2 ⟨n, List.mem_range.2 hn, rfl⟩⟩)
      simpa [LinCon.sat_eq] using this
    · intro n hn
      have := d n hn _ (List.mem_cons_self)
      rw [LinCon.sat_eq, evIdsIn] at this; simpa using this
    · intro n hn
      have := d n hn _ (List.mem_cons_of_mem _ List.mem_cons_self)
      rw [LinCon.sat_eq, evIdsOut] at this; simpa using this
    · intro n hn hs a ha
      have := d n hn (LinCon.eq (sumVars ((List.range N).map fun m => varId N a m n)) (sumVars ((List.range N).map fun m => varId N a n m)))
        (List.mem_cons_of_mem _ (List.mem_cons_of_mem _ (by rw [if_neg hs]; exact List.mem_map.2 ⟨a, List.mem_range.2 ha, rfl⟩)))
      rw [LinCon.sat_eq, evIn, evOut] at this; exact this
    · intro a ha
      have := e a ha _ (List.mem_cons_self)
      rw [LinCon.sat_eq, evOut] at this; simpa using this
    · intro a ha
      have := e a ha _ (List.mem_cons_of_mem _ List.mem_cons_self)
      rw [LinCon.sat_eq, evIn] at this; simpa using this
    · intro a ha
      have := e a ha _ (List.mem_cons_of_mem _ (List.mem_cons_of_mem _ List.mem_cons_self))
      rw [LinCon.sat_eq] at this; simpa using this
    · intro u v huv hc
      have := (f u v huv).1.1.1
      rw [if_pos hc] at this
      have := this _ (List.mem_singleton.2 rfl)
      rw [LinCon.sat_eq, evAgents] at this; simpa using this
    · intro u v huv hA a ha
      have := (f u v huv).1.1.2
      rw [if_pos hA] at this
      have := this _ (List.mem_map.2 ⟨a, List.mem_range.2 ha, rfl⟩)
      rw [LinCon.sat_eq, evIn, evOut] at this; exact this
    · intro u v huv s hs hne
      have := (f u v huv).1.2 _ (List.mem_map.2 ⟨s, List.mem_filter.2 ⟨hs, by simpa using hne⟩, rfl⟩)
      rw [LinCon.sat_eq, evAgents] at this; simpa using this
    · intro u v huv s hs hne
      have := (f u v huv).2 _ (List.mem_map.2 ⟨s, List.mem_filter.2 ⟨hs, by simpa using hne⟩, rfl⟩)
      rw [LinCon.sat_eq, evAgents] at this; simpa using this
    · intro u v huv hv
      exact h5 _ (List.mem_flatMap.2 ⟨u, List.mem_range.2 (by omega), List.mem_map.2 ⟨v, by rw [List.mem_range'_1]; omega, rfl⟩⟩)
  · intro r
    refine ⟨⟨⟨⟨?_, ?_⟩, ?_⟩, ?_⟩, ?_⟩
    · intro c hc
      obtain ⟨a, ha, hc⟩ := List.mem_flatMap.1 hc
      obtain ⟨n, hn, rfl⟩ := List.mem_map.1 hc
      rw [LinCon.sat_eq]; simpa using r.diag a (List.mem_range.1 ha) n (List.mem_range.1 hn)
    · intro c hc
      obtain ⟨n, hn, hc⟩ := List.mem_flatMap.1 hc
      have hn := List.mem_range.1 hn
      rcases List.mem_cons.1 hc with rfl | hc
      · rw [LinCon.sat_eq, evIdsIn]; simpa using r.degIn n hn
      rcases List.mem_cons.1 hc with rfl | hc
      · rw [LinCon.sat_eq, evIdsOut]; simpa using r.degOut n hn
      split at hc
      · simp at hc
      · rename_i hs
        obtain ⟨a, ha, rfl⟩ := List.mem_map.1 hc
        rw [LinCon.sat_eq, evIn, evOut]; exact r.flow n hn hs a (List.mem_range.1 ha)
    · intro c hc
      obtain ⟨a, ha, hc⟩ := List.mem_flatMap.1 hc
      have ha := List.mem_range.1 ha
      simp only [List.mem_cons, List.not_mem_nil, or_false] at hc
      rcases hc with rfl | rfl | rfl
      · rw [LinCon.sat_eq, evOut]; simpa using r.start a ha
      · rw [LinCon.sat_eq, evIn]; simpa using r.fin a ha
      · rw [LinCon.sat_eq]; simpa using r.art a ha
    · intro c hc
      obtain ⟨⟨u, v⟩, huv, hc⟩ := List.mem_flatMap.1 hc
      simp only [conDep, List.mem_append] at hc
      rcases hc with ((hc | hc) | hc) | hc
      · split at hc
        · rename_i hq
          rw [List.mem_singleton.1 hc, LinCon.sat_eq, evAgents]; simpa using r.rev u v huv hq
        · simp at hc
      · split at hc
        · rename_i hq
          obtain ⟨a, ha, rfl⟩ := List.mem_map.1 hc
          rw [LinCon.sat_eq, evIn, evOut]; exact r.same u v huv hq a (List.mem_range.1 ha)
        · simp at hc
      · obtain ⟨s, hs, rfl⟩ := List.mem_map.1 hc
        obtain ⟨hs, hne⟩ := List.mem_filter.1 hs
        rw [LinCon.sat_eq, evAgents]; simpa using r.startTo u v huv s hs (by simpa using hne)
      · obtain ⟨s, hs, rfl⟩ := List.mem_map.1 hc
        obtain ⟨hs, hne⟩ := List.mem_filter.1 hs
        rw [LinCon.sat_eq, evAgents]; simpa using r.toEnd u v huv s hs (by simpa using hne)
    · intro c hc
      obtain ⟨u, hu, hc⟩ := List.mem_flatMap.1 hc
      obtain ⟨v, hv, rfl⟩ := List.mem_map.1 hc
      rw [List.mem_range'_1] at hv
      exact r.cyc u v (by omega) (by omega)

theorem sumVars_const (ids : List Nat) : (sumVars ids).const = 0 := by
  unfold sumVars
  suffices h : ∀ c : LinComp, (ids.foldl (fun c i => c.addAssign (.ofVar i)) c).const = c.const by rw [h]; rfl
  induction ids with
  | nil => intro c; rfl
  | cons i ids ih => intro c; rw [List.foldl_cons, ih]; simp [LinComp.addAssign, LinComp.ofVar]

/-- `Σ … <= c` for a nonnegative sum -/
theorem sat_le_const (x : Nat → ℚ) (ids : List Nat) (c : ℚ) (h0 : 0 ≤ (ids.map x).sum) (h1 : (ids.map x).sum ≤ c) :
    (LinCon.le (sumVars ids) (.ofConst c)).Sat x := by
  rw [LinCon.sat_le_iff]
  refine ⟨?_, by simpa using h1⟩
  rw [LinCon.value_le]
  have hc : (LinComp.sub (sumVars ids) (.ofConst c)).const = -c := by
    unfold LinComp.sub LinComp.add LinComp.addAssign LinComp.neg LinComp.ofConst
    split <;> simp [sumVars_const]
  rw [hc]; simp
  have : (0 : ℚ) ≤ dblMax := by have := one_lt_dblMax; linarith
  linarith

/-! ### the point of a tour -/

/-- the point in terms of owner, successor and predecessor functions -/
structure TourPoint (N A : Nat) (x : Nat → ℚ) (own nx pv : Nat → Nat) : Prop where
  ownLt : ∀ u < N, own u < A
  nxLt : ∀ u < N, nx u < N
  pvLt : ∀ u < N, pv u < N
  nxpv : ∀ u < N, nx (pv u) = u
  pvnx : ∀ u < N, pv (nx u) = u
  val : ∀ a < A, ∀ u < N, ∀ v < N, x (varId N a u v) = if own u = a ∧ nx u = v then 1 else 0

namespace TourPoint
variable {N A : Nat} {x : Nat → ℚ} {own nx pv : Nat → Nat}

theorem out_eq (h : TourPoint N A x own nx pv) {a u : Nat} (ha : a < A) (hu : u < N) : outA N x a u = if own u = a then 1 else 0 := by
  unfold outA
  rw [Finset.sum_congr rfl (fun v hv => h.val a ha u hu v (Finset.mem_range.1 hv))]
  by_cases ho : own u = a
  · simp [ho, h.nxLt u hu]
  · simp [ho]

theorem in_eq (h : TourPoint N A x own nx pv) {a v : Nat} (ha : a < A) (hv : v < N) : inA N x a v = if own (pv v) = a then 1 else 0 := by
  unfold inA
  rw [Finset.sum_congr rfl (fun u hu => h.val a ha u (Finset.mem_range.1 hu) v hv)]
  rw [Finset.sum_eq_single (pv v)]
  · simp [h.nxpv v hv]
  · intro u hu hne
    rw [if_neg]
    rintro ⟨_, rfl⟩
    exact hne (h.pvnx u (Finset.mem_range.1 hu)).symm
  · intro hp; exact absurd (Finset.mem_range.2 (h.pvLt v hv)) hp

theorem agents_eq (h : TourPoint N A x own nx pv) {u v : Nat} (hu : u < N) (hv : v < N) :
    ∑ a ∈ range A, x (varId N a u v) = if nx u = v then 1 else 0 := by
  rw [Finset.sum_congr rfl (fun a ha => h.val a (Finset.mem_range.1 ha) u hu v hv)]
  by_cases ho : nx u = v
  · simp [ho, h.ownLt u hu]
  · simp [ho]

end TourPoint

section
variable {N : Nat} {starts ends : List Nat} {P : List (List Nat)} {x : Nat → ℚ}

theorem IsPoint.tour (hp : IsPoint N starts ends P x) (h : IsCover N starts ends P) (hl : starts.length = ends.length) :
    ∃ own pv, TourPoint N starts.length x own (nxt P.flatten) pv ∧
      (∀ u < N, ∀ a, own u = a ↔ ∃ p, P[a]? = some p ∧ u ∈ p) := by
  have h1 : ∀ u : Nat, ∃ a : Nat, u < N → ∃ p, P[a]? = some p ∧ u ∈ p := by
    intro u
    by_cases hu : u < N
    · obtain ⟨a, p, hp⟩ := h.agent_exists hu; exact ⟨a, fun _ => ⟨p, hp⟩⟩
    · exact ⟨0, fun h => absurd h hu⟩
  have h2 : ∀ v : Nat, ∃ u : Nat, v < N → u < N ∧ nxt P.flatten u = v := by
    intro v
    by_cases hv : v < N
    · obtain ⟨u, hu, e⟩ := nxt_surj h.flatten_nodup ((h.mem_flatten v).2 hv)
      exact ⟨u, fun _ => ⟨(h.mem_flatten u).1 hu, e⟩⟩
    · exact ⟨0, fun h => absurd h hv⟩
  choose own hown using h1
  choose pv hpv using h2
  have hiff : ∀ u < N, ∀ a, own u = a ↔ ∃ p, P[a]? = some p ∧ u ∈ p := by
    intro u hu a
    constructor
    · rintro rfl; exact hown u hu
    · rintro ⟨p, hp, hm⟩
      obtain ⟨q, hq, hm'⟩ := hown u hu
      exact h.agent_unique hq hp hm' hm
  have hnl : ∀ u < N, nxt P.flatten u < N := fun u hu =>
    (h.mem_flatten _).1 (nxt_mem (List.ne_nil_of_mem ((h.mem_flatten u).2 hu)))
  refine ⟨own, pv, ⟨?_, hnl, fun v hv => (hpv v hv).1, fun v hv => (hpv v hv).2, ?_, ?_⟩, hiff⟩
  · intro u hu
    obtain ⟨p, hp, _⟩ := hown u hu
    rw [← h.len]; exact (List.getElem?_eq_some_iff.1 hp).1
  · intro u hu
    exact nxt_inj h.flatten_nodup ((h.mem_flatten _).2 (hpv _ (hnl u hu)).1) ((h.mem_flatten _).2 hu) (hpv _ (hnl u hu)).2
  · intro a ha u hu v hv
    obtain ⟨h1, h2⟩ := hp a u v ha hu hv
    rw [uses_iff h hl, ← hiff u hu a] at h1 h2
    by_cases hc : own u = a ∧ nxt P.flatten u = v
    · rw [if_pos hc]; exact h1 hc
    · rw [if_neg hc]; exact h2 hc

end

end Mtsp
