import Verif.Proof.LPSat
import Verif.Proof.Cost

/-! The LP objective at the point of a solution, and reading the paths back. -/

namespace Mtsp
open Finset

theorem eval_addAgentCost (N : Nat) (w : Weights) (a : Nat) (c : LinComp) (x : Nat → ℚ) :
    (addAgentCost N w a c).eval x = c.eval x + ∑ u ∈ range N, ∑ v ∈ range N, w u v * x (varId N a u v) := by
  have inner : ∀ (u : Nat) (l : List Nat) (c : LinComp),
      (l.foldl (fun c v => c.addAssign (.smul (w u v) (.ofVar (varId N a u v)))) c).eval x =
        c.eval x + (l.map fun v => w u v * x (varId N a u v)).sum := by
    intro u l
    induction l with
    | nil => intro c; simp
    | cons v l ih => intro c; rw [List.foldl_cons, ih]; simp [add_assoc]
  unfold addAgentCost
  have outer : ∀ (l : List Nat) (c : LinComp),
      (l.foldl (fun c u => (List.range N).foldl (fun c v => c.addAssign (.smul (w u v) (.ofVar (varId N a u v)))) c) c).eval x =
        c.eval x + (l.map fun u => ∑ v ∈ range N, w u v * x (varId N a u v)).sum := by
    intro l
    induction l with
    | nil => intro c; simp
    | cons u l ih => intro c; rw [List.foldl_cons, ih, inner, list_sum_range]; simp [add_assoc]
  rw [outer, list_sum_range]

theorem eval_sumObjective (A N : Nat) (w : Weights) (x : Nat → ℚ) :
    (createSumObjective A N w).eval x = ∑ a ∈ range A, ∑ u ∈ range N, ∑ v ∈ range N, w u v * x (varId N a u v) := by
  have outer : ∀ (l : List Nat) (c : LinComp),
      (l.foldl (fun c a => addAgentCost N w a c) c).eval x =
        c.eval x + (l.map fun a => ∑ u ∈ range N, ∑ v ∈ range N, w u v * x (varId N a u v)).sum := by
    intro l
    induction l with
    | nil => intro c; simp
    | cons u l ih => intro c; rw [List.foldl_cons, ih, eval_addAgentCost]; simp [add_assoc]
  unfold createSumObjective
  rw [outer, list_sum_range]; simp

/-- cost of a path plus one more arc, by successors -/
theorem pathCost_succ (w : Weights) (f : Nat → Nat) : ∀ (p : List Nat) (e : Nat), (∀ u v, Step p u v → f u = v) →
    p.getLast? = some e → (p.map fun u => w u (f u)).sum = pathCost w p + w e (f e)
  | [], _, _, h => by simp at h
  | [y], e, _, h => by
    simp at h; subst h; simp [pathCost]
  | y :: z :: l, e, hs, h => by
    have h1 : f y = z := hs y z ⟨[], l, rfl⟩
    have ih := pathCost_succ w f (z :: l) e (fun u v ⟨l1, l2, h⟩ => hs u v ⟨y :: l1, l2, by rw [h]; rfl⟩) (by simpa using h)
    rw [List.map_cons, List.sum_cons, ih, pathCost_cons_cons, h1]; ring

section
variable {N : Nat} {starts ends : List Nat} {P : List (List Nat)} {x : Nat → ℚ}

/-- agent `a`'s part of the objective: its path plus its artificial arc -/
theorem agent_cost (hx : IsPoint N starts ends P x) (hc : IsCover N starts ends P) (hl : starts.length = ends.length)
    (hlt : ∀ s ∈ starts ++ ends, s < N)
    (w : Weights) {a : Nat} (ha : a < starts.length) :
    ∑ u ∈ range N, ∑ v ∈ range N, w u v * x (varId N a u v) =
      pathCost w (P.getD a []) + w (ends.getD a 0) (starts.getD ((a + 1) % starts.length) 0) := by
  obtain ⟨own, pv, ht, ho⟩ := hx.tour hc hl
  have hal : a < P.length := by rw [hc.len]; exact ha
  have hp : P[a]? = some (P.getD a []) := by simp [List.getD_eq_getElem?_getD, hal]
  set p := P.getD a [] with hpd
  have hnd := hc.nodup (List.mem_of_getElem? hp)
  have h1 : ∀ u ∈ range N, ∑ v ∈ range N, w u v * x (varId N a u v) = if u ∈ p then w u (nxt P.flatten u) else 0 := by
    intro u hu
    have hu := Finset.mem_range.1 hu
    have hiff : own u = a ↔ u ∈ p := by
      rw [ho u hu a]
      constructor
      · rintro ⟨q, hq, hm⟩; rw [hp] at hq; cases hq; exact hm
      · intro hm; exact ⟨p, hp, hm⟩
    by_cases hm : u ∈ p
    · rw [if_pos hm, Finset.sum_eq_single (nxt P.flatten u)]
      · rw [ht.val a ha u hu _ (ht.nxLt u hu), if_pos ⟨hiff.2 hm, rfl⟩, mul_one]
      · intro v hv hne
        rw [ht.val a ha u hu v (Finset.mem_range.1 hv), if_neg (fun h => hne h.2.symm), mul_zero]
      · intro h; exact absurd (Finset.mem_range.2 (ht.nxLt u hu)) h
    · rw [if_neg hm]
      apply Finset.sum_eq_zero
      intro v hv
      rw [ht.val a ha u hu v (Finset.mem_range.1 hv), if_neg (fun h => hm (hiff.1 h.1)), mul_zero]
  rw [Finset.sum_congr rfl h1, ← Finset.sum_filter]
  have h2 : (range N).filter (fun u => u ∈ p) = p.toFinset := by
    ext u
    simp only [Finset.mem_filter, Finset.mem_range, List.mem_toFinset]
    exact ⟨fun h => h.2, fun h => ⟨hc.lt p (List.mem_of_getElem? hp) u h, h⟩⟩
  rw [h2, List.sum_toFinset _ hnd]
  have he : ends[a]? = some (ends.getD a 0) := getElem?_getD (hl ▸ ha)
  have hlast : p.getLast? = some (ends.getD a 0) := by rw [hc.last a p hp, he]
  rw [pathCost_succ w (nxt P.flatten) p (ends.getD a 0) (fun u v hs => step_nxt hc hp hs) hlast]
  congr 2
  exact art_nxt hc hl ha he (getElem?_getD (Nat.mod_lt _ (by omega)))

end

/-! ### following the arcs -/

theorem find_unique {n k : Nat} {f : Nat → Bool} (hk : k < n) (hf : f k = true) (hu : ∀ j < n, f j = true → j = k) :
    (List.range n).find? f = some k := by
  rcases h : (List.range n).find? f with _ | j
  · rw [List.find?_eq_none] at h
    exact absurd hf (h k (List.mem_range.2 hk))
  · have h1 := List.find?_some h
    have h2 := List.mem_of_find?_eq_some h
    rw [hu j (List.mem_range.1 h2) h1]

/-- following successors along a known path -/
theorem followPath_eq {N : Nat} {x : Nat → ℚ} {a e : Nat} {p : List Nat} (hnd : p.Nodup)
    (harc : ∀ u v, Step p u v → v < N ∧ x (varId N a u v) > 1 - 1 / 10 ^ 10 ∧
      ∀ v' < N, x (varId N a u v') > 1 - 1 / 10 ^ 10 → v' = v)
    (hlast : p.getLast? = some e) : ∀ (k : Nat) (l r : List Nat) (u v : Nat), p = l ++ u :: v :: r → r.length + 1 ≤ k →
      followPath N x a e k (l ++ [u]) = p := by
  intro k
  induction k with
  | zero => intro l r u v _ hk; omega
  | succ k ih =>
    intro l r u v hp hk
    obtain ⟨h1, h2, h3⟩ := harc u v ⟨l, r, hp⟩
    have hf : followArc N x a (l ++ [u]) = l ++ [u, v] := by
      unfold followArc
      have hg : (l ++ [u]).getLastD 0 = u := by simp [List.getLastD_eq_getLast?]
      rw [hg, find_unique (f := fun n => decide (x (varId N a u n) > 1 - 1 / 10 ^ 10)) h1 (decide_eq_true h2)
        (fun j hj hd => h3 j hj (of_decide_eq_true hd))]
      simp
    have hg2 : (l ++ [u, v]).getLastD 0 = v := by simp [List.getLastD_eq_getLast?]
    unfold followPath
    rw [hf]
    simp only [hg2]
    cases r with
    | nil =>
      have : v = e := by
        rw [hp, List.getLast?_append_of_ne_nil _ (by simp)] at hlast
        simpa using hlast
      rw [if_pos this, hp]
    | cons y r =>
      have hne : v ≠ e := by
        rintro rfl
        have hm : v ∈ y :: r := by
          rw [hp, List.getLast?_append_of_ne_nil _ (by simp)] at hlast
          exact List.mem_of_getLast? (by simpa using hlast)
        rw [hp] at hnd
        have := (List.nodup_append.1 hnd).2.1
        rw [List.nodup_cons, List.nodup_cons] at this
        exact this.2.1 hm
      rw [if_neg hne]
      have := ih (l ++ [u]) r v y (by rw [hp]; simp) (by simp at hk; omega)
      simpa using this

end Mtsp
