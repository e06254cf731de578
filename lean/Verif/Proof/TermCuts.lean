import Verif.Proof.BnBStep
import Mathlib.Data.Set.Finite.List

/-! There are only finitely many cuts. -/

namespace Mtsp

/-- a predicate on the nodes below `N`, extended by `false` -/
def extB (N : Nat) (p : Fin N → Bool) (i : Nat) : Bool := if h : i < N then p ⟨i, h⟩ else false

theorem extB_restrict (N : Nat) (p : Nat → Bool) {i : Nat} (h : i < N) : extB N (fun j => p j) i = p i := by
  simp [extB, h]

theorem flatMap_congr' {α β : Type} {l : List α} {f g : α → List β} (h : ∀ a ∈ l, f a = g a) : l.flatMap f = l.flatMap g := by
  induction l with
  | nil => rfl
  | cons a l ih =>
    simp only [List.flatMap_cons]
    rw [h a List.mem_cons_self, ih fun b hb => h b (List.mem_cons_of_mem _ hb)]

theorem ucutF_finite (A N : Nat) :
    {c : LinCon | ∃ fl sw y, ucutF fl sw A N y = some c}.Finite := by
  refine (Set.finite_range fun p : Fin N → Bool => LinCon.ge (sumVars (ucutIds A N (extB N p))) (.ofConst 2)).subset ?_
  rintro c ⟨fl, sw, y, h⟩
  unfold ucutF at h
  split at h
  · simp at h
  · cases h
    refine ⟨fun i => (sw N (undirWeightF fl A N y)).2 i, ?_⟩
    have : ucutIds A N (extB N fun i : Fin N => (sw N (undirWeightF fl A N y)).2 i) = ucutIds A N (sw N (undirWeightF fl A N y)).2 := by
      unfold ucutIds
      refine flatMap_congr' fun u hu => flatMap_congr' fun v hv => ?_
      rw [extB_restrict N (sw N (undirWeightF fl A N y)).2 (List.mem_range.1 hu), extB_restrict N (sw N (undirWeightF fl A N y)).2 (List.mem_range.1 hv)]
    simp only [this]

theorem cutEdges_restrict (N : Nat) (keep black : Nat → Bool) :
    cutEdges N (extB N fun i : Fin N => keep i) (extB N fun i : Fin N => black i) = cutEdges N keep black := by
  unfold cutEdges
  refine flatMap_congr' fun u hu => ?_
  congr 1
  refine List.filter_congr fun v hv => ?_
  have hu := List.mem_range.1 hu
  have hv := List.mem_range.1 hv
  rw [extB_restrict N keep hu, extB_restrict N keep hv, extB_restrict N black hu, extB_restrict N black hv]

theorem tryCutF_finite (A N : Nat) :
    {c : LinCon | ∃ fl mf g y s t k, tryCutF fl mf A N g y s t k = some c}.Finite := by
  refine (Set.finite_range fun p : Option ((Fin N → Bool) × (Fin N → Bool)) =>
    cutConstraint A N (match p with | none => [] | some p => cutEdges N (extB N p.1) (extB N p.2))).subset ?_
  rintro c ⟨fl, mf, g, y, s, t, k, h⟩
  unfold tryCutF at h
  dsimp only at h
  by_cases hlt : (findMinCutF fl mf A N g y s t k).1 < limitF fl 1
  · rw [if_pos hlt, Option.some.injEq] at h
    rw [← h]
    unfold findMinCutF
    dsimp only
    split
    · exact ⟨none, rfl⟩
    · refine ⟨some (fun i => keepVertex g k s t i, fun i => (mf N (keepVertex g k s t) (arcCapacityF fl A N y) s t).2 i), ?_⟩
      simp only [cutEdges_restrict]
  · rw [if_neg hlt] at h; simp at h

theorem combConstraint_congr {A N : Nat} {pairs : List (Nat × Nat)} {f f' : Nat × Nat → Bool} (h : ∀ e ∈ pairs, f e = f' e) :
    combConstraint A N pairs f = combConstraint A N pairs f' := by
  unfold combConstraint
  suffices hs : ∀ (l : List (Nat × Nat)) (s : LinComp × LinComp), (∀ e ∈ l, f e = f' e) →
      l.foldl (fun (s : LinComp × LinComp) e =>
        if f e then (s.1, s.2.addAssign ((edgePart A N e.1 e.2).sub (.ofConst 1)))
        else (s.1.addAssign (edgePart A N e.1 e.2), s.2)) s =
      l.foldl (fun (s : LinComp × LinComp) e =>
        if f' e then (s.1, s.2.addAssign ((edgePart A N e.1 e.2).sub (.ofConst 1)))
        else (s.1.addAssign (edgePart A N e.1 e.2), s.2)) s by
    dsimp only; rw [hs _ _ h]
  intro l
  induction l with
  | nil => intro s _; rfl
  | cons e l ih =>
    intro s hl
    simp only [List.foldl_cons]
    rw [hl e List.mem_cons_self, ih _ fun e he => hl e (List.mem_cons_of_mem _ he)]

theorem lists_finite (N : Nat) : {l : List Nat | l.length ≤ N ∧ ∀ i ∈ l, i < N}.Finite := by
  refine ((List.finite_length_le (Fin N) N).image (List.map Fin.val)).subset ?_
  rintro l ⟨h1, h2⟩
  refine ⟨l.pmap Fin.mk h2, by simpa using h1, ?_⟩
  rw [List.map_pmap]
  simp

/-- a predicate on pairs of nodes below `N`, extended by `false` -/
def extP (N : Nat) (p : Fin N → Fin N → Bool) (e : Nat × Nat) : Bool :=
  if h : e.1 < N ∧ e.2 < N then p ⟨e.1, h.1⟩ ⟨e.2, h.2⟩ else false

theorem combForF_finite (A N : Nat) :
    {c : LinCon | ∃ fl tab sz U V, (U ++ V).Perm (List.range N) ∧ combForF fl A N tab sz U V = some c}.Finite := by
  have h0 := ((lists_finite N).prod (lists_finite N)).prod (Set.finite_univ (α := Fin N → Fin N → Bool))
  refine (h0.image fun q => combConstraint A N (cutPairs q.1.1 q.1.2) (extP N q.2)).subset ?_
  rintro c ⟨fl, tab, sz, U, V, hp, h⟩
  have hU : U.length ≤ N ∧ ∀ i ∈ U, i < N := by
    have := hp.length_eq
    simp at this
    exact ⟨by omega, fun i hi => List.mem_range.1 (hp.mem_iff.1 (List.mem_append_left _ hi))⟩
  have hV : V.length ≤ N ∧ ∀ i ∈ V, i < N := by
    have := hp.length_eq
    simp at this
    exact ⟨by omega, fun i hi => List.mem_range.1 (hp.mem_iff.1 (List.mem_append_right _ hi))⟩
  have hlt : ∀ p ∈ cutPairs U V, p.1 < N ∧ p.2 < N := by
    intro p hpm
    simp only [cutPairs, List.mem_flatMap, List.mem_map] at hpm
    obtain ⟨u, hu, v, hv, rfl⟩ := hpm
    have h1 := hU.2 u hu
    have h2 := hV.2 v hv
    exact ⟨by simp [h1, h2], by simp [h1]⟩
  have key : ∀ f : Nat × Nat → Bool, ∃ x ∈ ({l : List Nat | l.length ≤ N ∧ ∀ i ∈ l, i < N} ×ˢ {l : List Nat | l.length ≤ N ∧ ∀ i ∈ l, i < N}) ×ˢ
      (Set.univ : Set (Fin N → Fin N → Bool)), combConstraint A N (cutPairs x.1.1 x.1.2) (extP N x.2) = combConstraint A N (cutPairs U V) f := by
    intro f
    refine ⟨((U, V), fun i j => f (i, j)), ⟨⟨hU, hV⟩, trivial⟩, combConstraint_congr fun e he => ?_⟩
    obtain ⟨h1, h2⟩ := hlt e he
    simp [extP, h1, h2]
  unfold combForF at h
  split at h
  · simp at h
  · split at h
    · cases h; exact key _
    · dsimp only at h
      split at h
      · cases h; exact key _
      · simp at h

section
variable {e : BEnv} {rows : Nat} {w : Weights} {starts ends : List Nat}

/-- all cuts the search can ever find -/
theorem cuts_finite (g : e.Good rows w starts ends) : {c : LinCon | ∃ y, c ∈ separate e y}.Finite := by
  refine (((ucutF_finite e.m.starts.length e.m.n).union (tryCutF_finite e.m.starts.length e.m.n)).union
    (combForF_finite e.m.starts.length e.m.n)).subset ?_
  rintro c ⟨y, hc⟩
  unfold separate at hc
  split at hc
  · rename_i c' h
    rw [List.mem_singleton] at hc; subst hc
    exact Or.inl (Or.inl ⟨_, _, _, h⟩)
  split at hc
  · rename_i c' h
    rw [List.mem_singleton] at hc; subst hc
    obtain ⟨s, t, _, h'⟩ := piSigmaCutF_some h
    exact Or.inl (Or.inr ⟨_, _, _, _, _, _, _, h'⟩)
  split at hc
  · rename_i c' h
    rw [List.mem_singleton] at hc; subst hc
    obtain ⟨n, _, s, _, _, h'⟩ := piCutF_some h
    exact Or.inl (Or.inr ⟨_, _, _, _, _, _, _, h'⟩)
  split at hc
  · rename_i c' h
    rw [List.mem_singleton] at hc; subst hc
    obtain ⟨n, _, s, _, _, h'⟩ := sigmaCutF_some h
    exact Or.inl (Or.inr ⟨_, _, _, _, _, _, _, h'⟩)
  unfold twoMatchingGF at hc
  simp only [List.mem_filterMap] at hc
  obtain ⟨x, hx, hc⟩ := hc
  have hp := g.ghOk.parts e.m.n _ (WM.two_le g.make) (fun u v => (capF_bounds g.flOk e.m.starts.length e.m.n y u v).1) (capF_symm e.m.starts.length e.m.n y) _ hx
  exact Or.inr ⟨_, _, _, _, _, hp, hc⟩

end
end Mtsp
