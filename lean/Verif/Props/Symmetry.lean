import Verif.Props.Certified
import Mathlib.Data.List.Perm.Basic

/-! C78: results for instances that a user knows to be equivalent, or one cheaper than the other. -/

namespace Mtsp

section
variable {a b : CArgs} {L M : Lib} {t t' : Nat} {tr tr' : List (Nat × Inp)}

/-- every solution of the one instance can be turned into one of the other that is not more expensive -/
def CArgs.ReducesTo (a b : CArgs) : Prop :=
  ∀ P v, a.Solution P → a.Costs P v → ∃ P' v', b.Solution P' ∧ b.Costs P' v' ∧ v' ≤ v

/-- then a calm call's lower bound for the other does not exceed a checked call's upper bound for the one -/
theorem reduces_bounds (hs : a.InRange → a.ReducesTo b) (hTa : a.Typed) (hTb : b.Typed) (hL : L.Correct) (hM : M.Correct)
    {c d : ℤ} {o o' : COut}
    (ha : a.Call L t tr (.ret c o)) (hb : b.Call M t' tr' (.ret d o')) (hc : 0 ≤ c) (hd : 0 ≤ d)
    (hcalm : b.Calm M tr') (hk : a.Checked o) : ∃ lo up, o'.lower = some lo ∧ o.upper = some up ∧ lo ≤ up := by
  obtain ⟨lo, h1, h2⟩ := C64_lower_bound_partial hTb hM hb hd hcalm
  obtain ⟨P, up, h3, h4, h5, _⟩ := checked_solution hTa hL ha hc hk
  obtain ⟨_, hr, _⟩ := call_success hTa hL ha hc
  obtain ⟨P', v', h6, h7, h8⟩ := hs hr P up h3 h4
  exact ⟨lo, up, h1, h5, (h2 P' v' h6 h7).trans h8⟩

/-- the costs that SOLVED calls report are ordered accordingly -/
theorem reduces_solved (hs : a.InRange → a.ReducesTo b) (hTa : a.Typed) (hTb : b.Typed) (hL : L.Correct) (hM : M.Correct)
    {o o' : COut}
    (ha : a.Call L t tr (.ret 0 o)) (hb : b.Call M t' tr' (.ret 0 o')) (hca : a.Calm L tr) (hcb : b.Calm M tr')
    (hka : a.Checked o) (hkb : b.Checked o') : ∃ v v', o.lower = some v ∧ o.upper = some v ∧ o'.lower = some v' ∧ o'.upper = some v' ∧ v' ≤ v := by
  obtain ⟨P, v, _, _, _, h1, h2, _⟩ := C64_checked_is_optimal_partial hTa hL ha hca hka
  obtain ⟨P', v', _, _, _, h3, h4, _⟩ := C64_checked_is_optimal_partial hTb hM hb hcb hkb
  obtain ⟨x, y, e1, e2, e3⟩ := reduces_bounds hs hTa hTb hL hM ha hb (le_refl _) (le_refl _) hcb hka
  rw [h3] at e1; rw [h2] at e2
  simp only [Option.some.injEq] at e1 e2
  subst e1 e2
  exact ⟨_, _, h1, h2, h3, h4, e3⟩

/-! ### Cheaper weights -/

/-- the same instance with weights that are nowhere larger; the dependencies are the same -/
structure CArgs.CheaperThan (b a : CArgs) : Prop where
  nodes : a.N = b.N
  starts : a.startList = b.startList
  ends : a.endList = b.endList
  opt : a.opt = b.opt
  deps : ∀ u < a.N, ∀ v < a.N, u ≠ v → (a.weight u v = -1 ↔ b.weight u v = -1)
  weight : ∀ u < a.N, ∀ v < a.N, u ≠ v → b.weight u v ≤ a.weight u v

theorem pathCost_mono {w w' : Weights} : ∀ (p : List Nat), (∀ u ∈ p, ∀ v ∈ p, w u v ≤ w' u v) → pathCost w p ≤ pathCost w' p
  | [], _ => le_refl _
  | [_], _ => le_refl _
  | x :: y :: p, h => by
    have h1 := pathCost_mono (y :: p) fun u hu v hv => h u (List.mem_cons_of_mem _ hu) v (List.mem_cons_of_mem _ hv)
    have h2 := h x (by simp) y (by simp)
    rw [pathCost, pathCost]
    linarith

theorem sumCost_const (w : Weights) (P : Paths) : sumCost (fun _ => w) P = (P.map (pathCost w)).sum := by
  unfold sumCost
  congr 1
  apply List.ext_getElem?
  intro i
  simp

/-- the cost of a set of paths exists -/
theorem isObjective_exists (mode : Mode) (w : Weights) (P : Paths) : ∃ v, IsObjective mode w P v := ⟨_, isObjective_calc mode w P⟩

theorem isObjective_mono {mode : Mode} {w w' : Weights} {P : Paths} {v v' : ℚ} (h : ∀ p ∈ P, pathCost w p ≤ pathCost w' p)
    (hv : IsObjective mode w P v) (hv' : IsObjective mode w' P v') : v ≤ v' := by
  cases mode with
  | sum =>
    rw [show v = _ from hv, show v' = _ from hv', sumCost_const, sumCost_const]
    exact List.sum_le_sum fun p hp => h p hp
  | max =>
    obtain ⟨h0, h1, h2⟩ := hv
    obtain ⟨h0', h1', _⟩ := hv'
    rcases h2 with h2 | ⟨k, p, hp, e⟩
    · rw [h2]; exact h0'
    · rw [← e]
      exact (h p (List.mem_of_getElem? hp)).trans (h1' k p hp)

theorem CArgs.CheaperThan.reduces (h : b.CheaperThan a) (hr : a.InRange) : a.ReducesTo b := by
  intro P v hP hv
  obtain ⟨v', hv'⟩ := isObjective_exists b.opt (inputCost b.weight) P
  have hlt := inputCover_lt hP.1 hr.1 hr.2
  refine ⟨P, v', ⟨by rw [← h.nodes, ← h.starts, ← h.ends]; exact hP.1, fun u v hd => hP.2 u v ?_⟩, hv', ?_⟩
  · obtain ⟨h1, h2, h3, h4⟩ := hd
    rw [← h.nodes] at h1 h2
    exact ⟨h1, h2, h3, (h.deps v h2 u h1 (Ne.symm h3)).2 h4⟩
  · unfold CArgs.Costs at hv
    rw [h.opt] at hv
    refine isObjective_mono (fun p hp => pathCost_mono p fun x hx y hy => ?_) hv' hv
    unfold inputCost
    have hx' := hlt p hp x hx
    have hy' := hlt p hp y hy
    by_cases hxy : x = y
    · simp [hxy]
    · by_cases hf : a.weight x y = -1
      · rw [if_pos (Or.inr ((h.deps x hx' y hy' hxy).1 hf)), if_pos (Or.inr hf)]
      · rw [if_neg (by rintro (h' | h'); exacts [hxy h', hf ((h.deps x hx' y hy' hxy).2 h')]), if_neg (by rintro (h' | h'); exacts [hxy h', hf h'])]
        exact h.weight x hx' y hy' hxy

/-! ### Reversal -/

/-- all paths the other way round: starts and ends are exchanged, and the weights of the two directions -/
structure CArgs.ReverseOf (b a : CArgs) : Prop where
  nodes : a.N = b.N
  starts : a.startList = b.endList
  ends : a.endList = b.startList
  opt : a.opt = b.opt
  weight : ∀ u < a.N, ∀ v < a.N, u ≠ v → b.weight u v = a.weight v u

theorem CArgs.ReverseOf.symm (h : b.ReverseOf a) : a.ReverseOf b :=
  ⟨h.nodes.symm, h.ends.symm, h.starts.symm, h.opt.symm, fun u hu v hv hne => (h.weight v (by rw [h.nodes]; exact hv) u (by rw [h.nodes]; exact hu) (Ne.symm hne)).symm⟩

theorem pathCost_reverse {w w' : Weights} : ∀ (p : List Nat), (∀ u ∈ p, ∀ v ∈ p, w' u v = w v u) → pathCost w' p.reverse = pathCost w p
  | [], _ => rfl
  | [_], _ => rfl
  | x :: y :: p, h => by
    have ih := pathCost_reverse (y :: p) fun u hu v hv => h u (List.mem_cons_of_mem _ hu) v (List.mem_cons_of_mem _ hv)
    rw [List.reverse_cons] at ih
    rw [List.reverse_cons, List.reverse_cons, List.append_assoc, List.cons_append, List.nil_append, pathCost_append, ih, h y (by simp) x (by simp)]
    simp only [pathCost]
    ring

theorem before_reverse {p : List Nat} {u v : Nat} (h : Before p u v) : Before p.reverse v u := by
  obtain ⟨l1, l2, l3, rfl⟩ := h
  exact ⟨l3.reverse, l2.reverse, l1.reverse, by simp⟩

theorem CArgs.ReverseOf.reduces (h : b.ReverseOf a) (hr : a.InRange) : a.ReducesTo b := by
  intro P v hP hv
  have hlt := inputCover_lt hP.1 hr.1 hr.2
  refine ⟨P.map List.reverse, v, ⟨⟨?_, ?_, ?_⟩, ?_⟩, ?_, le_refl _⟩
  · have := hP.1.len
    simp only [List.length_map, this, CArgs.startList_length]
    rw [← b.endList_length, ← h.starts, a.startList_length]
  · intro k p hk
    rw [List.getElem?_map] at hk
    obtain ⟨q, hq, rfl⟩ := Option.map_eq_some_iff.1 hk
    obtain ⟨s, e, mid, h1, h2, h3⟩ := hP.1.shape k q hq
    exact ⟨e, s, mid.reverse, by rw [← h.ends]; exact h2, by rw [← h.starts]; exact h1, by rw [h3]; simp⟩
  · have e1 : ((P.map List.reverse).map middle).flatten.Perm (P.map middle).flatten := by
      have hm : ∀ p ∈ P, (middle p.reverse).Perm (middle p) := by
        intro p hp
        obtain ⟨k, hk, rfl⟩ := List.getElem_of_mem hp
        obtain ⟨s, e, mid, _, _, h3⟩ := hP.1.shape k _ (List.getElem?_eq_getElem hk)
        rw [h3]
        have e1 : middle (s :: mid ++ [e]).reverse = mid.reverse := by simp [middle]
        have e2 : middle (s :: mid ++ [e]) = mid := by simp [middle]
        rw [e1, e2]
        exact List.reverse_perm _
      clear hP hlt hv
      induction P with
      | nil => exact List.Perm.refl _
      | cons p P ih =>
        simp only [List.map_cons, List.flatten_cons]
        exact (hm p (by simp)).append (ih fun q hq => hm q (by simp [hq]))
    refine e1.trans ?_
    rw [← h.nodes, ← h.starts, ← h.ends]
    refine hP.1.rest.trans ?_
    have : ((List.range a.N).filter fun v => decide (v ∉ a.startList ++ a.endList)) = (List.range a.N).filter fun v => decide (v ∉ a.endList ++ a.startList) := by
      apply List.filter_congr
      intro x _
      simp only [List.mem_append, or_comm]
    rw [this]
  · intro u v' hd
    obtain ⟨h1, h2, h3, h4⟩ := hd
    rw [← h.nodes] at h1 h2
    obtain ⟨p, hp, hb⟩ := hP.2 v' u ⟨h2, h1, Ne.symm h3, by rw [← h.weight v' h2 u h1 (Ne.symm h3)]; exact h4⟩
    exact ⟨p.reverse, List.mem_map.2 ⟨p, hp, rfl⟩, before_reverse hb⟩
  · unfold CArgs.Costs at hv ⊢
    rw [← h.opt]
    refine (isObjective_congr ?_ v).1 hv
    rw [List.map_map]
    apply List.map_congr_left
    intro p hp
    symm
    apply pathCost_reverse
    intro x hx y hy
    unfold inputCost
    by_cases hxy : x = y
    · simp [hxy]
    · rw [h.weight x (hlt p hp x hx) y (hlt p hp y hy) hxy]
      simp [hxy, Ne.symm hxy]

/-! ### Renaming the nodes -/

/-- the same instance with other names for the nodes: node `u` is called `f u` -/
structure CArgs.RenamingOf (b a : CArgs) (f : Nat → Nat) : Prop where
  nodes : a.N = b.N
  lt : ∀ u < a.N, f u < a.N
  inj : ∀ u < a.N, ∀ v < a.N, f u = f v → u = v
  starts : b.startList = a.startList.map f
  ends : b.endList = a.endList.map f
  opt : a.opt = b.opt
  weight : ∀ u < a.N, ∀ v < a.N, u ≠ v → b.weight (f u) (f v) = a.weight u v

theorem before_rename {p : List Nat} {u v : Nat} (f : Nat → Nat) (h : Before p u v) : Before (p.map f) (f u) (f v) := by
  obtain ⟨l1, l2, l3, rfl⟩ := h
  exact ⟨l1.map f, l2.map f, l3.map f, by simp⟩

theorem pathCost_rename {w w' : Weights} (f : Nat → Nat) : ∀ (p : List Nat), (∀ u ∈ p, ∀ v ∈ p, w' (f u) (f v) = w u v) → pathCost w' (p.map f) = pathCost w p
  | [], _ => rfl
  | [_], _ => rfl
  | x :: y :: p, h => by
    have ih := pathCost_rename f (y :: p) fun u hu v hv => h u (List.mem_cons_of_mem _ hu) v (List.mem_cons_of_mem _ hv)
    simp only [List.map_cons, pathCost] at ih ⊢
    rw [ih, h x (by simp) y (by simp)]

/-- a renaming reaches every node -/
theorem CArgs.RenamingOf.perm {f : Nat → Nat} (h : b.RenamingOf a f) : ((List.range a.N).map f).Perm (List.range a.N) := by
  have hnd : ((List.range a.N).map f).Nodup := by
    refine (List.nodup_map_iff_inj_on List.nodup_range).2 ?_
    intro x hx y hy e
    exact h.inj x (List.mem_range.1 hx) y (List.mem_range.1 hy) e
  refine (hnd.subperm ?_).perm_of_length_le (by simp)
  intro y hy
  obtain ⟨x, hx, rfl⟩ := List.mem_map.1 hy
  exact List.mem_range.2 (h.lt x (List.mem_range.1 hx))

theorem CArgs.RenamingOf.reduces {f : Nat → Nat} (h : b.RenamingOf a f) (hr : a.InRange) : a.ReducesTo b := by
  intro P v hP hv
  have hlt := inputCover_lt hP.1 hr.1 hr.2
  have hsurj : ∀ y < a.N, ∃ x < a.N, f x = y := by
    intro y hy
    have := h.perm.mem_iff.2 (List.mem_range.2 hy)
    obtain ⟨x, hx, e⟩ := List.mem_map.1 this
    exact ⟨x, List.mem_range.1 hx, e⟩
  refine ⟨P.map (·.map f), v, ⟨⟨?_, ?_, ?_⟩, ?_⟩, ?_, le_refl _⟩
  · rw [List.length_map, hP.1.len, h.starts, List.length_map]
  · intro k p hk
    rw [List.getElem?_map] at hk
    obtain ⟨q, hq, rfl⟩ := Option.map_eq_some_iff.1 hk
    obtain ⟨s, e, mid, h1, h2, h3⟩ := hP.1.shape k q hq
    exact ⟨f s, f e, mid.map f, by rw [h.starts, List.getElem?_map, h1]; rfl, by rw [h.ends, List.getElem?_map, h2]; rfl, by rw [h3]; simp⟩
  · have e1 : ((P.map (·.map f)).map middle).flatten = (P.map middle).flatten.map f := by
      rw [List.map_map, List.map_flatten, List.map_map]
      congr 1
      apply List.map_congr_left
      intro p _
      simp only [Function.comp, middle]
      rw [List.map_dropLast, List.map_tail]
    rw [e1, ← h.nodes, h.starts, h.ends]
    refine (hP.1.rest.map f).trans ?_
    have e2 : ((List.range a.N).filter fun v => decide (v ∉ a.startList ++ a.endList)).map f =
        ((List.range a.N).map f).filter fun v => decide (v ∉ a.startList.map f ++ a.endList.map f) := by
      rw [List.filter_map]
      congr 1
      apply List.filter_congr
      intro x hx
      simp only [Function.comp, decide_eq_decide, ← List.map_append]
      rw [not_iff_not]
      constructor
      · exact fun hm => List.mem_map.2 ⟨x, hm, rfl⟩
      · intro hm
        obtain ⟨y, hy, e⟩ := List.mem_map.1 hm
        have hy' : y < a.N := by
          rcases List.mem_append.1 hy with hy | hy
          · exact hr.1 y hy
          · exact hr.2 y hy
        rw [← h.inj y hy' x (List.mem_range.1 hx) e]
        exact hy
    rw [e2]
    exact h.perm.filter _
  · intro u v' hd
    obtain ⟨h1, h2, h3, h4⟩ := hd
    rw [← h.nodes] at h1 h2
    obtain ⟨x, hx, rfl⟩ := hsurj u h1
    obtain ⟨y, hy, rfl⟩ := hsurj v' h2
    have hxy : x ≠ y := fun e => h3 (by rw [e])
    obtain ⟨p, hp, hb⟩ := hP.2 x y ⟨hx, hy, hxy, by rw [← h.weight y hy x hx (Ne.symm hxy)]; exact h4⟩
    exact ⟨p.map f, List.mem_map.2 ⟨p, hp, rfl⟩, before_rename f hb⟩
  · unfold CArgs.Costs at hv ⊢
    rw [← h.opt]
    refine (isObjective_congr ?_ v).1 hv
    rw [List.map_map]
    apply List.map_congr_left
    intro p hp
    symm
    apply pathCost_rename
    intro x hx y hy
    unfold inputCost
    by_cases hxy : x = y
    · simp [hxy]
    · rw [h.weight x (hlt p hp x hx) y (hlt p hp y hy) hxy]
      have : f x ≠ f y := fun e => hxy (h.inj x (hlt p hp x hx) y (hlt p hp y hy) e)
      simp [hxy, this]

/-! ### The order of the agents -/

/-- the same instance with the agents in another order -/
structure CArgs.AgentOrderOf (b a : CArgs) : Prop where
  nodes : a.N = b.N
  agents : (a.startList.zip a.endList).Perm (b.startList.zip b.endList)
  opt : a.opt = b.opt
  weight : ∀ u < a.N, ∀ v < a.N, u ≠ v → b.weight u v = a.weight u v

theorem isObjective_perm {mode : Mode} {w : Weights} {P P' : Paths} {v : ℚ} (h : P.Perm P') (hv : IsObjective mode w P v) : IsObjective mode w P' v := by
  cases mode with
  | sum =>
    rw [show v = _ from hv, sumCost_const]
    show _ = sumCost _ _
    rw [sumCost_const]
    exact (h.map _).sum_eq
  | max =>
    obtain ⟨h0, h1, h2⟩ := hv
    refine ⟨h0, ?_, ?_⟩
    · intro k p hp
      obtain ⟨k', hk', e⟩ := List.getElem_of_mem (h.mem_iff.2 (List.mem_of_getElem? hp))
      exact h1 k' p (by rw [List.getElem?_eq_getElem hk', e])
    · rcases h2 with h2 | ⟨k, p, hp, e⟩
      · exact Or.inl h2
      · obtain ⟨k', hk', e'⟩ := List.getElem_of_mem (h.mem_iff.1 (List.mem_of_getElem? hp))
        exact Or.inr ⟨k', p, by rw [List.getElem?_eq_getElem hk', e'], e⟩

/-- the shape condition of `InputCover`, pairwise -/
def HasEnds (x : Nat × Nat) (p : List Nat) : Prop := ∃ mid, p = x.1 :: mid ++ [x.2]

theorem inputCover_forall₂ {N : Nat} {starts ends : List Nat} {P : Paths} (hl : starts.length = ends.length) :
    InputCover N starts ends P ↔ List.Forall₂ HasEnds (starts.zip ends) P ∧
      (P.map middle).flatten.Perm ((List.range N).filter fun v => decide (v ∉ starts ++ ends)) := by
  constructor
  · intro h
    refine ⟨List.forall₂_iff_get.2 ⟨by simp [h.len, hl], ?_⟩, h.rest⟩
    intro k h1 h2
    obtain ⟨s, e, mid, e1, e2, e3⟩ := h.shape k _ (List.getElem?_eq_getElem h2)
    refine ⟨mid, ?_⟩
    simp only [List.get_eq_getElem, List.getElem_zip]
    rw [List.getElem?_eq_getElem (by simp at h1; omega)] at e1 e2
    simp only [Option.some.injEq] at e1 e2
    rw [e1, e2, e3]
  · rintro ⟨h1, h2⟩
    obtain ⟨h3, h4⟩ := List.forall₂_iff_get.1 h1
    have hlen : P.length = starts.length := by rw [← h3]; simp [hl]
    refine ⟨hlen, ?_, h2⟩
    intro k p hk
    obtain ⟨hk', rfl⟩ := List.getElem?_eq_some_iff.1 hk
    obtain ⟨mid, hm⟩ := h4 k (by rw [h3]; exact hk') hk'
    simp only [List.get_eq_getElem, List.getElem_zip] at hm
    exact ⟨_, _, mid, List.getElem?_eq_getElem (by omega), List.getElem?_eq_getElem (by omega), hm⟩

theorem mem_of_zip {starts ends : List Nat} (hl : starts.length = ends.length) (v : Nat) :
    v ∈ starts ++ ends ↔ ∃ x ∈ starts.zip ends, v = x.1 ∨ v = x.2 := by
  constructor
  · intro h
    rcases List.mem_append.1 h with h | h
    · obtain ⟨k, hk, rfl⟩ := List.getElem_of_mem h
      exact ⟨(starts[k], ends[k]'(by omega)), List.mem_of_getElem? (i := k) (by simp [List.getElem?_zip_eq_some, hk, show k < ends.length by omega]), Or.inl rfl⟩
    · obtain ⟨k, hk, rfl⟩ := List.getElem_of_mem h
      exact ⟨(starts[k]'(by omega), ends[k]), List.mem_of_getElem? (i := k) (by simp [List.getElem?_zip_eq_some, hk, show k < starts.length by omega]), Or.inr rfl⟩
  · rintro ⟨⟨x, y⟩, h, rfl | rfl⟩
    · exact List.mem_append.2 (Or.inl (List.of_mem_zip h).1)
    · exact List.mem_append.2 (Or.inr (List.of_mem_zip h).2)

theorem CArgs.AgentOrderOf.reduces (h : b.AgentOrderOf a) (hr : a.InRange) : a.ReducesTo b := by
  intro P v hP hv
  have hlt := inputCover_lt hP.1 hr.1 hr.2
  have hla : a.startList.length = a.endList.length := by rw [a.startList_length, a.endList_length]
  have hlb : b.startList.length = b.endList.length := by rw [b.startList_length, b.endList_length]
  obtain ⟨h1, h2⟩ := (inputCover_forall₂ hla).1 hP.1
  obtain ⟨P', h3, h4⟩ := List.perm_comp_forall₂ h.agents.symm h1
  refine ⟨P', v, ⟨(inputCover_forall₂ hlb).2 ⟨h3, ?_⟩, ?_⟩, ?_, le_refl _⟩
  · refine ((h4.map middle).flatten).trans ?_
    rw [← h.nodes]
    refine h2.trans ?_
    have : ((List.range a.N).filter fun v => decide (v ∉ a.startList ++ a.endList)) = (List.range a.N).filter fun v => decide (v ∉ b.startList ++ b.endList) := by
      apply List.filter_congr
      intro x _
      simp only [decide_eq_decide]
      rw [not_iff_not, mem_of_zip hla, mem_of_zip hlb]
      constructor
      · rintro ⟨y, hy, e⟩; exact ⟨y, h.agents.mem_iff.1 hy, e⟩
      · rintro ⟨y, hy, e⟩; exact ⟨y, h.agents.mem_iff.2 hy, e⟩
    rw [this]
  · intro u v' hd
    obtain ⟨e1, e2, e3, e4⟩ := hd
    rw [← h.nodes] at e1 e2
    obtain ⟨p, hp, hb⟩ := hP.2 u v' ⟨e1, e2, e3, by rw [← h.weight v' e2 u e1 (Ne.symm e3)]; exact e4⟩
    exact ⟨p, h4.mem_iff.2 hp, hb⟩
  · unfold CArgs.Costs at hv ⊢
    rw [← h.opt]
    refine isObjective_perm h4.symm ((isObjective_congr ?_ v).1 hv)
    apply List.map_congr_left
    intro p hp
    apply pathCost_congr
    intro x hx y hy
    unfold inputCost
    by_cases hxy : x = y
    · simp [hxy]
    · rw [h.weight x (hlt p hp x hx) y (hlt p hp y hy) hxy]

/-! ### C78 -/

/-- one of the changes of an instance that a user knows to be immaterial -/
inductive CArgs.Equivalent (a b : CArgs) : Prop
  | reverse : b.ReverseOf a → Equivalent a b
  | rename (f : Nat → Nat) : b.RenamingOf a f → Equivalent a b
  | agents : b.AgentOrderOf a → Equivalent a b

theorem CArgs.AgentOrderOf.symm (h : b.AgentOrderOf a) : a.AgentOrderOf b :=
  ⟨h.nodes.symm, h.agents.symm, h.opt.symm, fun u hu v hv hne => (h.weight u (by rw [h.nodes]; exact hu) v (by rw [h.nodes]; exact hv) hne).symm⟩

/-- a renaming can be undone -/
theorem CArgs.RenamingOf.symm {f : Nat → Nat} (h : b.RenamingOf a f) (hr : a.InRange) : ∃ g, a.RenamingOf b g := by
  have hsurj : ∀ y, ∃ x, y < a.N → x < a.N ∧ f x = y := by
    intro y
    by_cases hy : y < a.N
    · obtain ⟨x, hx, e⟩ := List.mem_map.1 (h.perm.mem_iff.2 (List.mem_range.2 hy))
      exact ⟨x, fun _ => ⟨List.mem_range.1 hx, e⟩⟩
    · exact ⟨0, fun hy' => absurd hy' hy⟩
  choose g hg using hsurj
  have hgf : ∀ x < a.N, g (f x) = x := fun x hx => by
    obtain ⟨h1, h2⟩ := hg (f x) (h.lt x hx)
    exact h.inj _ h1 _ hx h2
  have hl : ∀ l : List Nat, (∀ x ∈ l, x < a.N) → l = (l.map f).map g := by
    intro l hl
    rw [List.map_map]
    conv_lhs => rw [← List.map_id l]
    apply List.map_congr_left
    intro x hx
    exact (hgf x (hl x hx)).symm
  refine ⟨g, h.nodes.symm, ?_, ?_, ?_, ?_, h.opt.symm, ?_⟩
  · intro y hy
    rw [← h.nodes] at hy ⊢
    exact (hg y hy).1
  · intro x hx y hy e
    rw [← h.nodes] at hx hy
    rw [← (hg x hx).2, ← (hg y hy).2, e]
  · rw [h.starts]; exact hl _ hr.1
  · rw [h.ends]; exact hl _ hr.2
  · intro x hx y hy hne
    rw [← h.nodes] at hx hy
    obtain ⟨x1, x2⟩ := hg x hx
    obtain ⟨y1, y2⟩ := hg y hy
    have : g x ≠ g y := fun e => hne (by rw [← x2, ← y2, e])
    rw [← h.weight _ x1 _ y1 this, x2, y2]

theorem CArgs.Equivalent.reduces (h : a.Equivalent b) (hr : a.InRange) : a.ReducesTo b := by
  cases h with
  | reverse h => exact h.reduces hr
  | rename f h => exact h.reduces hr
  | agents h => exact h.reduces hr

theorem CArgs.Equivalent.symm (h : a.Equivalent b) (hr : a.InRange) : b.Equivalent a := by
  cases h with
  | reverse h => exact .reverse h.symm
  | rename f h => obtain ⟨g, hg⟩ := h.symm hr; exact .rename g hg
  | agents h => exact .agents h.symm

/-- **C78.** Turning all paths round, renaming the nodes or reordering the agents does not change the result: two calls that both
report SOLVED report the same cost. -/
theorem C78_equivalent_instances_partial (hs : a.Equivalent b) (hTa : a.Typed) (hTb : b.Typed) (hL : L.Correct) (hM : M.Correct)
    {o o' : COut}
    (ha : a.Call L t tr (.ret 0 o)) (hb : b.Call M t' tr' (.ret 0 o')) (hca : a.Calm L tr) (hcb : b.Calm M tr')
    (hka : a.Checked o) (hkb : b.Checked o') : ∃ v, o.lower = some v ∧ o.upper = some v ∧ o'.lower = some v ∧ o'.upper = some v := by
  obtain ⟨_, hra, _⟩ := call_success hTa hL ha (le_refl _)
  obtain ⟨v, v', h1, h2, h3, h4, h5⟩ := reduces_solved hs.reduces hTa hTb hL hM ha hb hca hcb hka hkb
  obtain ⟨x, x', e1, _, e3, _, e5⟩ := reduces_solved (hs.symm hra).reduces hTb hTa hM hL hb ha hcb hca hkb hka
  rw [h3] at e1; rw [h1] at e3
  simp only [Option.some.injEq] at e1 e3
  subst e1 e3
  have : v = v' := le_antisymm e5 h5
  subst this
  exact ⟨v, h1, h2, h3, h4⟩

/-- **C78**, bounds: also before the end, the bounds of two such calls never contradict each other. -/
theorem C78_equivalent_bounds_partial (hs : a.Equivalent b) (hTa : a.Typed) (hTb : b.Typed) (hL : L.Correct) (hM : M.Correct)
    {c d : ℤ} {o o' : COut}
    (ha : a.Call L t tr (.ret c o)) (hb : b.Call M t' tr' (.ret d o')) (hc : 0 ≤ c) (hd : 0 ≤ d)
    (hcalm : b.Calm M tr') (hk : a.Checked o) : ∃ lo up, o'.lower = some lo ∧ o.upper = some up ∧ lo ≤ up :=
  reduces_bounds hs.reduces hTa hTb hL hM ha hb hc hd hcalm hk

/-- **C78**, monotonicity: with weights that are nowhere larger, the cost of a SOLVED call is not larger. -/
theorem C78_cheaper_weights_partial (hs : b.CheaperThan a) (hTa : a.Typed) (hTb : b.Typed) (hL : L.Correct) (hM : M.Correct)
    {o o' : COut}
    (ha : a.Call L t tr (.ret 0 o)) (hb : b.Call M t' tr' (.ret 0 o')) (hca : a.Calm L tr) (hcb : b.Calm M tr')
    (hka : a.Checked o) (hkb : b.Checked o') : ∃ v v', o.upper = some v ∧ o'.upper = some v' ∧ v' ≤ v := by
  obtain ⟨v, v', _, h2, _, h4, h5⟩ := reduces_solved hs.reduces hTa hTb hL hM ha hb hca hcb hka hkb
  exact ⟨v, v', h2, h4, h5⟩

/-- **C78**, nothing to check: if the dependencies (if any) only say which agent visits a node, calm calls for equivalent instances that both
report SOLVED report the same cost. -/
theorem C78_depot_dependencies_partial (hs : a.Equivalent b) (hTa : a.Typed) (hTb : b.Typed) (hL : L.Correct) (hM : M.Correct)
    (hda : OnlyDepotDeps a.N a.weight a.startList a.endList) (hdb : OnlyDepotDeps b.N b.weight b.startList b.endList) {o o' : COut}
    (ha : a.Call L t tr (.ret 0 o)) (hb : b.Call M t' tr' (.ret 0 o')) (hca : a.Calm L tr) (hcb : b.Calm M tr') :
    ∃ v, o.lower = some v ∧ o.upper = some v ∧ o'.lower = some v ∧ o'.upper = some v :=
  C78_equivalent_instances_partial hs hTa hTb hL hM ha hb hca hcb (CArgs.checked_of_depots hTa hL hda ha (le_refl _))
    (CArgs.checked_of_depots hTb hM hdb hb (le_refl _))

/-! ### The hypotheses are met -/

/-- a call that ends at once, because the heuristic solution costs nothing, is calm -/
theorem quiet_call {n : Nat} {v : ℚ} {nodes offs : List Nat} (h : callB a exLib t (idle n) false (isRet 0 v v nodes offs) = true) :
    ∃ tr o, a.Call exLib t tr (.ret 0 o) ∧ a.Calm exLib tr ∧ o.lower = some v ∧ o.upper = some v := by
  obtain ⟨tr, x, h1, h2, h3, _, h4, _⟩ := callB_full h
  obtain ⟨o, rfl, hl, hu, _⟩ := isRet_ret h2
  refine ⟨tr, o, h1, ?_, hl, hu⟩
  intro i hi
  obtain ⟨e1, e2, _⟩ := h3 rfl i hi
  refine ⟨e2, Or.inl e1, Or.inr ?_⟩
  intro m _ y rc he
  obtain ⟨z, hz, m', hz'⟩ := h4 i hi y rc he
  rw [List.eq_of_mem_replicate hz] at hz'
  simp at hz'

/-- five nodes, agents from 0 to 1 and from 2 to 3; 0 - 4 - 1 and 2 - 3 cost nothing, everything else costs `c` -/
def c78W (c : ℤ) (u v : Nat) : ℤ := if (u, v) ∈ [(0, 4), (4, 1), (2, 3)] then 0 else c

def c78Args (f : Nat → Nat → ℤ) (starts ends : List Nat) : CArgs := exArgs 2 5 starts ends ((List.range 5).map fun u => (List.range 5).map (f u)) 0

theorem c78_free {a : CArgs} (h : ∀ u < a.N, ∀ v < a.N, a.weight v u ≠ -1) : ∀ u v, ¬ a.Dep u v :=
  fun u v hd => h u hd.1 v hd.2.1 hd.2.2.2

/-- The hypotheses of C78 are met by concrete calls: the instance itself, reversed, with renamed nodes, with the agents in the
other order, and with larger weights. -/
example : (c78Args (fun u v => c78W 5 v u) [1, 3] [0, 2]).ReverseOf (c78Args (c78W 5) [0, 2] [1, 3]) ∧
    (c78Args (fun u v => c78W 5 (4 - u) (4 - v)) [4, 2] [3, 1]).RenamingOf (c78Args (c78W 5) [0, 2] [1, 3]) (4 - ·) ∧
    (c78Args (c78W 5) [2, 0] [3, 1]).AgentOrderOf (c78Args (c78W 5) [0, 2] [1, 3]) ∧
    (c78Args (c78W 5) [0, 2] [1, 3]).CheaperThan (c78Args (c78W 9) [0, 2] [1, 3]) ∧
    ∀ a ∈ [c78Args (c78W 5) [0, 2] [1, 3], c78Args (fun u v => c78W 5 v u) [1, 3] [0, 2], c78Args (fun u v => c78W 5 (4 - u) (4 - v)) [4, 2] [3, 1],
      c78Args (c78W 5) [2, 0] [3, 1], c78Args (c78W 9) [0, 2] [1, 3]],
      a.Typed ∧
      ∃ tr o, a.Call exLib 100 tr (.ret 0 o) ∧ a.Calm exLib tr ∧ a.Checked o ∧ o.upper = some 0 := by
  refine ⟨⟨rfl, by decide, by decide, rfl, by decide +kernel⟩, ⟨rfl, by decide +kernel, by decide +kernel, by decide, by decide, rfl, by decide +kernel⟩,
    ⟨rfl, by decide, rfl, by decide +kernel⟩, ⟨rfl, rfl, rfl, rfl, by decide +kernel, by decide +kernel⟩, ?_⟩
  have key : ∀ a : CArgs, a.Typed → (∀ u < a.N, ∀ v < a.N, a.weight v u ≠ -1) → (∃ nodes offs, callB a exLib 100 (idle 3) false (isRet 0 0 0 nodes offs) = true) →
      a.Typed ∧
      ∃ tr o, a.Call exLib 100 tr (.ret 0 o) ∧ a.Calm exLib tr ∧ a.Checked o ∧ o.upper = some 0 := by
    rintro a hT hd ⟨nodes, offs, h⟩
    obtain ⟨tr, o, h1, h2, h3, h4⟩ := quiet_call h
    exact ⟨hT, tr, o, h1, h2, CArgs.checked_of_free o (c78_free hd), h4⟩
  intro a ha
  simp only [List.mem_cons, List.not_mem_nil, or_false] at ha
  rcases ha with rfl | rfl | rfl | rfl | rfl
  · exact key _ (exArgs_typed (by decide) (by decide) (by decide)) (by decide +kernel) ⟨[0, 4, 1, 2, 3], [0, 3], by decide +kernel⟩
  · exact key _ (exArgs_typed (by decide) (by decide) (by decide)) (by decide +kernel) ⟨[1, 4, 0, 3, 2], [0, 3], by decide +kernel⟩
  · exact key _ (exArgs_typed (by decide) (by decide) (by decide)) (by decide +kernel) ⟨[4, 0, 3, 2, 1], [0, 3], by decide +kernel⟩
  · exact key _ (exArgs_typed (by decide) (by decide) (by decide)) (by decide +kernel) ⟨[2, 3, 0, 4, 1], [0, 2], by decide +kernel⟩
  · exact key _ (exArgs_typed (by decide) (by decide) (by decide)) (by decide +kernel) ⟨[0, 4, 1, 2, 3], [0, 3], by decide +kernel⟩

end
end Mtsp
