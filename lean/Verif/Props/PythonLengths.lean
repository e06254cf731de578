import Verif.Props.Certified
import Verif.Props.Python

/-! C80: the lengths the Python function returns and the upper bound it returns. -/

namespace Mtsp

section
variable {a : CArgs} {L : Lib} {t : Nat} {tr : List (Nat × Inp)}

/-- what is shown of a path contains all its nodes -/
theorem mem_shown {N : Nat} {starts ends : List Nat} {P : Paths} (h : InputCover N starts ends P) {k : Nat} {p : List Nat} (hp : P[k]? = some p) {x : Nat}
    (hx : x ∈ p) : ∃ q, (shown starts ends P)[k]? = some q ∧ x ∈ q := by
  refine ⟨_, by rw [shown_getElem?, hp]; rfl, ?_⟩
  obtain ⟨s, e, mid, e1, e2, rfl⟩ := h.shape k p hp
  split
  · rename_i heq
    rw [e1, e2] at heq
    simp only [Option.some.injEq] at heq
    subst heq
    show x ∈ (s :: mid ++ [s]).dropLast
    rw [List.dropLast_concat]
    simp at hx ⊢
    tauto
  · exact hx

/-- if no node is a depot of two agents, no node is shown twice -/
theorem shown_nodup {P : Paths} (h : InputCover a.N a.startList a.endList P) (hr : a.InRange) (hd : (depotUses a.startList a.endList).Nodup) :
    (shown a.startList a.endList P).flatten.Nodup := by
  have hlen := ((shown_total h).2 hr).2.2 hd
  have hsub : (List.range a.N).Subperm (shown a.startList a.endList P).flatten := by
    refine List.nodup_range.subperm ?_
    intro v hv
    rw [List.mem_range] at hv
    have : ∃ (k : Nat) (p : List Nat), P[k]? = some p ∧ v ∈ p := by
      by_cases hv' : v ∈ a.startList ++ a.endList
      · rcases List.mem_append.1 hv' with hm | hm
        · obtain ⟨k, hk, rfl⟩ := List.getElem_of_mem hm
          have hkP : k < P.length := by rw [h.len]; exact hk
          obtain ⟨s, e, mid, e1, e2, e3⟩ := h.shape k _ (List.getElem?_eq_getElem hkP)
          rw [List.getElem?_eq_getElem hk] at e1
          simp only [Option.some.injEq] at e1
          exact ⟨k, _, List.getElem?_eq_getElem hkP, by rw [e3, e1]; simp⟩
        · obtain ⟨k, hk, rfl⟩ := List.getElem_of_mem hm
          have hkP : k < P.length := by rw [h.len, a.startList_length, ← a.endList_length]; exact hk
          obtain ⟨s, e, mid, e1, e2, e3⟩ := h.shape k _ (List.getElem?_eq_getElem hkP)
          rw [List.getElem?_eq_getElem hk] at e2
          simp only [Option.some.injEq] at e2
          exact ⟨k, _, List.getElem?_eq_getElem hkP, by rw [e3, e2]; simp⟩
      · have : v ∈ (P.map middle).flatten := h.rest.mem_iff.2 (by simp at hv' ⊢; exact ⟨hv, hv'⟩)
        obtain ⟨q, hq, hvq⟩ := List.mem_flatten.1 this
        obtain ⟨p, hp, rfl⟩ := List.mem_map.1 hq
        obtain ⟨k, hk, rfl⟩ := List.getElem_of_mem hp
        exact ⟨k, _, List.getElem?_eq_getElem hk, List.mem_of_mem_tail (List.mem_of_mem_dropLast hvq)⟩
    obtain ⟨k, p, hp, hvp⟩ := this
    obtain ⟨q, hq, hvq⟩ := mem_shown h hp hvp
    exact List.mem_flatten.2 ⟨q, List.mem_of_getElem? hq, hvq⟩
  have := hsub.perm_of_length_le (by rw [hlen, List.length_range])
  exact this.nodup_iff.1 List.nodup_range

theorem same_of_flatten_nodup {W : Paths} (h : W.flatten.Nodup) {i j : Nat} {p q : List Nat} {x : Nat} (hp : W[i]? = some p) (hq : W[j]? = some q)
    (hx : x ∈ p) (hy : x ∈ q) : i = j := by
  by_contra hne
  obtain ⟨_, h2⟩ := List.nodup_flatten.1 h
  obtain ⟨hi, rfl⟩ := List.getElem?_eq_some_iff.1 hp
  obtain ⟨hj, rfl⟩ := List.getElem?_eq_some_iff.1 hq
  rcases Nat.lt_or_gt_of_ne hne with hl | hl
  · exact (List.pairwise_iff_getElem.1 h2 i j hi hj hl) hx hy
  · exact (List.pairwise_iff_getElem.1 h2 j i hj hi hl) hy hx

/-- on a path that respects the dependencies no arc carries a dependency flag, apart from the arc back to the depot of a round trip -/
theorem arc_weight {P : Paths} (h : InputCover a.N a.startList a.endList P) (hr : a.InRange) (hd : (depotUses a.startList a.endList).Nodup)
    (hR : Respects a.Dep P) (hround : ∀ (k s : Nat), a.startList[k]? = some s → a.endList[k]? = some s → ∀ v, ¬ a.Dep s v ∧ ¬ a.Dep v s)
    {k : Nat} {p : List Nat} (hp : P[k]? = some p) {l1 l2 : List Nat} {x y : Nat} (he : p = l1 ++ x :: y :: l2) (hxy : x ≠ y) : a.weight x y ≠ -1 := by
  intro hw
  have hlt := inputCover_lt h hr.1 hr.2 p (List.mem_of_getElem? hp)
  have hdep : a.Dep y x := ⟨hlt y (by rw [he]; simp), hlt x (by rw [he]; simp), Ne.symm hxy, hw⟩
  obtain ⟨q, hq, hb⟩ := hR y x hdep
  obtain ⟨k', hk', rfl⟩ := List.getElem_of_mem hq
  have hq' : P[k']? = some P[k'] := List.getElem?_eq_getElem hk'
  have hnd := shown_nodup h hr hd
  obtain ⟨p1, hp1, hx1⟩ := mem_shown h hp (x := x) (by rw [he]; simp)
  obtain ⟨p2, hp2, hx2⟩ := mem_shown h hq' (x := x) (by obtain ⟨a1, a2, a3, e⟩ := hb; rw [e]; simp)
  have hkk := same_of_flatten_nodup hnd hp1 hp2 hx1 hx2
  subst hkk
  rw [hp] at hq'
  simp only [Option.some.injEq] at hq'
  rw [← hq'] at hb
  have hndp1 : p1.Nodup := (List.nodup_flatten.1 hnd).1 p1 (List.mem_of_getElem? hp1)
  have hb' : Before p x y := ⟨l1, [], l2, by rw [he]; simp⟩
  rw [shown_getElem?, hp] at hp1
  simp only [Option.map_some, Option.some.injEq] at hp1
  obtain ⟨s, e, mid, e1, e2, e3⟩ := h.shape k p hp
  by_cases hse : a.startList[k]? = a.endList[k]?
  · rw [if_pos hse] at hp1
    have : s = e := by rw [e1, e2] at hse; simpa using hse
    subst this
    have hys : y ≠ s := by rintro rfl; exact (hround k _ e1 e2 x).1 hdep
    have hxs : x ≠ s := by rintro rfl; exact (hround k _ e1 e2 y).2 hdep
    have hcut : ∀ {u v : Nat}, v ≠ s → Before p u v → Before p1 u v := by
      intro u v hv hbv
      rw [e3, List.dropLast_concat] at hp1
      rw [← hp1]
      rw [e3, before_iff_sublist] at hbv
      rw [before_iff_sublist]
      obtain ⟨r1, r2, er, hr1, hr2⟩ := List.sublist_append_iff.1 hbv
      cases r2 using List.reverseRecOn with
      | nil => rw [er, List.append_nil]; exact hr1
      | append_singleton r z =>
        have hz : z = s := by
          have : z ∈ [s] := hr2.subset (by simp)
          simpa using this
        have : v = z := by
          have h5 : [u] ++ [v] = (r1 ++ r) ++ [z] := by rw [List.append_assoc]; exact er
          have := List.append_inj_right' h5 rfl
          simpa using this
        exact absurd (this.trans hz) hv
    exact Before.asymm hndp1 (hcut hxs hb) (hcut hys hb')
  · rw [if_neg hse] at hp1
    rw [hp1] at hb hb'
    exact Before.asymm hndp1 hb hb'

/-- the length the Python function computes for a path, as in C66 -/
theorem length_eq_cost {P : Paths} (h : InputCover a.N a.startList a.endList P) (hr : a.InRange) (hd : (depotUses a.startList a.endList).Nodup)
    (hR : Respects a.Dep P) (hround : ∀ (k s : Nat), a.startList[k]? = some s → a.endList[k]? = some s → ∀ v, ¬ a.Dep s v ∧ ¬ a.Dep v s)
    {p : List Nat} (hp : p ∈ P) : (if p.head? = p.getLast? ∧ p.length = 2 then 0 else pathCost a.weight p) = pathCost (inputCost a.weight) p := by
  obtain ⟨k, hk, rfl⟩ := List.getElem_of_mem hp
  have hp' : P[k]? = some P[k] := List.getElem?_eq_getElem hk
  obtain ⟨s, e, mid, e1, e2, e3⟩ := h.shape k _ hp'
  by_cases hc : P[k].head? = P[k].getLast? ∧ P[k].length = 2
  · rw [if_pos hc]
    rw [e3] at hc ⊢
    have hm : mid = [] := by
      have := hc.2
      simp at this
      exact this
    subst hm
    have : s = e := by simpa using hc.1
    subst this
    simp [pathCost, inputCost]
  · rw [if_neg hc]
    have := pathCost_map_of a.weight (inputCost a.weight) id P[k] ?_
    · rwa [List.map_id] at this
    · intro l1 x y l2 he
      have hxy : x ≠ y := by
        rintro rfl
        -- two equal nodes in a row: only in a round trip that does not leave its depot
        have hnd := shown_nodup h hr hd
        have hsh : (shown a.startList a.endList P)[k]? = some (if a.startList[k]? = a.endList[k]? then P[k].dropLast else P[k]) := by
          rw [shown_getElem?, hp']; rfl
        have hndk := (List.nodup_flatten.1 hnd).1 _ (List.mem_of_getElem? hsh)
        by_cases hse : a.startList[k]? = a.endList[k]?
        · rw [if_pos hse] at hndk
          cases l2 using List.reverseRecOn with
          | nil =>
            rw [e1, e2] at hse
            simp only [Option.some.injEq] at hse
            subst hse
            rw [he, show l1 ++ [x, x] = (l1 ++ [x]) ++ [x] by simp, List.dropLast_concat] at hndk
            have hx : x = s := by
              have h5 : s :: mid ++ [s] = (l1 ++ [x]) ++ [x] := by rw [← e3, he]; simp
              have := List.append_inj_right' h5 rfl
              simpa using this.symm
            subst hx
            cases l1 with
            | nil => exact hc (by rw [he]; simp)
            | cons z l1 =>
              have hz : z = x := by
                have h5 : x :: mid ++ [x] = z :: l1 ++ [x, x] := by rw [← e3, he]
                simp at h5
                exact h5.1.symm
              subst hz
              simp at hndk
          | append_singleton l2 z =>
            rw [he, show l1 ++ x :: x :: (l2 ++ [z]) = (l1 ++ x :: x :: l2) ++ [z] by simp, List.dropLast_concat] at hndk
            have := (List.nodup_append.1 hndk).2.1
            simp at this
        · rw [if_neg hse, he] at hndk
          have := (List.nodup_append.1 hndk).2.1
          simp at this
      have hw := arc_weight h hr hd hR hround hp' he hxy
      unfold inputCost
      rw [if_neg (by rintro (h' | h'); exacts [hxy h', hw h'])]
      rfl

/-- splitting the list of depots at an agent -/
theorem depotUses_split : ∀ (ss es : List Nat) (k : Nat), depotUses ss es = depotUses (ss.take k) (es.take k) ++ depotUses (ss.drop k) (es.drop k)
  | _, _, 0 => by simp [depotUses]
  | [], es, k + 1 => by simp [depotUses]
  | s :: ss, [], k + 1 => by simp [depotUses]
  | s :: ss, e :: es, k + 1 => by
    simp only [depotUses, List.take_succ_cons, List.drop_succ_cons, List.append_assoc]
    rw [depotUses_split ss es k]

/-- the depot of a round trip is first used as a start, if no node is a depot of two agents -/
theorem roundTrip_firstStart (hd : (depotUses a.startList a.endList).Nodup) {k s : Nat} (h1 : a.startList[k]? = some s) (h2 : a.endList[k]? = some s) :
    FirstStart a.startList a.endList s := by
  refine ⟨k, h1, fun hm => ?_⟩
  have hl : a.startList.length = a.endList.length := by rw [a.startList_length, a.endList_length]
  rw [depotUses_split _ _ k, List.nodup_append] at hd
  have m1 : s ∈ depotUses (a.startList.take k) (a.endList.take k) := by
    rw [mem_depotUses _ _ (by simp [hl])]
    exact List.mem_append.2 (Or.inr hm)
  have m2 : s ∈ depotUses (a.startList.drop k) (a.endList.drop k) := by
    rw [mem_depotUses _ _ (by simp [hl])]
    refine List.mem_append.2 (Or.inl (List.mem_of_getElem? (i := 0) ?_))
    rw [List.getElem?_drop]; exact h1
  exact hd.2.2 s m1 s m2 rfl

/-- **C80 (partial).** The lengths that the Python function returns add up to the upper bound it returns (objective "sum"), or the largest of them
is the upper bound (objective "max"); for outputs that respect the dependencies, if no node is a depot of two agents and no dependency
starts at the depot of a round trip. -/
theorem C80_lengths_match_bound_partial (hT : a.Typed) (hL : L.Correct)
    (hd : (depotUses a.startList a.endList).Nodup)
    (hround : ∀ (k s : Nat), a.startList[k]? = some s → a.endList[k]? = some s → ∀ v, ¬ a.Dep s v)
    {c : ℤ} {o : COut} (h : a.Call L t tr (.ret c o)) (hc : 0 ≤ c) (hk : a.Checked o) :
    ∃ P lens up, pyResult a (.ret c o) = some (.ok (P, lens)) ∧ o.upper = some up ∧
      (a.opt = .sum → up = lens.sum) ∧ (a.opt = .max → up ∈ lens ∧ ∀ l ∈ lens, l ≤ up) := by
  obtain ⟨P, up, hP, hcost, hup, hlay⟩ := checked_solution hT hL h hc hk
  obtain ⟨P', lens, hP', hlay', hpy, hlens⟩ := C66_lengths hT hL hd h hc
  have := shown_inj hP' hP.1 (layout_unique hlay' hlay)
  subst this
  obtain ⟨hA, hr, _⟩ := call_success hT hL h hc
  have hin : ∀ v, ∀ (k s : Nat), a.startList[k]? = some s → a.endList[k]? = some s → ¬ a.Dep v s := by
    intro v k s h1 h2 hdep
    have hcode := (C46_dependency_codes hT hA hr hL h).1.2 (Or.inr (Or.inl ⟨v, s, hdep, roundTrip_firstStart hd h1 h2⟩))
    rcases hcode with hcode | hcode
    · simp only [CEnd.ret.injEq] at hcode; omega
    · simp only [CEnd.ret.injEq] at hcode; omega
  have hl : lens = P'.map (pathCost (inputCost a.weight)) := by
    rw [hlens]
    apply List.map_congr_left
    intro p hp
    exact length_eq_cost hP.1 hr hd hP.2 (fun k s h1 h2 v => ⟨hround k s h1 h2 v, hin v k s h1 h2⟩) hp
  refine ⟨_, lens, up, hpy, hup, ?_, ?_⟩
  · intro hs
    unfold CArgs.Costs at hcost
    rw [hs] at hcost
    rw [show up = _ from hcost, hl]
    unfold sumCost
    congr 1
    apply List.ext_getElem?
    intro i
    simp
  · intro hm
    unfold CArgs.Costs at hcost
    rw [hm] at hcost
    obtain ⟨h0, h1, h2⟩ := hcost
    have hle : ∀ l ∈ lens, l ≤ up := by
      intro l hll
      rw [hl] at hll
      obtain ⟨p, hp, rfl⟩ := List.mem_map.1 hll
      obtain ⟨k, hk', rfl⟩ := List.getElem_of_mem hp
      exact h1 k _ (List.getElem?_eq_getElem hk')
    refine ⟨?_, hle⟩
    rcases h2 with h2 | ⟨k, p, hp, e⟩
    · have hlen : 0 < P'.length := by rw [hP.1.len, a.startList_length]; exact Nat.pos_of_ne_zero hA.agents
      have hmem : pathCost (inputCost a.weight) P'[0] ∈ lens := by rw [hl]; exact List.mem_map.2 ⟨_, List.getElem_mem hlen, rfl⟩
      have hge : 0 ≤ pathCost (inputCost a.weight) P'[0] := by
        apply pathCost_nonneg
        intro u hu v hv
        have hlt := inputCover_lt hP.1 hr.1 hr.2 _ (List.getElem_mem hlen)
        unfold inputCost
        split
        · exact le_refl _
        · rename_i hne
          obtain ⟨z, h5, h6, h7⟩ := hT.intWeights hA.pointers.2.2.1 u (hlt u hu) v (hlt v hv)
          rw [h5] at hne ⊢
          have : z ≠ -1 := fun e => hne (Or.inr (by rw [e]; norm_num))
          have : (0 : ℤ) ≤ z := by omega
          exact_mod_cast this
      have : pathCost (inputCost a.weight) P'[0] = up := le_antisymm (hle _ hmem) (by rw [h2]; exact hge)
      rw [← this]; exact hmem
    · rw [hl, ← e]
      exact List.mem_map.2 ⟨p, List.mem_of_getElem? hp, rfl⟩

/-- **C80 (partial)**, nothing to check: the same if the dependencies (if any) only say which agent visits a node. -/
theorem C80_depot_dependencies_partial (hT : a.Typed) (hL : L.Correct) (hdd : OnlyDepotDeps a.N a.weight a.startList a.endList)
    (hd : (depotUses a.startList a.endList).Nodup)
    (hround : ∀ (k s : Nat), a.startList[k]? = some s → a.endList[k]? = some s → ∀ v, ¬ a.Dep s v)
    {c : ℤ} {o : COut} (h : a.Call L t tr (.ret c o)) (hc : 0 ≤ c) :
    ∃ P lens up, pyResult a (.ret c o) = some (.ok (P, lens)) ∧ o.upper = some up ∧
      (a.opt = .sum → up = lens.sum) ∧ (a.opt = .max → up ∈ lens ∧ ∀ l ∈ lens, l ≤ up) :=
  C80_lengths_match_bound_partial hT hL hd hround h hc (CArgs.checked_of_depots hT hL hdd h hc)

/-- a round trip from node 0 through three nodes, node 0 before node 2 -/
def c80Args : CArgs := exArgs 1 3 [0] [0] [[0, 0, 5], [5, 0, 0], [-1, 5, 0]] 0

/-- **C80 is false in full**: a round trip from node 0 whose last node depends on node 0 (which holds for every round trip).  The solver
reports cost 0, the Python function a length of -1: it counts the dependency flag as the length of the way home. -/
theorem C80_refuted : ∃ (a : CArgs) (L : Lib) (t : Nat) (tr : List (Nat × Inp)) (o : COut), a.Typed ∧ L.Correct ∧
    OnlyDepotDeps a.N a.weight a.startList a.endList ∧ (depotUses a.startList a.endList).Nodup ∧ a.Calm L tr ∧ a.Call L t tr (.ret 0 o) ∧ a.opt = .sum ∧
    o.lower = some 0 ∧ o.upper = some 0 ∧ pyResult a (.ret 0 o) = some (.ok ([[0, 1, 2]], [-1])) := by
  obtain ⟨tr, x, h1, h2, h3⟩ := callB_sound (a := c80Args) (L := exLib) (t := 100) (script := idle 3) (late := false)
    (p := fun x => isRet 0 0 0 [0, 1, 2] [0] x && match pyResult c80Args x with | some (.ok (P, l)) => decide (P = [[0, 1, 2]]) && decide (l = [-1]) | _ => false)
    (by decide +kernel)
  rw [Bool.and_eq_true] at h2
  obtain ⟨h2, h4⟩ := h2
  obtain ⟨o, rfl, hl, hu, hp, ho⟩ := isRet_ret h2
  refine ⟨c80Args, exLib, 100, tr, o, exArgs_typed (by decide) (by decide) (by decide), exLib_correct, ?_, by decide, ?_, h1, rfl, hl, hu, ?_⟩
  · have key : ∀ u < 3, ∀ v < 3, c80Args.weight v u = -1 → u = 0 ∧ v = 2 := by decide +kernel
    refine ⟨?_, ?_⟩
    · rintro u v ⟨hu, hv, _, hw⟩
      obtain ⟨rfl, rfl⟩ := key u hu v hv hw
      exact Or.inl (by decide)
    · rintro u v b ⟨hu, hv, _, hw⟩ hb
      obtain ⟨rfl, rfl⟩ := key u hu v hv hw
      exact absurd (List.mem_of_getElem? hb) (by decide)
  · intro i hi
    obtain ⟨e1, e2, _⟩ := h3 rfl i hi
    exact ⟨e2, Or.inl e1, Or.inl rfl⟩
  · split at h4
    · rename_i P l heq
      rw [heq]
      simp only [Bool.and_eq_true, decide_eq_true_eq] at h4
      rw [h4.1, h4.2]
    · simp at h4

/-- The hypotheses of the positive theorem are met by the call of `C77`'s example instance: not a round trip, with a dependency. -/
example : (depotUses c77Args.startList c77Args.endList).Nodup ∧
    ∀ (k s : Nat), c77Args.startList[k]? = some s → c77Args.endList[k]? = some s → ∀ v, ¬ c77Args.Dep s v := by
  refine ⟨by decide, ?_⟩
  intro k s h1 h2
  have e1 : c77Args.startList = [0] := by decide
  have e2 : c77Args.endList = [3] := by decide
  rw [e1] at h1
  rw [e2] at h2
  cases k with
  | zero => simp at h1 h2; omega
  | succ k => simp at h1

end
end Mtsp
