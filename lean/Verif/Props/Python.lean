import Verif.Props.CApi

/-! C49, C66: the Python function. -/

namespace Mtsp
open Relation

section
variable {a : CArgs} {L : Lib} {t : Nat} {tr : List (Nat × Inp)} {x : CEnd}

/-- an accepted call with a non-negative code, for the wrapper's purposes -/
theorem call_success (hT : a.Typed) (hL : L.Correct) {c : ℤ} {o : COut} (h : a.Call L t tr (.ret c o)) (hc : 0 ≤ c) :
    a.Accepted ∧ a.InRange ∧ ∃ P, InputCover a.N a.startList a.endList P ∧ Layout (shown a.startList a.endList P) o := by
  have hA : a.Accepted := by
    rcases accepted_of_call h with hA | ⟨c', h1, h2⟩
    · exact hA
    · simp only [CEnd.ret.injEq] at h1
      obtain ⟨rfl, _⟩ := h1
      rcases h2 with rfl | rfl | rfl <;> norm_num at hc
  have hc0 : ∀ z : ℤ, z < 0 → ∀ o', (CEnd.ret c o) ≠ .ret z o' := by
    intro z hz o' he
    simp only [CEnd.ret.injEq] at he
    omega
  rcases try_cases hT hA hL (h.try hA) with ⟨h1, _⟩ | ⟨_, h1, _⟩ | ⟨_, h1, _⟩ | ⟨hr, m, _, _, ⟨h1, _⟩ | ⟨h1, _⟩ | ⟨h1, _⟩ | ⟨h1, _⟩ |
      ⟨_, o', lo, up, P, h1, h2, h3, h4, h5, h6⟩⟩
  · exact absurd h1 (hc0 _ (by norm_num) _)
  · exact absurd h1 (hc0 _ (by norm_num) _)
  · exact absurd h1 (hc0 _ (by norm_num) _)
  · exact absurd h1 (hc0 _ (by norm_num) _)
  · exact absurd h1 (hc0 _ (by norm_num) _)
  · simp at h1
  · simp at h1
  · simp only [CEnd.ret.injEq] at h1
    obtain ⟨_, rfl⟩ := h1
    exact ⟨hA, hr, P, h5, h6⟩

theorem buffer_eq {W : Paths} {o : COut} (h : Layout W o) {M : Nat} (hM : W.flatten.length ≤ M) :
    (List.range M).map o.bufferAt = W.flatten ++ List.replicate (M - W.flatten.length) 0 := by
  apply List.ext_getElem?
  intro i
  rw [List.getElem?_map]
  by_cases hi : i < M
  · rw [List.getElem?_range hi]
    simp only [Option.map_some, COut.bufferAt, h.nodes]
    by_cases hl : i < W.flatten.length
    · rw [List.getElem?_append_left hl, List.getElem?_eq_getElem hl]; rfl
    · rw [List.getElem?_eq_none (by omega), List.getElem?_append_right (by omega), List.getElem?_replicate, if_pos (by omega)]; rfl
  · rw [List.getElem?_eq_none (by rw [List.length_range]; omega),
      List.getElem?_eq_none (by rw [List.length_append, List.length_replicate]; omega)]; rfl

theorem flatten_split_at {W : Paths} {k : Nat} {q : List Nat} (hq : W[k]? = some q) :
    W.flatten = (W.take k).flatten ++ (q ++ (W.drop (k + 1)).flatten) := by
  have htake : W.take (k + 1) = W.take k ++ [q] := by rw [List.take_add_one, hq]; rfl
  conv_lhs => rw [← List.take_append_drop (k + 1) W, htake]
  simp

theorem take_flatten_length {W : Paths} {k : Nat} {q : List Nat} (hq : W[k]? = some q) :
    (W.take (k + 1)).flatten.length = (W.take k).flatten.length + q.length := by
  have htake : W.take (k + 1) = W.take k ++ [q] := by rw [List.take_add_one, hq]; rfl
  rw [htake]; simp

/-- the slice of an agent that is not the last is its path -/
theorem pyPath_inner {W : Paths} {o : COut} (h : Layout W o) {A N : Nat} (hA : W.length = A) (hM : W.flatten.length ≤ 2 * A + N) {k : Nat}
    (hk : k + 1 < A) {q : List Nat} (hq : W[k]? = some q) : pyPath A N o k = q := by
  unfold pyPath COut.offsetAt
  dsimp only
  rw [h.offs, h.offs, if_pos (show k < W.length by omega), if_pos hk, if_pos (show k + 1 < W.length by omega), buffer_eq h hM, flatten_split_at hq]
  simp only [Option.getD_some, take_flatten_length hq]
  rw [List.append_assoc, List.append_assoc, List.drop_take, Nat.add_sub_cancel_left, List.drop_left, List.take_left]

/-- of the last agent's path the wrapper takes the nodes up to position `N` of the buffer -/
theorem pyPath_last {W : Paths} {o : COut} (h : Layout W o) {A N : Nat} (hA : W.length = A) (hM : W.flatten.length ≤ 2 * A + N) (hN : N ≤ W.flatten.length)
    {k : Nat} (hk : k + 1 = A) {q : List Nat} (hq : W[k]? = some q) : pyPath A N o k = q.take (N - (W.take k).flatten.length) := by
  unfold pyPath COut.offsetAt
  dsimp only
  rw [h.offs, if_pos (by omega), if_neg (by omega), buffer_eq h hM]
  simp only [Option.getD_some]
  rw [List.take_append_of_le_length hN]
  have hd : W.drop (k + 1) = [] := List.drop_eq_nil_of_le (by omega)
  rw [flatten_split_at hq, hd, List.flatten_nil, List.append_nil, List.drop_take, List.drop_left]

/-- the paths the wrapper returns -/
def pyPaths (a : CArgs) (o : COut) : List (List Nat) := (List.range a.A).map (pyPath a.A a.N o)

/-- **C49, exact condition.** The Python function returns the paths that the C function wrote exactly if no node is used as a
depot by two agents; otherwise only the last agent's path differs: it lacks at least its last node. -/
theorem C49_complete_iff (hT : a.Typed) (hL : L.Correct) {c : ℤ} {o : COut} (h : a.Call L t tr (.ret c o)) (hc : 0 ≤ c) :
    ∃ P, InputCover a.N a.startList a.endList P ∧ Layout (shown a.startList a.endList P) o ∧
      (pyPaths a o = shown a.startList a.endList P ↔ (depotUses a.startList a.endList).Nodup) ∧
      (∀ k, k + 1 < a.A → (pyPaths a o)[k]? = (shown a.startList a.endList P)[k]?) ∧
      ∀ p q, (pyPaths a o)[a.A - 1]? = some p → (shown a.startList a.endList P)[a.A - 1]? = some q →
        p <+: q ∧ (p = q ↔ (depotUses a.startList a.endList).Nodup) := by
  obtain ⟨hA, hr, P, hP, hlay⟩ := call_success hT hL h hc
  refine ⟨P, hP, hlay, ?_⟩
  obtain ⟨h1, h2⟩ := shown_total hP
  obtain ⟨h3, h4⟩ := h2 hr
  have hl : (shown a.startList a.endList P).length = a.A := by rw [shown_length, hP.len, a.startList_length]
  have hpos := Nat.pos_of_ne_zero hA.agents
  set W := shown a.startList a.endList P with hW
  have hM : W.flatten.length ≤ 2 * a.A + a.N := by omega
  have hpl : (pyPaths a o).length = a.A := by simp [pyPaths]
  have hpk : ∀ k, k < a.A → (pyPaths a o)[k]? = some (pyPath a.A a.N o k) := by
    intro k hk; simp [pyPaths, List.getElem?_range hk]
  have hin : ∀ k, k + 1 < a.A → (pyPaths a o)[k]? = W[k]? := by
    intro k hk
    obtain ⟨q, hq⟩ : ∃ q, W[k]? = some q := ⟨_, List.getElem?_eq_getElem (by omega)⟩
    rw [hpk k (by omega), hq, pyPath_inner hlay hl hM hk hq]
  obtain ⟨q, hq⟩ : ∃ q, W[a.A - 1]? = some q := ⟨_, List.getElem?_eq_getElem (by omega)⟩
  have hlast : (pyPaths a o)[a.A - 1]? = some (q.take (a.N - (W.take (a.A - 1)).flatten.length)) := by
    rw [hpk _ (by omega), pyPath_last hlay hl hM h3 (by omega) hq]
  have htot : W.flatten.length = (W.take (a.A - 1)).flatten.length + q.length := by
    have := take_flatten_length hq
    rwa [List.take_of_length_le (by omega)] at this
  -- the last agent's path is complete iff exactly N nodes were written; its own path is not empty
  have hqne : 0 < q.length := by
    have hPl : P.length = a.A := by rw [hP.len, a.startList_length]
    have hp : P[a.A - 1]? = some P[a.A - 1] := List.getElem?_eq_getElem (by omega)
    obtain ⟨s, e, mid, e1, e2, e3⟩ := hP.shape _ _ hp
    have : W[a.A - 1]? = some (if a.startList[a.A - 1]? = a.endList[a.A - 1]? then P[a.A - 1].dropLast else P[a.A - 1]) := by
      rw [hW]; unfold shown; rw [List.getElem?_mapIdx, hp]; rfl
    rw [hq] at this
    simp only [Option.some.injEq] at this
    rw [this, e3]
    split <;> simp
  have hpq : q.take (a.N - (W.take (a.A - 1)).flatten.length) = q ↔ W.flatten.length = a.N := by
    rw [List.take_eq_self_iff]
    omega
  have hlastIff : ∀ p q', (pyPaths a o)[a.A - 1]? = some p → W[a.A - 1]? = some q' → p <+: q' ∧ (p = q' ↔ (depotUses a.startList a.endList).Nodup) := by
    intro p q' hp hq'
    rw [hlast] at hp
    rw [hq] at hq'
    simp only [Option.some.injEq] at hp hq'
    subst hp hq'
    exact ⟨List.take_prefix _ _, hpq.trans h4⟩
  refine ⟨?_, hin, hlastIff⟩
  constructor
  · intro he
    exact (hlastIff q q (by rw [he, hq]) hq).2.1 rfl
  · intro hn
    apply List.ext_getElem?
    intro k
    by_cases hk : k + 1 < a.A
    · exact hin k hk
    · by_cases hk2 : k = a.A - 1
      · subst hk2
        rw [hlast, hq, hpq.2 (h4.2 hn)]
      · rw [List.getElem?_eq_none (by omega), List.getElem?_eq_none (by omega)]

/-- **C49 (partial).** If no node is a depot of two agents, the Python function returns the complete paths. -/
theorem C49_complete_partial (hT : a.Typed) (hL : L.Correct) (hd : (depotUses a.startList a.endList).Nodup) {c : ℤ} {o : COut}
    (h : a.Call L t tr (.ret c o)) (hc : 0 ≤ c) :
    ∃ P, InputCover a.N a.startList a.endList P ∧ Layout (shown a.startList a.endList P) o ∧
      ∃ lens, pyResult a (.ret c o) = some (.ok (shown a.startList a.endList P, lens)) := by
  obtain ⟨P, h1, h2, h3, _⟩ := C49_complete_iff hT hL h hc
  refine ⟨P, h1, h2, ?_⟩
  have := h3.2 hd
  refine ⟨(List.range a.A).map fun k => pyLength a.weight a.startList a.endList k ((shown a.startList a.endList P).getD k []), ?_⟩
  unfold pyResult
  dsimp only
  rw [if_neg (by omega)]
  rw [show (List.range a.A).map (pyPath a.A a.N o) = shown a.startList a.endList P from this]

/-! ### C66: the lengths -/

theorem sum_pairs (w : Weights) : ∀ p : List Nat, ((List.range (p.length - 1)).map fun i => w (p.getD i 0) (p.getD (i + 1) 0)).sum = pathCost w p
  | [] => rfl
  | [_] => rfl
  | x :: y :: p => by
    have ih := sum_pairs w (y :: p)
    simp only [List.length_cons, Nat.add_sub_cancel] at ih ⊢
    rw [List.range_succ_eq_map, List.map_cons, List.sum_cons, List.map_map, pathCost, ← ih]
    congr 1

theorem pathCost_concat (w : Weights) : ∀ (s : Nat) (mid : List Nat) (e : Nat), pathCost w (s :: mid ++ [e]) =
    pathCost w (s :: mid) + w ((s :: mid).getD ((s :: mid).length - 1) 0) e
  | s, [], e => by simp [pathCost]
  | s, x :: mid, e => by
    have ih := pathCost_concat w x mid e
    simp only [List.cons_append, pathCost] at ih ⊢
    rw [ih]
    simp only [List.length_cons, Nat.add_sub_cancel, List.getD_cons_succ]
    ring

/-- The length the wrapper computes for what is shown of a path is the path's length under the caller's weights; a tour that
does not leave its depot has length 0. -/
theorem C66_length (w : Weights) (starts ends : List Nat) (k s e : Nat) (mid : List Nat) (hs : starts[k]? = some s) (he : ends[k]? = some e) :
    pyLength w starts ends k (if starts[k]? = ends[k]? then (s :: mid ++ [e]).dropLast else s :: mid ++ [e]) =
      if s = e ∧ mid = [] then 0 else pathCost w (s :: mid ++ [e]) := by
  unfold pyLength
  dsimp only
  by_cases hse : s = e
  · subst hse
    have hse' : starts[k]? = ends[k]? := by rw [hs, he]
    rw [if_pos hse']
    have hdl : (s :: mid ++ [s]).dropLast = s :: mid := by
      rw [show s :: mid ++ [s] = (s :: mid) ++ [s] from rfl, List.dropLast_concat]
    rw [hdl]
    by_cases hm : mid = []
    · subst hm; simp
    · have : 2 ≤ (s :: mid).length := by
        have := List.length_pos_iff.2 hm
        simp; omega
      rw [if_pos ⟨this, hse'⟩, if_neg (by simp [hm]), sum_pairs, pathCost_concat]
      simp
  · have hse' : ¬ starts[k]? = ends[k]? := by rw [hs, he]; simpa using hse
    rw [if_neg hse', if_neg (by simp [hse']), if_neg (by simp [hse]), sum_pairs]

/-- **C66.** If no node is a depot of two agents, the Python function returns, for every agent, the path shown and its length
under the caller's weights. -/
theorem C66_lengths (hT : a.Typed) (hL : L.Correct) (hd : (depotUses a.startList a.endList).Nodup) {c : ℤ} {o : COut}
    (h : a.Call L t tr (.ret c o)) (hc : 0 ≤ c) :
    ∃ P lens, InputCover a.N a.startList a.endList P ∧ Layout (shown a.startList a.endList P) o ∧
      pyResult a (.ret c o) = some (.ok (shown a.startList a.endList P, lens)) ∧
      lens = P.map fun p => if p.head? = p.getLast? ∧ p.length = 2 then 0 else pathCost a.weight p := by
  obtain ⟨P, h1, h2, h3, _⟩ := C49_complete_iff hT hL h hc
  have hpy := h3.2 hd
  refine ⟨P, _, h1, h2, ?_, rfl⟩
  have hPl : P.length = a.A := by rw [h1.len, a.startList_length]
  unfold pyResult
  dsimp only
  rw [if_neg (by omega)]
  rw [show (List.range a.A).map (pyPath a.A a.N o) = shown a.startList a.endList P from hpy]
  congr 3
  apply List.ext_getElem?
  intro k
  by_cases hk : k < a.A
  · have hp : P[k]? = some P[k] := List.getElem?_eq_getElem (by omega)
    obtain ⟨s, e, mid, e1, e2, e3⟩ := h1.shape k _ hp
    rw [List.getElem?_map, List.getElem?_range hk, List.getElem?_map, hp]
    simp only [Option.map_some, Option.some.injEq]
    have hW : (shown a.startList a.endList P).getD k [] = if a.startList[k]? = a.endList[k]? then P[k].dropLast else P[k] := by
      rw [List.getD_eq_getElem?_getD]; unfold shown; rw [List.getElem?_mapIdx, hp]; rfl
    rw [hW, e3, C66_length _ _ _ _ _ _ _ e1 e2]
    have hhl : (s :: mid ++ [e]).head? = (s :: mid ++ [e]).getLast? ∧ (s :: mid ++ [e]).length = 2 ↔ s = e ∧ mid = [] := by
      rw [List.getLast?_append]
      simp
    by_cases hc : s = e ∧ mid = []
    · rw [if_pos hc, if_pos (hhl.2 hc)]
    · rw [if_neg hc, if_neg (fun h => hc (hhl.1 h))]
  · rw [List.getElem?_eq_none (by simp; omega), List.getElem?_eq_none (by simp; omega)]

end
end Mtsp
