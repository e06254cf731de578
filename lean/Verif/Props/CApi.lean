import Verif.Proof.CApi
import Verif.Proof.Tied

/-! C46, C47, C48, C55: the C function. -/

namespace Mtsp
open Relation

section
variable {a : CArgs} {L : Lib} {t : Nat} {tr : List (Nat × Inp)} {x : CEnd}

theorem caught_codes (e : Err) : caught e = .undefined ∨ caught e = .ret (-5) .untouched ∨ caught e = .ret (-6) .untouched ∨
    caught e = .ret (-2147483648) .untouched := by
  cases e <;> simp [caught, catchCode]

theorem report_codes (a : CArgs) (r : ResState) : a.report r = .undefined ∨ ∃ c o, a.report r = .ret c o ∧ -2 ≤ c := by
  unfold CArgs.report
  dsimp only
  split
  · exact Or.inr ⟨_, _, rfl, by norm_num⟩
  split
  · exact Or.inr ⟨_, _, rfl, by norm_num⟩
  split
  · exact Or.inl rfl
  split
  · exact Or.inr ⟨_, _, rfl, by norm_num⟩
  · exact Or.inr ⟨_, _, rfl, by norm_num⟩

theorem try_code {c : ℤ} {o : COut} (h : a.Try L t tr (.ret c o)) : c ≠ -3 ∧ c ≠ -4 ∧ c ≠ -7 := by
  generalize hx : CEnd.ret c o = x at h
  cases h with
  | ctor e _ =>
    rcases caught_codes e with h | h | h | h <;> rw [h] at hx <;> simp at hx <;> simp [hx.1]
  | thrown S _ e _ _ =>
    rcases caught_codes e with h | h | h | h <;> rw [h] at hx <;> simp at hx <;> simp [hx.1]
  | solved S _ r _ _ =>
    rcases report_codes a r with h | ⟨c', o', h, hc⟩ <;> rw [h] at hx <;> simp at hx
    rw [hx.1]
    refine ⟨?_, ?_, ?_⟩ <;> omega
  | terminated => simp at hx

/-- **C46**, the checks at the top: each class of invalid arguments has its code, in this order of precedence. -/
theorem C46_invalid_arguments (h : a.Call L t tr x) :
    ((∃ o, x = .ret (-3) o) ↔ (a.A = 0 ∨ a.N < 2 ∨ a.N < (a.A * 2) % 2 ^ 64)) ∧
    ((∃ o, x = .ret (-4) o) ↔ ¬ (a.A = 0 ∨ a.N < 2 ∨ a.N < (a.A * 2) % 2 ^ 64) ∧
      (a.starts = none ∨ a.ends = none ∨ a.weights = none ∨ a.lowerNull = true ∨ a.upperNull = true ∨ a.pathsNull = true ∨ a.offsetsNull = true)) ∧
    ((∃ o, x = .ret (-7) o) ↔ ¬ (a.A = 0 ∨ a.N < 2 ∨ a.N < (a.A * 2) % 2 ^ 64) ∧
      ¬ (a.starts = none ∨ a.ends = none ∨ a.weights = none ∨ a.lowerNull = true ∨ a.upperNull = true ∨ a.pathsNull = true ∨ a.offsetsNull = true) ∧
      a.mode ≠ 0 ∧ a.mode ≠ 1) := by
  have hs : a.badSize = true ↔ (a.A = 0 ∨ a.N < 2 ∨ a.N < (a.A * 2) % 2 ^ 64) := by
    simp [CArgs.badSize, wrap64, or_assoc]
  have hp : a.badPointer = true ↔
      (a.starts = none ∨ a.ends = none ∨ a.weights = none ∨ a.lowerNull = true ∨ a.upperNull = true ∨ a.pathsNull = true ∨ a.offsetsNull = true) := by
    simp [CArgs.badPointer, or_assoc]
  have hm : a.badMode = true ↔ a.mode ≠ 0 ∧ a.mode ≠ 1 := by simp [CArgs.badMode]
  rw [← hs, ← hp, ← hm]
  cases h with
  | size h => simp [h]
  | pointer h h1 => simp [h, h1]
  | mode h h1 h2 => simp [h, h1, h2]
  | run _ _ h h1 h2 ht =>
    rw [h, h1, h2]
    refine ⟨?_, ?_, ?_⟩ <;> simp only [Bool.false_eq_true, not_false_eq_true, and_false, iff_false, false_and] <;>
      rintro ⟨o, rfl⟩
    · exact (try_code ht).1 rfl
    · exact (try_code ht).2.1 rfl
    · exact (try_code ht).2.2 rfl

/-- a call that returns a code other than the three for invalid arguments was accepted -/
theorem accepted_of_call (h : a.Call L t tr x) : a.Accepted ∨ ∃ c, x = .ret c .untouched ∧ (c = -3 ∨ c = -4 ∨ c = -7) := by
  cases h with
  | size h => exact Or.inr ⟨_, rfl, by simp⟩
  | pointer h h1 => exact Or.inr ⟨_, rfl, by simp⟩
  | mode h h1 h2 => exact Or.inr ⟨_, rfl, by simp⟩
  | run _ _ h h1 h2 ht => exact Or.inl (a.accepted_iff.2 ⟨h, h1, h2⟩)

/-- **C46**: the codes.  A negative code leaves all outputs untouched; otherwise both bounds are written, in order, and
the code is SOLVED (0) exactly if they agree and TIMEOUT (1) otherwise. -/
theorem C46_codes (hT : a.Typed) (hL : L.Correct) {c : ℤ} {o : COut} (h : a.Call L t tr (.ret c o)) :
    (c ∈ [-3, -4, -5, -6, -7, -2147483648] ∧ o = .untouched) ∨
    (∃ lo up, o.lower = some lo ∧ o.upper = some up ∧ lo ≤ up ∧ (c = 0 ∨ c = 1) ∧ (c = 0 ↔ up ≤ lo)) := by
  rcases accepted_of_call h with hA | ⟨c', h1, h2⟩
  · rcases try_cases hT hA hL (h.try hA) with ⟨h1, _⟩ | ⟨_, h1, _⟩ | ⟨_, h1, _⟩ | ⟨_, m, _, _, ⟨h1, _⟩ | ⟨h1, _⟩ | ⟨h1, _⟩ | ⟨h1, _⟩ |
      ⟨_, o', lo, up, P, h1, h2, h3, h4, _⟩⟩
    · simp only [CEnd.ret.injEq] at h1; left; rw [h1.1, h1.2]; simp
    · simp only [CEnd.ret.injEq] at h1; left; rw [h1.1, h1.2]; simp
    · simp only [CEnd.ret.injEq] at h1; left; rw [h1.1, h1.2]; simp
    · simp only [CEnd.ret.injEq] at h1; left; rw [h1.1, h1.2]; simp
    · simp only [CEnd.ret.injEq] at h1; left; rw [h1.1, h1.2]; simp
    · simp at h1
    · simp at h1
    · simp only [CEnd.ret.injEq] at h1
      obtain ⟨rfl, rfl⟩ := h1
      right
      refine ⟨lo, up, h2, h3, h4, ?_, ?_⟩
      · split <;> simp
      · split
        · rename_i hlt; simpa using hlt
        · rename_i hlt; simpa using hlt
  · simp only [CEnd.ret.injEq] at h1
    obtain ⟨rfl, rfl⟩ := h1
    left
    rcases h2 with rfl | rfl | rfl <;> simp

/-- **C46**: dependency errors.  For accepted arguments with all positions in range, a dependency code is returned exactly if
the dependencies are cyclic, or one leads into a node first used as a start, or one leads out of a node first used as
an end, or they put two agents on the same path (directly or through other nodes).  The code for cycles is returned only for cycles, and for all cycles
without a dependency into such a start. -/
theorem C46_dependency_codes (hT : a.Typed) (hA : a.Accepted) (hr : a.InRange) (hL : L.Correct) (h : a.Call L t tr x) :
    ((x = .ret (-5) .untouched ∨ x = .ret (-6) .untouched) ↔
      (∃ v, TransGen a.Dep v v) ∨ (∃ u v, a.Dep u v ∧ FirstStart a.startList a.endList v) ∨ (∃ u v, a.Dep u v ∧ FirstEnd a.startList a.endList u) ∨
      AgentsTied a.N a.weight a.startList a.endList) ∧
    (x = .ret (-5) .untouched → ∃ v, TransGen a.Dep v v) ∧
    ((∃ v, TransGen a.Dep v v) → (∀ u v, a.Dep u v → ¬ FirstStart a.startList a.endList v) → x = .ret (-5) .untouched) := by
  have hv := hA.valid hr
  have hrej := make_rejects_iff (w := a.weight) hv
  obtain ⟨hc1, hc2⟩ := make_cyclic_iff (w := a.weight) hv
  have hc := try_cases hT hA hL (h.try hA)
  have key : ∀ c o, (if (c : ℚ) < o then (1 : ℤ) else 0) ≠ -5 ∧ (if (c : ℚ) < o then (1 : ℤ) else 0) ≠ -6 := by
    intro c o; split <;> decide
  refine ⟨⟨?_, ?_⟩, ?_, ?_⟩
  · intro hx
    rcases hc with ⟨h1, h2⟩ | ⟨_, h1, h2⟩ | ⟨_, h1, h2⟩ | ⟨_, m, hm, _, h2⟩
    · exact absurd hr h2
    · exact Or.inl (hc1 h2)
    · rcases h2 with h2 | h2
      · rcases hrej.1 (by rintro ⟨m, hm⟩; rw [h2] at hm; simp at hm) with h3 | h3 | h3
        · exact Or.inl h3
        · exact Or.inr (Or.inl h3)
        · exact Or.inr (Or.inr (Or.inl h3))
      · have h2c := h2; obtain ⟨m, hm, _⟩ := h2c
        exact Or.inr (Or.inr (Or.inr ((tied_iff hm).1 h2)))
    · exfalso
      rcases h2 with ⟨rfl, _⟩ | ⟨rfl, _⟩ | ⟨rfl, _⟩ | ⟨rfl, _⟩ | ⟨_, o', lo, up, P, rfl, _⟩
      · simp at hx
      · simp at hx
      · simp at hx
      · simp at hx
      · simp only [CEnd.ret.injEq] at hx
        rcases hx with hx | hx
        · exact (key lo up).1 hx.1
        · exact (key lo up).2 hx.1
  · intro hx
    have hno : ∀ m, WM.make a.N a.N a.weight a.startList a.endList = .ok m → Tied a.N a.weight a.startList a.endList := by
      intro m hm
      rw [tied_iff hm]
      rcases hx with h3 | h3 | h3 | h3
      · exact absurd ⟨m, hm⟩ (hrej.2 (Or.inl h3))
      · exact absurd ⟨m, hm⟩ (hrej.2 (Or.inr (Or.inl h3)))
      · exact absurd ⟨m, hm⟩ (hrej.2 (Or.inr (Or.inr h3)))
      · exact h3
    rcases hc with ⟨h1, h2⟩ | ⟨_, h1, h2⟩ | ⟨_, h1, h2⟩ | ⟨_, m, hm, h2, _⟩
    · exact absurd hr h2
    · exact Or.inl h1
    · exact Or.inr h1
    · exact absurd (hno m hm) h2
  · intro hx
    rcases hc with ⟨h1, h2⟩ | ⟨_, h1, h2⟩ | ⟨_, h1, h2⟩ | ⟨_, m, hm, _, h2⟩
    · exact absurd hr h2
    · exact hc1 h2
    · rw [h1] at hx; simp at hx
    · exfalso
      rcases h2 with ⟨rfl, _⟩ | ⟨rfl, _⟩ | ⟨rfl, _⟩ | ⟨rfl, _⟩ | ⟨_, o', lo, up, P, rfl, _⟩
      · simp at hx
      · simp at hx
      · simp at hx
      · simp at hx
      · simp only [CEnd.ret.injEq] at hx
        exact (key lo up).1 hx.1
  · intro hcyc hns
    have he := hc2 hns hcyc
    rcases hc with ⟨h1, h2⟩ | ⟨_, h1, h2⟩ | ⟨_, h1, h2⟩ | ⟨_, m, hm, _, h2⟩
    · exact absurd hr h2
    · exact h1
    · rcases h2 with h2 | ⟨m, h2, _⟩ <;> rw [he] at h2 <;> simp at h2
    · rw [he] at hm; simp at hm

/-- **C46**: the remaining code, `INT_MIN`.  It is returned if a position is out of range; otherwise only if there are too many
LP columns, no threads, an LP solver error, or the search ended without proof of optimality before the deadline. -/
theorem C46_other_errors (hT : a.Typed) (hA : a.Accepted) (hL : L.Correct) (h : a.Call L t tr x) :
    (¬ a.InRange → x = .ret (-2147483648) .untouched) ∧
    (x = .ret (-2147483648) .untouched → a.InRange →
      (∃ m, WM.make a.N a.N a.weight a.startList a.endList = .ok m ∧ 2147483647 < a.A * m.n * m.n) ∨ (a.threads = 0 ∧ L.hw = 0) ∨
      (∀ y ∈ tr, y.2.late = false) ∨ ∃ y ∈ tr, y.2.ans = .error) := by
  have hc := try_cases hT hA hL (h.try hA)
  constructor
  · intro hn
    rcases hc with ⟨h1, h2⟩ | ⟨h2, _⟩ | ⟨h2, _⟩ | ⟨h2, _⟩
    · exact h1
    · exact absurd h2 hn
    · exact absurd h2 hn
    · exact absurd h2 hn
  · intro hx hr
    rcases hc with ⟨_, h2⟩ | ⟨_, h1, h2⟩ | ⟨_, h1, h2⟩ | ⟨_, m, hm, _, h2⟩
    · exact absurd hr h2
    · rw [h1] at hx; simp at hx
    · rw [h1] at hx; simp at hx
    · rcases h2 with ⟨_, h3⟩ | ⟨_, _, h3⟩ | ⟨rfl, _⟩ | ⟨rfl, _⟩ | ⟨_, o', lo, up, P, rfl, _⟩
      · exact Or.inl ⟨m, hm, h3⟩
      · exact Or.inr h3
      · simp at hx
      · simp at hx
      · simp only [CEnd.ret.injEq] at hx
        have := hx.1
        split at this <;> simp at this

/-! ### C47 -/

/-- **C47.** If the code is not negative, there is one path per agent - from its start to its end, together covering every other
node once - and the output holds exactly these paths (closed tours without the repeated depot) one after the other:
agent 0's at offset 0, each next one where the previous one ends, at most `N + 2 A` nodes in all. -/
theorem C47_path_layout (hT : a.Typed) (hL : L.Correct) {c : ℤ} {o : COut} (h : a.Call L t tr (.ret c o)) (hc : 0 ≤ c) :
    ∃ P, InputCover a.N a.startList a.endList P ∧
      ∃ off : Nat → Nat, off 0 = 0 ∧ off a.A ≤ a.N + 2 * a.A ∧
        (∀ k p, P[k]? = some p →
          let q := if a.startList[k]? = a.endList[k]? then p.dropLast else p
          o.offsets k = some (off k) ∧ off (k + 1) = off k + q.length ∧ ∀ i < q.length, o.paths (off k + i) = q[i]?) ∧
        (∀ i, off a.A ≤ i → o.paths i = none) ∧ ∀ k, a.A ≤ k → o.offsets k = none := by
  have hA : a.Accepted := by
    rcases accepted_of_call h with hA | ⟨c', h1, h2⟩
    · exact hA
    · simp only [CEnd.ret.injEq] at h1
      obtain ⟨rfl, _⟩ := h1
      rcases h2 with rfl | rfl | rfl <;> norm_num at hc
  have hc0 : ∀ z : ℤ, z < 0 → ∀ o', (CEnd.ret c o) ≠ .ret z o' := by
    intro z hz o' he
    simp only [CEnd.ret.injEq] at he
    omega
  rcases try_cases hT hA hL (h.try hA) with ⟨h1, _⟩ | ⟨_, h1, _⟩ | ⟨_, h1, _⟩ | ⟨_, m, _, _, ⟨h1, _⟩ | ⟨h1, _⟩ | ⟨h1, _⟩ | ⟨h1, _⟩ |
      ⟨_, o', lo, up, P, h1, h2, h3, h4, h5, h6⟩⟩
  · exact absurd h1 (hc0 _ (by norm_num) _)
  · exact absurd h1 (hc0 _ (by norm_num) _)
  · exact absurd h1 (hc0 _ (by norm_num) _)
  · exact absurd h1 (hc0 _ (by norm_num) _)
  · exact absurd h1 (hc0 _ (by norm_num) _)
  · simp at h1
  · simp at h1
  · simp only [CEnd.ret.injEq] at h1
    obtain ⟨_, rfl⟩ := h1
    have hl : P.length = a.A := by rw [h5.len, a.startList_length]
    set W := shown a.startList a.endList P with hW
    have hWl : W.length = a.A := by rw [hW, shown_length, hl]
    refine ⟨P, h5, fun k => (W.take k).flatten.length, rfl, ?_, ?_, ?_, ?_⟩
    · dsimp only
      rw [List.take_of_length_le (by omega)]
      exact (shown_total h5).1
    · intro k p hp q
      have hk : k < a.A := by rw [← hl]; exact (List.getElem?_eq_some_iff.1 hp).1
      have hq : W[k]? = some q := by
        rw [hW]
        unfold shown
        rw [List.getElem?_mapIdx, hp]
        rfl
      have htake : W.take (k + 1) = W.take k ++ [q] := by rw [List.take_add_one, hq]; rfl
      refine ⟨?_, ?_, ?_⟩
      · rw [h6.offs, if_pos (by omega)]
      · dsimp only; rw [htake]; simp
      · intro i hi
        rw [h6.nodes]
        have hsp : W.flatten = (W.take k).flatten ++ (q ++ (W.drop (k + 1)).flatten) := by
          conv_lhs => rw [← List.take_append_drop (k + 1) W, htake]
          simp
        rw [hsp]
        dsimp only
        rw [List.getElem?_append_right (by omega), Nat.add_sub_cancel_left, List.getElem?_append_left hi]
    · intro i hi
      dsimp only at hi
      rw [List.take_of_length_le (by omega)] at hi
      rw [h6.nodes, List.getElem?_eq_none hi]
    · intro k hk
      rw [h6.offs, if_neg (by omega)]

/-! ### C48 -/

/-- **C48 is false**: whenever the deadline falls inside the construction heuristic (one check per node of the preprocessed
instance), every call that gets that far ends in undefined behaviour: the paths are read from an empty list. -/
theorem C48_undefined (hT : a.Typed) (hA : a.Accepted) (hL : L.Correct) {m : WM} (hm : WM.make a.N a.N a.weight a.startList a.endList = .ok m)
    (hn : ¬ AgentsTied a.N a.weight a.startList a.endList) (ht : t < m.n) (h : a.Call L t tr x) : x = .undefined := by
  rw [← tied_iff hm] at hn
  have hw := hT.intWeights hA.pointers.2.2.1
  cases h.try hA with
  | ctor e he =>
    exfalso
    rcases Solver.make_error hw hT.size he with h1 | ⟨m', hm', ⟨rfl, h2⟩ | ⟨rfl, h2, h3⟩⟩
    · rw [hm] at h1; simp at h1
    · exact hn ⟨m', hm', h2⟩
    · -- the deadline is noticed before any column is created
      rw [hm] at hm'
      simp only [Except.ok.injEq] at hm'
      subst hm'
      unfold Solver.make at he
      rw [hm] at he
      dsimp only at he
      rcases initial_cases hm hw ((WM.size_le hm).trans hT.size) a.opt t with ⟨⟨k, b, s, s', e1, e2, e3, e4⟩, _⟩ | ⟨_, r, t', hr, _, _, _, _, _, h4⟩
      · exact h3 k b s s' e1 e2 e3 e4
      · rw [hr] at he
        obtain ⟨_, _, rfl⟩ := h4 ht
        simp [spend] at he
  | solved S _ r hs hr =>
    have hS := Solver.make_ok hw hT.size hs
    have : S.m = m := by have := hS.make; rw [hm] at this; simpa using this.symm
    exact report_short hA.agents hS (by rw [this]; exact ht) hw hL hr
  | thrown S _ e hs hr =>
    have hS := Solver.make_ok hw hT.size hs
    have : S.m = m := by have := hS.make; rw [hm] at this; simpa using this.symm
    obtain ⟨r, e⟩ := solve_short hS (by rw [this]; exact ht) hr
    simp at e
  | terminated S _ hs hr =>
    have hS := Solver.make_ok hw hT.size hs
    have : S.m = m := by have := hS.make; rw [hm] at this; simpa using this.symm
    obtain ⟨r, e⟩ := solve_short hS (by rw [this]; exact ht) hr
    simp at e

/-- The codes for "no result" (-1, -2) are never returned. -/
theorem C48_never_no_result (hT : a.Typed) (hL : L.Correct) {c : ℤ} {o : COut} (h : a.Call L t tr (.ret c o)) : c ≠ -1 ∧ c ≠ -2 := by
  rcases C46_codes hT hL h with ⟨h1, _⟩ | ⟨_, _, _, _, _, h1 | h1, _⟩
  · simp only [List.mem_cons, List.not_mem_nil, or_false] at h1
    omega
  · omega
  · omega

/-- **C48 (partial).** What does hold: if the deadline does not fall inside the construction heuristic, the behaviour is defined,
and a call in which the time is up is answered with a complete solution. -/
theorem C48_defined_partial (hT : a.Typed) (hL : L.Correct) {m : WM} (hm : WM.make a.N a.N a.weight a.startList a.endList = .ok m)
    (ht : m.n ≤ t) (h : a.Call L t tr x) : x ≠ .undefined := by
  rintro rfl
  rcases accepted_of_call h with hA | ⟨c', h1, _⟩
  · rcases try_cases hT hA hL (h.try hA) with ⟨h1, _⟩ | ⟨_, h1, _⟩ | ⟨_, h1, _⟩ | ⟨_, m', hm', _, ⟨h1, _⟩ | ⟨h1, _⟩ | ⟨h1, _⟩ | ⟨h1, h2⟩ |
      ⟨_, o', lo, up, P, h1, _⟩⟩
    · simp at h1
    · simp at h1
    · simp at h1
    · simp at h1
    · simp at h1
    · simp at h1
    · rw [hm] at hm'
      simp only [Except.ok.injEq] at hm'
      subst hm'
      omega
    · simp at h1
  · simp at h1

/-! ### C55 -/

/-- **C55 (partial).** Below `2^63` agents the size check is what it should be. -/
theorem C55_size_check_partial (hA : a.A < 2 ^ 63) (h : a.Call L t tr x) :
    (∃ o, x = .ret (-3) o) ↔ (a.A = 0 ∨ a.N < 2 ∨ a.N < 2 * a.A) := by
  rw [(C46_invalid_arguments h).1, Nat.mod_eq_of_lt (by omega), Nat.mul_comm]

/-- **C55 is false in full**: the product wraps around, so that `2^63` agents for two nodes pass the size check. -/
theorem C55_refuted (L : Lib) (t : Nat) : ∃ a : CArgs, a.Typed ∧ a.N < 2 * a.A ∧ ∀ tr x, a.Call L t tr x → ¬ ∃ o, x = .ret (-3) o := by
  refine ⟨⟨2 ^ 63, 2, none, none, none, 0, 1, false, false, false, false⟩, ⟨by decide, by decide, by simp⟩, by decide, ?_⟩
  intro tr x h
  rw [(C46_invalid_arguments h).1]
  decide

end
/-- C64, the caller's arrays: a caller who passes `starts`, `ends` and the weights row after row means this instance.
The solver gets exactly the agents' starts and ends in order, the weight from `i` to `j` is `weights[i * N + j]`, and mode 0
minimizes the sum, mode 1 the maximum. -/
theorem C64_arguments (a : CArgs) (s e : List Nat) (rows : List (List ℤ)) (hs : a.starts = some fun k => s.getD k 0)
    (he : a.ends = some fun k => e.getD k 0) (hw : a.weights = some fun k => rows.flatten.getD k 0) (hA : s.length = a.A)
    (hE : e.length = a.A) (hrow : ∀ r ∈ rows, r.length = a.N) :
    a.startList = s ∧ a.endList = e ∧
      (∀ (i j : Nat) (r : List ℤ) (x : ℤ), rows[i]? = some r → r[j]? = some x → a.weight i j = x) ∧
      (a.mode = 0 → a.opt = .sum) ∧ (a.mode = 1 → a.opt = .max) := by
  have hl : ∀ (l : List Nat), l.length = a.A → (List.range a.A).map (fun k => l.getD k 0) = l := by
    intro l h
    apply List.ext_getElem?
    intro i
    rcases Nat.lt_or_ge i a.A with hi | hi
    · simp [hi, List.getD_eq_getElem?_getD, show i < l.length by omega]
    · simp [hi, show l.length ≤ i by omega]
  refine ⟨by simpa [CArgs.startList, hs] using hl s hA, by simpa [CArgs.endList, he] using hl e hE, ?_, ?_, ?_⟩
  · intro i j r x hi hj
    have hf : ∀ (W : List (List ℤ)), (∀ r ∈ W, r.length = a.N) → ∀ i : Nat, W[i]? = some r →
        W.flatten[i * a.N + j]? = some x := by
      intro W
      induction W with
      | nil => intro _ i hi; simp at hi
      | cons q W ih =>
        intro hW i hi
        have hq : q.length = a.N := hW q (by simp)
        rw [List.flatten_cons]
        cases i with
        | zero =>
          simp only [List.getElem?_cons_zero, Option.some.injEq] at hi
          subst hi
          have hjl := (List.getElem?_eq_some_iff.mp hj).1
          rw [Nat.zero_mul, Nat.zero_add, List.getElem?_append_left hjl]
          exact hj
        | succ i =>
          have h1 : (i + 1) * a.N + j = q.length + (i * a.N + j) := by rw [hq, Nat.add_mul]; omega
          rw [h1, List.getElem?_append_right (by omega), Nat.add_sub_cancel_left]
          exact ih (fun r hr => hW r (by simp [hr])) i (by simpa using hi)
    have := hf rows hrow i hi
    simp [CArgs.weight, hw, List.getD_eq_getElem?_getD, this]
  · intro h; simp [CArgs.opt, h]
  · intro h; simp [CArgs.opt, h]

/-- two agents, five nodes, all arrays as a caller writes them -/
example : ∃ (a : CArgs) (s e : List Nat) (rows : List (List ℤ)), a.starts = (some fun k => s.getD k 0) ∧
    a.ends = (some fun k => e.getD k 0) ∧ a.weights = (some fun k => rows.flatten.getD k 0) ∧ s.length = a.A ∧ e.length = a.A ∧
    (∀ r ∈ rows, r.length = a.N) ∧ a.A = 2 ∧ a.N = 5 ∧ a.Accepted ∧ a.weight 1 3 = 8 ∧ a.weight 3 1 = -1 ∧ a.startList = [0, 3] :=
  ⟨{ A := 2, N := 5, starts := some fun k => [0, 3].getD k 0, ends := some fun k => [0, 4].getD k 0,
     weights := some fun k => [[0, 1, 2, 3, 4], [5, 0, 7, 8, 9], [1, 2, 0, 4, 5], [6, -1, 8, 0, 9], [2, 2, 3, 3, 0]].flatten.getD k (0 : ℤ),
     mode := 1, threads := 2 }, [0, 3], [0, 4],
    [[0, 1, 2, 3, 4], [5, 0, 7, 8, 9], [1, 2, 0, 4, 5], [6, -1, 8, 0, 9], [2, 2, 3, 3, 0]], rfl, rfl, rfl, rfl, rfl, by decide, rfl, rfl,
    ⟨by decide, by decide, by decide, by simp, Or.inr rfl⟩, by decide +kernel, by decide +kernel, by decide⟩

end Mtsp
