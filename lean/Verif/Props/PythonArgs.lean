import Verif.Model.Python
import Verif.Props.Symmetry
import Verif.Props.PythonLengths

/-! C79: the Python function solves the instance it is given. -/

namespace Mtsp

section
variable {p : PyArgs} {L : Lib} {t : Nat} {tr : List (Nat × Inp)} {r : Option (Outcome (List (List Nat) × List ℚ))}

/-- the weight the caller means -/
def PyArgs.given (p : PyArgs) (u v : Nat) : ℚ := (p.weights.getD u []).getD v 0

/-- what the Python function needs, and does not check -/
structure PyArgs.WellFormed (p : PyArgs) : Prop where
  ends : p.ends.length = p.starts.length
  square : ∀ r ∈ p.weights, r.length = p.weights.length
  ints : ∀ r ∈ p.weights, ∀ q ∈ r, ∃ z : ℤ, q = z ∧ -1 ≤ z ∧ z < 2 ^ 31
  size : p.weights.length < 2 ^ 64 ∧ p.starts.length < 2 ^ 64

theorem truncToInt_int (z : ℤ) : truncToInt z = z := by
  unfold truncToInt
  split <;> simp

theorem flatten_getElem? {α : Type} {n : Nat} : ∀ (W : List (List α)), (∀ r ∈ W, r.length = n) → ∀ (u v : Nat), v < n →
    W.flatten[u * n + v]? = W[u]?.bind (·[v]?)
  | [], _, u, v, _ => by simp
  | r :: W, h, 0, v, hv => by
    have := h r (by simp)
    rw [List.flatten_cons, Nat.zero_mul, Nat.zero_add, List.getElem?_append_left (by omega)]
    simp
  | r :: W, h, u + 1, v, hv => by
    have hr := h r (by simp)
    have e : (u + 1) * n + v = r.length + (u * n + v) := by rw [hr]; ring
    rw [List.flatten_cons, e, List.getElem?_append_right (by omega), Nat.add_sub_cancel_left,
      flatten_getElem? W (fun q hq => h q (by simp [hq])) u v hv]
    simp

theorem PyArgs.WellFormed.memory_length (h : p.WellFormed) : p.memory.length = p.weights.length * p.weights.length := by
  unfold PyArgs.memory
  rw [List.length_map, List.length_flatten]
  have : p.weights.map List.length = List.replicate p.weights.length p.weights.length := by
    apply List.eq_replicate_of_mem ?_ |>.trans ?_
    · exact p.weights.length
    · intro x hx
      obtain ⟨r, hr, rfl⟩ := List.mem_map.1 hx
      exact h.square r hr
    · simp
  rw [this]
  simp

/-- **C79**, arguments: for a square matrix of integers and as many ends as starts the C function gets the caller's instance. -/
theorem C79_arguments (h : p.WellFormed) : p.toC.Typed ∧ p.toC.A = p.starts.length ∧ p.toC.N = p.weights.length ∧ p.toC.startList = p.starts ∧
    p.toC.endList = p.ends ∧ (∀ u < p.weights.length, ∀ v < p.weights.length, p.toC.weight u v = p.given u v) ∧
    (p.toC.opt = .max ↔ p.mode.map Char.toUpper = "MAX".toList ∨ p.mode.map Char.toUpper = "1".toList) ∧ p.toC.threads = p.threads := by
  have hint : ∀ q ∈ p.weights.flatten, ∃ z : ℤ, q = z ∧ -1 ≤ z ∧ z < 2 ^ 31 := by
    intro q hq
    obtain ⟨r, hr, hqr⟩ := List.mem_flatten.1 hq
    exact h.ints r hr q hqr
  have hlist : ∀ (l : List Nat) (n : Nat), l.length = n → (List.range n).map (fun i => l.getD i 0) = l := by
    rintro l n rfl
    apply List.ext_getElem (by simp)
    intro k h1 h2
    simp [List.getD_eq_getElem?_getD, h2]
  refine ⟨⟨h.size.2, h.size.1, ?_⟩, rfl, rfl, hlist _ _ rfl, hlist _ _ h.ends, ?_, ?_, rfl⟩
  · intro W hW i
    simp only [PyArgs.toC, Option.some.injEq] at hW
    subst hW
    dsimp only
    rw [List.getD_eq_getElem?_getD]
    cases hi : p.memory[i]? with
    | none => simp
    | some z =>
      obtain ⟨q, hq, rfl⟩ := List.mem_map.1 (List.mem_of_getElem? hi)
      obtain ⟨z, rfl, h1, h2⟩ := hint q hq
      rw [truncToInt_int]
      exact ⟨h1, h2⟩
  · intro u hu v hv
    show ((p.memory.getD (u * p.weights.length + v) 0 : ℤ) : ℚ) = _
    rw [List.getD_eq_getElem?_getD, PyArgs.memory, List.getElem?_map, flatten_getElem? p.weights h.square u v hv]
    unfold PyArgs.given
    have hr := List.getElem_mem (l := p.weights) hu
    have hv' : v < p.weights[u].length := by rw [h.square _ hr]; exact hv
    obtain ⟨z, hz, _⟩ := h.ints _ hr _ (List.getElem_mem hv')
    simp only [List.getD_eq_getElem?_getD, List.getElem?_eq_getElem hu, Option.bind_some, List.getElem?_eq_getElem hv', Option.map_some, Option.getD_some]
    rw [hz, truncToInt_int]
  · show (if pyMode p.mode = 0 then Mode.sum else .max) = .max ↔ _
    unfold pyMode
    simp only [List.mem_cons, List.not_mem_nil, or_false]
    split <;> simp_all

theorem PyArgs.WellFormed.convertible (h : p.WellFormed) : p.convertible = true := by
  unfold PyArgs.convertible
  rw [List.all_eq_true]
  intro r hr
  rw [Bool.and_eq_true]
  constructor
  · have : p.width = p.weights.length := by
      unfold PyArgs.width
      cases hw : p.weights with
      | nil => simp
      | cons r' W =>
        have := h.square r' (by rw [hw]; simp)
        rw [hw] at this
        simpa using this
    rw [h.square r hr, this]
    simp
  · rw [List.all_eq_true]
    intro q hq
    obtain ⟨z, rfl, h1, h2⟩ := h.ints r hr q hq
    rw [truncToInt_int, Bool.and_eq_true]
    constructor
    · rw [decide_eq_true_eq]; omega
    · rw [decide_eq_true_eq]; exact h2

/-- the errors for null pointers and for the mode do not occur -/
theorem py_codes (p : PyArgs) {x : CEnd} (hx : p.toC.Call L t tr x) (o : COut) : x ≠ .ret (-4) o ∧ x ≠ .ret (-7) o := by
  have hp : p.toC.badPointer = false := rfl
  have hm : p.toC.badMode = false := by
    show (decide (pyMode p.mode ≠ 0) && decide (pyMode p.mode ≠ 1)) = false
    unfold pyMode
    split <;> decide
  cases hx with
  | size => simp
  | pointer _ h' => rw [hp] at h'; simp at h'
  | mode _ _ h' => rw [hm] at h'; simp at h'
  | run _ _ _ _ _ ht =>
    constructor
    · rintro rfl; exact (try_code ht).2.1 rfl
    · rintro rfl; exact (try_code ht).2.2 rfl

/-- **C79**, calls: for such arguments every call of the Python function is a call of the C function; nothing else is raised, no array is overrun,
and the errors for null pointers and for the mode do not occur. -/
theorem C79_call (h : p.WellFormed) (hrun : p.Run L t tr r) :
    ∃ x, p.toC.Call L t tr x ∧ r = pyResult p.toC x ∧ ∀ o, x ≠ .ret (-4) o ∧ x ≠ .ret (-7) o := by
  have hsh : p.tooShort = false := by
    unfold PyArgs.tooShort
    rw [h.ends, h.memory_length]
    simp
  cases hrun with
  | raised h' => rw [h.convertible] at h'; simp at h'
  | overrun _ _ h' => rw [hsh] at h'; simp at h'
  | call _ x _ _ hcall => exact ⟨x, hcall, rfl, py_codes p hcall⟩

/-- a dependency as the caller writes it: the flag -1 in row `v`, column `u` -/
def PyArgs.Dep (p : PyArgs) : Nat → Nat → Prop := InputDep p.weights.length p.given

/-- **C79 (partial), any dependencies.** For such arguments, depots that are not shared and no dependency at the depot of a round trip: what the
Python function returns are complete paths (one per agent, from its start to its end, every other node exactly once); if they respect
the dependencies - which the caller can see - their lengths are the true ones, and if in addition the search was calm and complete (code
SOLVED; with objective "max" also: the upper bound is not negative) no other choice of such paths has a smaller total (or largest) length. -/
theorem C79_checked_paths_partial (h : p.WellFormed) (hL : L.Correct)
    (hround : ∀ (k s : Nat), p.starts[k]? = some s → p.ends[k]? = some s → ∀ v, ¬ p.Dep s v ∧ ¬ p.Dep v s) (hdep : (depotUses p.starts p.ends).Nodup)
    {W : List (List Nat)} {lens : List ℚ} (hrun : p.Run L t tr (some (.ok (W, lens)))) :
    ∃ P c o, p.toC.Call L t tr (.ret c o) ∧ InputCover p.weights.length p.starts p.ends P ∧ W = shown p.starts p.ends P ∧
      (Respects p.Dep P → lens = P.map (pathCost (inputCost p.given)) ∧
        (c = 0 → p.toC.Calm L tr → (p.toC.opt = .sum ∨ (∀ up, o.upper = some up → 0 ≤ up) ∨ OnlyDepotDeps p.weights.length p.given p.starts p.ends) →
          ∀ P' v v', InputCover p.weights.length p.starts p.ends P' → Respects p.Dep P' → IsObjective p.toC.opt (inputCost p.given) P v →
          IsObjective p.toC.opt (inputCost p.given) P' v' → v ≤ v')) ∧
      (OnlyDepotDeps p.weights.length p.given p.starts p.ends → Respects p.Dep P) := by
  obtain ⟨hT, _, _, hs, he, hw, _⟩ := C79_arguments h
  obtain ⟨x, hcall, hr, _⟩ := C79_call h hrun
  have hsame : ∀ u v, p.toC.Dep u v ↔ p.Dep u v := by
    intro u v
    constructor
    · rintro ⟨h1, h2, h3, h4⟩
      exact ⟨h1, h2, h3, by rw [← hw v h2 u h1]; exact h4⟩
    · rintro ⟨h1, h2, h3, h4⟩
      refine ⟨h1, h2, h3, ?_⟩
      rw [hw v h2 u h1]; exact h4
  have hod : OnlyDepotDeps p.weights.length p.given p.starts p.ends → OnlyDepotDeps p.toC.N p.toC.weight p.toC.startList p.toC.endList := by
    intro hd
    refine ⟨fun u v hx => ?_, fun u v b hx => ?_⟩
    · rw [hs, he]
      exact hd.1 u v ((hsame u v).1 hx)
    · rw [hs, he]
      exact hd.2 u v b ((hsame u v).1 hx)
  have hdep' : (depotUses p.toC.startList p.toC.endList).Nodup := by rw [hs, he]; exact hdep
  cases x with
  | undefined => simp [pyResult] at hr
  | terminated => simp [pyResult] at hr
  | ret c o =>
    have hc : 0 ≤ c := by
      by_contra hc
      unfold pyResult at hr
      dsimp only at hr
      rw [if_pos (not_le.1 hc)] at hr
      simp at hr
    obtain ⟨P, lens', hP, hlay, hpy, hlens⟩ := C66_lengths hT hL hdep' hcall hc
    obtain ⟨_, hrange, _⟩ := call_success hT hL hcall hc
    rw [hpy] at hr
    simp only [Option.some.injEq, Outcome.ok.injEq, Prod.mk.injEq] at hr
    obtain ⟨rfl, rfl⟩ := hr
    have hcongr : ∀ P, InputCover p.toC.N p.toC.startList p.toC.endList P →
        P.map (pathCost (inputCost p.toC.weight)) = P.map (pathCost (inputCost p.given)) := by
      intro P hP
      apply List.map_congr_left
      intro q hq
      have hlt := inputCover_lt hP hrange.1 hrange.2 q hq
      apply pathCost_congr
      intro u hu v hv
      unfold inputCost
      rw [hw u (hlt u hu) v (hlt v hv)]
    have hround' : ∀ (k s : Nat), p.toC.startList[k]? = some s → p.toC.endList[k]? = some s → ∀ v, ¬ p.toC.Dep s v ∧ ¬ p.toC.Dep v s := by
      intro k s h1 h2 v
      rw [hs] at h1; rw [he] at h2
      exact ⟨fun h => (hround k s h1 h2 v).1 ((hsame _ _).1 h), fun h => (hround k s h1 h2 v).2 ((hsame _ _).1 h)⟩
    refine ⟨P, c, o, hcall, ?_, by rw [hs, he], ?_, ?_⟩
    · rw [hs, he] at hP; exact hP
    · intro hRp
      have hR : Respects p.toC.Dep P := fun u v h => hRp u v ((hsame u v).1 h)
      refine ⟨?_, ?_⟩
      · rw [hlens, ← hcongr P hP]
        apply List.map_congr_left
        intro q hq
        exact length_eq_cost hP hrange hdep' hR hround' hq
      · intro h0 hcalm hmode P' v v' hP' hR' hv hv'
        subst h0
        have hk : p.toC.Checked o := by
          refine ⟨fun P2 hP2 hl2 => ?_, ?_⟩
          · rw [shown_inj hP2 hP (layout_unique hl2 hlay)]; exact hR
          · rcases hmode with h | h | h
            · exact Or.inl h
            · exact Or.inr (Or.inl h)
            · exact Or.inr (Or.inr (hod h))
        obtain ⟨P2, v2, hP2, hc2, hmin, _, hup, hlay2⟩ := C64_checked_is_optimal_partial hT hL hcall hcalm hk
        have := shown_inj hP hP2.1 (layout_unique hlay hlay2)
        subst this
        rw [← hs, ← he] at hP'
        have e1 : v = v2 := isObjective_unique ((isObjective_congr (hcongr P hP) v).2 hv) hc2
        rw [e1]
        exact hmin P' v' ⟨hP', fun u v h => hR' u v ((hsame u v).1 h)⟩ ((isObjective_congr (hcongr P' hP') v').2 hv')
    · intro hd u v huv
      obtain ⟨_, P3, _, c2, c3, _, _, c5⟩ := C64_upper_bound_partial hT hL hcall hc
      have := shown_inj hP c2 (layout_unique hlay c3)
      subst this
      exact c5 (hod hd) u v ((hsame u v).2 huv)

/-- **C79 (partial), end to end.** For such arguments whose dependencies only say which agent visits a node (none of them at the depot of a
round trip, see `C80_refuted`), and depots that are not shared: what the Python function returns are
complete paths (one per agent, from its start to its end, every other node exactly once) that respect the dependencies, with their true lengths; and if in
addition the search was calm and complete (code SOLVED), no other such choice of paths has a smaller total (or largest) length. -/
theorem C79_end_to_end_partial (h : p.WellFormed) (hL : L.Correct) (hd : OnlyDepotDeps p.weights.length p.given p.starts p.ends)
    (hround : ∀ (k s : Nat), p.starts[k]? = some s → p.ends[k]? = some s → ∀ v, ¬ p.Dep s v ∧ ¬ p.Dep v s) (hdep : (depotUses p.starts p.ends).Nodup)
    {W : List (List Nat)} {lens : List ℚ} (hrun : p.Run L t tr (some (.ok (W, lens)))) :
    ∃ P c o, p.toC.Call L t tr (.ret c o) ∧ InputCover p.weights.length p.starts p.ends P ∧ Respects p.Dep P ∧ W = shown p.starts p.ends P ∧
      lens = P.map (pathCost (inputCost p.given)) ∧
      (c = 0 → p.toC.Calm L tr → ∀ P' v v', InputCover p.weights.length p.starts p.ends P' → Respects p.Dep P' → IsObjective p.toC.opt (inputCost p.given) P v →
        IsObjective p.toC.opt (inputCost p.given) P' v' → v ≤ v') := by
  obtain ⟨P, c, o, hcall, hP, hW, hk, hR⟩ := C79_checked_paths_partial h hL hround hdep hrun
  obtain ⟨h1, h2⟩ := hk (hR hd)
  exact ⟨P, c, o, hcall, hP, hR hd, hW, h1, fun h0 hcalm => h2 h0 hcalm (Or.inr (Or.inr hd))⟩

/-! ### What is not checked -/

/-- two inner nodes: 0 - 1 - 2 - 3 costs 2.7, 0 - 2 - 1 - 3 costs 0.3 -/
def c79Frac : PyArgs :=
  { starts := [0], ends := [3], weights := [[0, 9/10, 1/10, 9/10], [9/10, 0, 9/10, 1/10], [9/10, 1/10, 0, 9/10], [9/10, 9/10, 9/10, 0]], mode := "sum".toList, threads := 1 }

/-- **C79 is false in full**: fractions are cut off silently.  All weights here are below 1 and become 0; the path that is returned is nine times
as long as the best one, and its length is reported as 0. -/
theorem C79_refuted_fractions : ∃ (p : PyArgs) (tr : List (Nat × Inp)), p.ends.length = p.starts.length ∧ (∀ r ∈ p.weights, r.length = p.weights.length) ∧
    (∀ r ∈ p.weights, ∀ q ∈ r, 0 ≤ q) ∧ exLib.Correct ∧ p.Run exLib 100 tr (some (.ok ([[0, 1, 2, 3]], [0]))) ∧
    InputCover p.weights.length p.starts p.ends [[0, 1, 2, 3]] ∧ pathCost p.given [0, 1, 2, 3] = 27 / 10 ∧
    InputCover p.weights.length p.starts p.ends [[0, 2, 1, 3]] ∧ pathCost p.given [0, 2, 1, 3] = 3 / 10 := by
  obtain ⟨tr, x, h1, h2, h3⟩ := callB_sound (a := c79Frac.toC) (L := exLib) (t := 100) (script := idle 3) (late := false)
    (p := fun x => match pyResult c79Frac.toC x with | some (.ok (P, l)) => decide (P = [[0, 1, 2, 3]]) && decide (l = [0]) | _ => false)
    (by decide +kernel)
  have hcov : ∀ mid : List Nat, mid.Perm [1, 2] → InputCover 4 [0] [3] [0 :: mid ++ [3]] := by
    intro mid hm
    refine ⟨rfl, ?_, ?_⟩
    · intro k q hq
      cases k with
      | zero => simp at hq; exact ⟨0, 3, mid, rfl, rfl, by rw [← hq]; rfl⟩
      | succ k => simp at hq
    · have e1 : ([0 :: mid ++ [3]].map middle).flatten = mid := by simp [middle]
      have e2 : ((List.range 4).filter fun v => decide (v ∉ [0] ++ [3])) = [1, 2] := by decide
      rw [e1, e2]; exact hm
  refine ⟨c79Frac, tr, rfl, by decide, by decide +kernel, exLib_correct, ?_, hcov [1, 2] (List.Perm.refl _), by decide +kernel, hcov [2, 1] (by decide), by decide +kernel⟩
  have := PyArgs.Run.call (L := exLib) (t := 100) (p := c79Frac) tr x (by decide +kernel) (Or.inr (by decide +kernel)) h1
  split at h2
  · rename_i P l heq
    simp only [Bool.and_eq_true, decide_eq_true_eq] at h2
    rw [heq, h2.1, h2.2] at this
    exact this
  · simp at h2

/-- A weight of -1.5 becomes a dependency. -/
theorem C79_refuted_flag : ∃ (p : PyArgs), p.convertible = true ∧ p.tooShort = false ∧ p.given 2 1 = -3 / 2 ∧ p.toC.Dep 1 2 :=
  ⟨{ starts := [0], ends := [3], weights := [[0, 1, 1, 1], [1, 0, 1, 1], [1, -3/2, 0, 1], [1, 1, 1, 0]], mode := "sum".toList, threads := 1 },
    by decide +kernel, by decide +kernel, by decide +kernel, by decide, by decide, by decide, by decide +kernel⟩

/-- A misspelt objective is taken for "sum". -/
theorem C79_refuted_mode : ∃ (p : PyArgs), p.WellFormed ∧ p.mode = "maximum".toList ∧ p.toC.opt = .sum ∧ p.toC.badMode = false :=
  ⟨{ starts := [0], ends := [1], weights := [[0, 1], [1, 0]], mode := "maximum".toList, threads := 1 },
    ⟨rfl, by decide, by
      intro r hr q hq
      have : q = 0 ∨ q = 1 := by
        simp at hr
        rcases hr with rfl | rfl <;> simp at hq <;> tauto
      rcases this with rfl | rfl
      · exact ⟨0, by norm_num, by norm_num, by norm_num⟩
      · exact ⟨1, by norm_num, by norm_num, by norm_num⟩, by decide⟩, rfl, by decide +kernel, by decide +kernel⟩

/-- One end position too few, or rows that are too short: the C function reads behind the end of the array. -/
theorem C79_refuted_lengths :
    (∃ p : PyArgs, p.ends.length + 1 = p.starts.length ∧ (∀ r ∈ p.weights, r.length = p.weights.length) ∧ ∀ L t, p.Run L t [] none) ∧
    (∃ p : PyArgs, p.ends.length = p.starts.length ∧ (∀ r ∈ p.weights, r.length + 1 = p.weights.length) ∧ ∀ L t, p.Run L t [] none) := by
  refine ⟨⟨{ starts := [0, 1], ends := [2], weights := [[0, 1, 1, 1], [1, 0, 1, 1], [1, 1, 0, 1], [1, 1, 1, 0]], mode := "sum".toList, threads := 1 },
    rfl, by decide, fun L t => .overrun (by decide +kernel) (by decide +kernel) (by decide +kernel)⟩,
    ⟨{ starts := [0], ends := [2], weights := [[0, 1], [1, 0], [1, 1]], mode := "sum".toList, threads := 1 },
    rfl, by decide, fun L t => .overrun (by decide +kernel) (by decide +kernel) (by decide +kernel)⟩⟩

/-- Rows that are too long: the rows are read at the wrong places. -/
theorem C79_refuted_stride : ∃ p : PyArgs, p.ends.length = p.starts.length ∧ (∀ r ∈ p.weights, r.length = p.weights.length + 1) ∧
    p.convertible = true ∧ p.tooShort = false ∧ p.given 1 2 = 7 ∧ p.toC.weight 1 2 = 5 :=
  ⟨{ starts := [0], ends := [2], weights := [[0, 1, 1, 1], [1, 5, 7, 1], [1, 1, 0, 1]], mode := "sum".toList, threads := 1 },
    rfl, by decide, by decide +kernel, by decide +kernel, by decide +kernel, by decide +kernel⟩

/-- The hypotheses of the positive theorems are met: two agents, and a dependency saying that the second one visits node 4. -/
def c79Dep : PyArgs :=
  { starts := [0, 1], ends := [2, 3], weights := [[0, 5, 0, 5, 0], [5, 0, 5, 0, 0], [5, 5, 0, 5, 5], [5, 5, 5, 0, 5], [5, -1, 0, 0, 0]],
    mode := "Sum".toList, threads := 1 }

example : ∃ (p : PyArgs) (tr : List (Nat × Inp)) (W : List (List Nat)) (lens : List ℚ), p.WellFormed ∧ exLib.Correct ∧
    OnlyDepotDeps p.weights.length p.given p.starts p.ends ∧ (∀ (k s : Nat), p.starts[k]? = some s → p.ends[k]? = some s → ∀ v, ¬ p.Dep s v ∧ ¬ p.Dep v s) ∧
    p.Dep 1 4 ∧ (depotUses p.starts p.ends).Nodup ∧ p.Run exLib 100 tr (some (.ok (W, lens))) ∧ p.toC.Calm exLib tr ∧ W = [[0, 2], [1, 4, 3]] := by
  obtain ⟨tr, x, h1, h2, h3, _, h4, _⟩ := callB_full (a := c79Dep.toC) (L := exLib) (t := 100) (script := idle 3) (late := false)
    (p := fun x => match pyResult c79Dep.toC x with | some (.ok (P, l)) => decide (P = [[0, 2], [1, 4, 3]]) | _ => false)
    (by decide +kernel)
  have hrun := PyArgs.Run.call (L := exLib) (t := 100) (p := c79Dep) tr x (by decide +kernel) (Or.inr (by decide +kernel)) h1
  have hdep : ∀ u < c79Dep.weights.length, ∀ v < c79Dep.weights.length, c79Dep.given v u = -1 → u = 1 ∧ v = 4 := by decide +kernel
  split at h2
  · rename_i P l heq
    rw [heq] at hrun
    refine ⟨c79Dep, tr, P, l, ⟨rfl, by decide, ?_, by decide⟩, exLib_correct, ?_, ?_, ?_, by decide, hrun, ?_, by simpa using h2⟩
    · have key : ∀ r ∈ c79Dep.weights, ∀ q ∈ r, q = 0 ∨ q = 5 ∨ q = -1 := by decide +kernel
      intro r hr q hq
      rcases key r hr q hq with rfl | rfl | rfl
      · exact ⟨0, by norm_num, by norm_num, by norm_num⟩
      · exact ⟨5, by norm_num, by norm_num, by norm_num⟩
      · exact ⟨-1, by norm_num, by norm_num, by norm_num⟩
    · refine ⟨?_, ?_⟩
      · rintro u v ⟨hu, hv, _, hw⟩
        obtain ⟨rfl, rfl⟩ := hdep u hu v hv hw
        decide
      · rintro u v b ⟨hu, hv, _, hw⟩ hb
        obtain ⟨rfl, rfl⟩ := hdep u hu v hv hw
        exact absurd (List.mem_of_getElem? hb) (by decide)
    · intro k s hs he
      rcases k with _ | _ | k
      · simp [c79Dep] at hs he; omega
      · simp [c79Dep] at hs he; omega
      · simp [c79Dep] at hs
    · exact ⟨by decide, by decide, by decide, by decide +kernel⟩
    · intro i hi
      obtain ⟨e1, e2, _⟩ := h3 rfl i hi
      refine ⟨e2, Or.inl e1, Or.inr ?_⟩
      intro m _ y rc he
      obtain ⟨z, hz, m', hz'⟩ := h4 i hi y rc he
      rw [List.eq_of_mem_replicate hz] at hz'
      simp at hz'
  · simp at h2

/-- A dependency between inner nodes: node 2 before node 1. -/
def c79Inner : PyArgs :=
  { starts := [0], ends := [3], weights := [[0, 5, 0, 5], [5, 0, -1, 0], [5, 0, 0, 5], [5, 5, 5, 0]], mode := "sum".toList, threads := 1 }

example : ∃ (p : PyArgs) (tr : List (Nat × Inp)) (o : COut) (lens : List ℚ), p.WellFormed ∧ exLib.Correct ∧
    (∀ (k s : Nat), p.starts[k]? = some s → p.ends[k]? = some s → ∀ v, ¬ p.Dep s v ∧ ¬ p.Dep v s) ∧
    p.Dep 2 1 ∧ (depotUses p.starts p.ends).Nodup ∧ p.Run exLib 100 tr (some (.ok ([[0, 2, 1, 3]], lens))) ∧ p.toC.Call exLib 100 tr (.ret 0 o) ∧
    p.toC.Calm exLib tr ∧ p.toC.opt = .sum ∧ Respects p.Dep [[0, 2, 1, 3]] := by
  obtain ⟨tr, x, h1, h2, h3, _, h4, _⟩ := callB_full (a := c79Inner.toC) (L := exLib) (t := 100) (script := idle 3) (late := false)
    (p := fun x => isRet 0 0 0 [0, 2, 1, 3] [0] x && match pyResult c79Inner.toC x with | some (.ok (P, _)) => decide (P = [[0, 2, 1, 3]]) | _ => false)
    (by decide +kernel)
  have hrun := PyArgs.Run.call (L := exLib) (t := 100) (p := c79Inner) tr x (by decide +kernel) (Or.inr (by decide +kernel)) h1
  have hdep : ∀ u < c79Inner.weights.length, ∀ v < c79Inner.weights.length, c79Inner.given v u = -1 → u = 2 ∧ v = 1 := by decide +kernel
  rw [Bool.and_eq_true] at h2
  obtain ⟨h2, h5⟩ := h2
  obtain ⟨o, rfl, _⟩ := isRet_ret h2
  split at h5
  · rename_i P l heq
    rw [heq] at hrun
    have hP : P = [[0, 2, 1, 3]] := by simpa using h5
    subst hP
    refine ⟨c79Inner, tr, o, l, ⟨rfl, by decide, ?_, by decide⟩, exLib_correct, ?_, ?_, by decide, hrun, h1, ?_, by decide +kernel, ?_⟩
    · have key : ∀ r ∈ c79Inner.weights, ∀ q ∈ r, q = 0 ∨ q = 5 ∨ q = -1 := by decide +kernel
      intro r hr q hq
      rcases key r hr q hq with rfl | rfl | rfl
      · exact ⟨0, by norm_num, by norm_num, by norm_num⟩
      · exact ⟨5, by norm_num, by norm_num, by norm_num⟩
      · exact ⟨-1, by norm_num, by norm_num, by norm_num⟩
    · intro k s hs he
      rcases k with _ | k
      · simp [c79Inner] at hs he; omega
      · simp [c79Inner] at hs
    · exact ⟨by decide, by decide, by decide, by decide +kernel⟩
    · intro i hi
      obtain ⟨e1, e2, _⟩ := h3 rfl i hi
      refine ⟨e2, Or.inl e1, Or.inr ?_⟩
      intro m _ y rc he
      obtain ⟨z, hz, m', hz'⟩ := h4 i hi y rc he
      rw [List.eq_of_mem_replicate hz] at hz'
      simp at hz'
    · rintro u v ⟨hu, hv, _, hw⟩
      obtain ⟨rfl, rfl⟩ := hdep u hu v hv hw
      exact ⟨[0, 2, 1, 3], by simp, [0], [], [3], rfl⟩
  · simp at h5

/-- **C79**, exceptions: of the negative codes that a call can end with, only the one for an unexpected exception has no text of its own. -/
theorem C79_messages (h : p.WellFormed) (hL : L.Correct) {c : ℤ} {o : COut} (hcall : p.toC.Call L t tr (.ret c o)) (hc : c < 0) :
    c = -3 ∧ pyMessage c = "Invalid input size" ∨ c = -5 ∧ pyMessage c = "Cyclic dependencies" ∨
    c = -6 ∧ pyMessage c = "Incompatible dependencies" ∨ c = -2147483648 := by
  rcases C46_codes (C79_arguments h).1 hL hcall with ⟨h1, _⟩ | ⟨_, _, _, _, _, h1 | h1, _⟩
  · have h4 := py_codes p hcall o
    simp only [List.mem_cons, List.not_mem_nil, or_false] at h1
    rcases h1 with rfl | rfl | rfl | rfl | rfl | rfl
    · exact Or.inl ⟨rfl, by simp [pyMessage]⟩
    · exact absurd rfl h4.1
    · exact Or.inr (Or.inl ⟨rfl, by simp [pyMessage]⟩)
    · exact Or.inr (Or.inr (Or.inl ⟨rfl, by simp [pyMessage]⟩))
    · exact absurd rfl h4.2
    · exact Or.inr (Or.inr (Or.inr rfl))
  · omega
  · omega

end
end Mtsp
