import Verif.Props.EndToEnd
import Verif.Props.SearchRefuted

/-! C64 with dependencies: what a caller knows who checks the paths against the dependencies.  C62: with dependencies it fails.
C77: results of different calls for the same instance. -/

namespace Mtsp

/-- **C62 is false in full** (with dependencies): all workers have left the loop, there was no deadline and nothing unusual, and the
stored paths violate a dependency. -/
theorem C62_refuted : ∃ (e : BEnv) (rows : Nat) (w : Weights) (starts ends : List Nat) (t t' : Nat) (r : ResState)
    (tr : List (Nat × Inp)) (s : BState) (u v : Nat),
    e.Good rows w starts ends ∧ createInitialResult e.mode e.m t ResState.init = .ok (r, t') ∧ e.m.n ≤ t ∧
    BRun e r tr s ∧ (∀ x ∈ tr, x.2.Calm e False) ∧ (∀ k < e.threads, (s.wk k).pc = .left) ∧
    InputDep rows w u v ∧ ¬ Respects (InputDep rows w) s.res.paths := by
  obtain ⟨e, rows, w, starts, ends, t, t', r, tr, s, u, v, g, hr, ht, _, hrun, hc, hl, _, hd, hb⟩ := C43_refuted
  exact ⟨e, rows, w, starts, ends, t, t', r, tr, s, u, v, g, hr, ht, hrun, hc, hl, hd, fun h => by
    obtain ⟨p, hp, hb'⟩ := h u v hd
    exact hb p hp hb'⟩

theorem shown_getElem? (starts ends : List Nat) (P : Paths) (k : Nat) :
    (shown starts ends P)[k]? = (P[k]?).map fun p => if starts[k]? = ends[k]? then p.dropLast else p := by
  unfold shown; rw [List.getElem?_mapIdx]

/-- the output determines the paths -/
theorem layout_unique {W W' : Paths} {o : COut} (h : Layout W o) (h' : Layout W' o) : W = W' := by
  have hfl : W.flatten = W'.flatten := List.ext_getElem? fun i => by rw [← h.nodes, ← h'.nodes]
  have hlen : W.length = W'.length := by
    rcases Nat.lt_trichotomy W.length W'.length with hl | hl | hl
    · have e1 := h.offs W.length
      have e2 := h'.offs W.length
      rw [if_neg (lt_irrefl _)] at e1
      rw [if_pos hl, e1] at e2
      simp at e2
    · exact hl
    · have e1 := h'.offs W'.length
      have e2 := h.offs W'.length
      rw [if_neg (lt_irrefl _)] at e1
      rw [if_pos hl, e1] at e2
      simp at e2
  have hpre : ∀ k, (W.take k).flatten = (W'.take k).flatten := by
    intro k
    have hl : (W.take k).flatten.length = (W'.take k).flatten.length := by
      by_cases hk : k < W.length
      · have e1 := h.offs k
        have e2 := h'.offs k
        rw [if_pos hk] at e1
        rw [if_pos (by omega), e1] at e2
        simpa using e2
      · rw [List.take_of_length_le (by omega), List.take_of_length_le (by omega), hfl]
    have e1 : W.flatten = (W.take k).flatten ++ (W.drop k).flatten := by rw [← List.flatten_append, List.take_append_drop]
    have e2 : W'.flatten = (W'.take k).flatten ++ (W'.drop k).flatten := by rw [← List.flatten_append, List.take_append_drop]
    rw [e1, e2] at hfl
    exact List.append_inj_left hfl hl
  apply List.ext_getElem hlen
  intro k h1 h2
  have e := hpre (k + 1)
  rw [List.take_succ_eq_append_getElem h1, List.take_succ_eq_append_getElem h2, List.flatten_append, List.flatten_append, hpre k] at e
  simpa using e

theorem shown_inj {N : Nat} {starts ends : List Nat} {P P' : Paths} (h : InputCover N starts ends P) (h' : InputCover N starts ends P')
    (he : shown starts ends P = shown starts ends P') : P = P' := by
  apply List.ext_getElem (by rw [h.len, h'.len])
  intro k h1 h2
  have hk : (shown starts ends P)[k]? = (shown starts ends P')[k]? := by rw [he]
  rw [shown_getElem?, shown_getElem?, List.getElem?_eq_getElem h1, List.getElem?_eq_getElem h2] at hk
  simp only [Option.map_some, Option.some.injEq] at hk
  obtain ⟨s, e, mid, e1, e2, e3⟩ := h.shape k _ (List.getElem?_eq_getElem h1)
  obtain ⟨s', e', mid', e1', e2', e3'⟩ := h'.shape k _ (List.getElem?_eq_getElem h2)
  rw [e1] at e1'
  rw [e2] at e2'
  simp only [Option.some.injEq] at e1' e2'
  subst e1' e2'
  split at hk
  · rw [e3, e3', List.dropLast_concat, List.dropLast_concat] at hk
    rw [e3, e3', hk]
  · exact hk

section
variable {a b : CArgs} {L M : Lib} {t t' : Nat} {tr tr' : List (Nat × Inp)}

/-- The caller has looked at the output: the paths in it respect all dependencies, and with objective "max" and dependencies between inner nodes
the upper bound is not negative.  (Without dependencies there is nothing to look at.) -/
def CArgs.Checked (a : CArgs) (o : COut) : Prop :=
  (∀ P, InputCover a.N a.startList a.endList P → Layout (shown a.startList a.endList P) o → Respects a.Dep P) ∧
  (a.opt = .sum ∨ (∀ up, o.upper = some up → 0 ≤ up) ∨ OnlyDepotDeps a.N a.weight a.startList a.endList)

/-- There is nothing to look at either if the dependencies only say which agent visits a node. -/
theorem CArgs.checked_of_depots (hT : a.Typed) (hL : L.Correct) (hd : OnlyDepotDeps a.N a.weight a.startList a.endList) {c : ℤ} {o : COut}
    (h : a.Call L t tr (.ret c o)) (hc : 0 ≤ c) : a.Checked o := by
  obtain ⟨_, P, _, h1, h2, _, _, h3⟩ := C64_upper_bound_partial hT hL h hc
  refine ⟨fun P' hP' hl => ?_, Or.inr (Or.inr hd)⟩
  rw [shown_inj hP' h1 (layout_unique hl h2)]
  exact h3 hd

theorem CArgs.checked_of_free (o : COut) (hd : ∀ u v, ¬ a.Dep u v) : a.Checked o :=
  ⟨fun _ _ _ u v h => absurd h (hd u v), Or.inr (Or.inr ⟨fun u v h => absurd h (hd u v), fun u v _ h => absurd h (hd u v)⟩)⟩

/-- a checked output is a solution of the cost reported -/
theorem checked_solution (hT : a.Typed) (hL : L.Correct) {c : ℤ} {o : COut}
    (h : a.Call L t tr (.ret c o)) (hc : 0 ≤ c) (hk : a.Checked o) :
    ∃ P up, a.Solution P ∧ a.Costs P up ∧ o.upper = some up ∧ Layout (shown a.startList a.endList P) o := by
  obtain ⟨up, P, e1, e2, e3, e4, _⟩ := C64_upper_bound_partial hT hL h hc
  have hR := hk.1 P e2 e3
  refine ⟨P, up, ⟨e2, hR⟩, e4 hR ?_, e1, e3⟩
  rcases hk.2 with h | h | h
  · exact Or.inl h
  · exact Or.inr (Or.inl (h _ e1))
  · exact Or.inr (Or.inr h)

/-- **C64 (partial), with dependencies.** SOLVED after a calm search and a checked output: the paths are an optimal solution, and both
bounds are its cost. -/
theorem C64_checked_is_optimal_partial (hT : a.Typed) (hL : L.Correct) {o : COut}
    (h : a.Call L t tr (.ret 0 o)) (hcalm : a.Calm L tr) (hk : a.Checked o) :
    ∃ P v, a.Solution P ∧ a.Costs P v ∧ (∀ P' v', a.Solution P' → a.Costs P' v' → v ≤ v') ∧
      o.lower = some v ∧ o.upper = some v ∧ Layout (shown a.startList a.endList P) o := by
  obtain ⟨P, up, hP, hc, e1, e3⟩ := checked_solution hT hL h (le_refl _) hk
  obtain ⟨lo, f1, f2⟩ := C64_lower_bound_partial hT hL h (le_refl _) hcalm
  rcases C46_codes hT hL h with ⟨h1, _⟩ | ⟨lo', up', g1, g2, g3, _, g4⟩
  · simp at h1
  · rw [f1] at g1
    rw [e1] at g2
    simp only [Option.some.injEq] at g1 g2
    subst g1 g2
    have : lo = up := le_antisymm g3 (g4.1 rfl)
    subst this
    exact ⟨P, lo, hP, hc, f2, f1, e1, e3⟩

/-- the two calls are about the same instance; the number of threads, the clock, the libraries, the callback and the buffers may differ,
and so may the weights from a node to itself -/
structure CArgs.SameInstance (a b : CArgs) : Prop where
  nodes : a.N = b.N
  starts : a.startList = b.startList
  ends : a.endList = b.endList
  weight : ∀ u < a.N, ∀ v < a.N, u ≠ v → a.weight u v = b.weight u v
  opt : a.opt = b.opt

theorem inputCover_lt {N : Nat} {starts ends : List Nat} {P : Paths} (h : InputCover N starts ends P) (hs : ∀ s ∈ starts, s < N) (he : ∀ s ∈ ends, s < N) :
    ∀ p ∈ P, ∀ x ∈ p, x < N := by
  intro p hp x hx
  obtain ⟨k, hk, rfl⟩ := List.getElem_of_mem hp
  obtain ⟨s, e, mid, h1, h2, h3⟩ := h.shape k _ (List.getElem?_eq_getElem hk)
  have hmid : ∀ y ∈ mid, y < N := by
    intro y hy
    have : y ∈ (P.map middle).flatten := by
      rw [List.mem_flatten]
      refine ⟨middle P[k], List.mem_map.2 ⟨_, hp, rfl⟩, ?_⟩
      rw [h3]
      simpa [middle] using hy
    have := h.rest.mem_iff.1 this
    simp at this
    exact this.1
  rw [h3] at hx
  simp only [List.cons_append, List.mem_cons, List.mem_append, List.not_mem_nil, or_false] at hx
  rcases hx with rfl | hx | rfl
  · exact hs _ (List.mem_of_getElem? h1)
  · exact hmid x hx
  · exact he _ (List.mem_of_getElem? h2)

theorem pathCost_congr {w w' : Weights} : ∀ (p : List Nat), (∀ u ∈ p, ∀ v ∈ p, w u v = w' u v) → pathCost w p = pathCost w' p
  | [], _ => rfl
  | [_], _ => rfl
  | x :: y :: p, h => by
    rw [pathCost, pathCost, h x (by simp) y (by simp), pathCost_congr (y :: p) fun u hu v hv => h u (List.mem_cons_of_mem _ hu) v (List.mem_cons_of_mem _ hv)]

theorem isObjective_congr {mode : Mode} {w w' : Weights} {P P' : Paths} (h : P.map (pathCost w) = P'.map (pathCost w')) (v : ℚ) :
    IsObjective mode w P v ↔ IsObjective mode w' P' v := by
  have hk : ∀ k : Nat, (P[k]?).map (pathCost w) = (P'[k]?).map (pathCost w') := fun k => by
    rw [← List.getElem?_map, ← List.getElem?_map, h]
  cases mode with
  | sum =>
    simp only [IsObjective]
    have : sumCost (fun _ => w) P = sumCost (fun _ => w') P' := by
      unfold sumCost
      have e : ∀ (c : Weights) (Q : Paths), (Q.mapIdx fun _ p => pathCost c p) = Q.map (pathCost c) := fun c Q => by
        apply List.ext_getElem?
        intro i
        simp
      rw [e, e, h]
    rw [this]
  | max =>
    have key : ∀ (Q Q' : Paths) (c c' : Weights), (∀ k : Nat, (Q[k]?).map (pathCost c) = (Q'[k]?).map (pathCost c')) →
        IsObjective .max c Q v → IsObjective .max c' Q' v := by
      rintro Q Q' c c' hk ⟨h0, h1, h2⟩
      refine ⟨h0, ?_, ?_⟩
      · intro k q hq
        have := hk k
        rw [hq] at this
        obtain ⟨p, hp, e⟩ := Option.map_eq_some_iff.1 this
        have := h1 k p hp
        dsimp only at this ⊢
        rw [← e]; exact this
      · rcases h2 with h2 | ⟨k, p, hp, e⟩
        · exact Or.inl h2
        · right
          have := hk k
          rw [hp] at this
          obtain ⟨q, hq, e'⟩ := Option.map_eq_some_iff.1 this.symm
          exact ⟨k, q, hq, by rw [e']; exact e⟩
    exact ⟨key _ _ _ _ hk, key _ _ _ _ fun k => (hk k).symm⟩

theorem CArgs.SameInstance.solution (hs : a.SameInstance b) (hr : a.InRange) {P : Paths} {v : ℚ} (h : a.Solution P) :
    b.Solution P ∧ (a.Costs P v ↔ b.Costs P v) := by
  have hlt := inputCover_lt h.1 hr.1 hr.2
  refine ⟨⟨by rw [← hs.nodes, ← hs.starts, ← hs.ends]; exact h.1, fun u v' hd => h.2 u v' ?_⟩, ?_⟩
  · obtain ⟨h1, h2, h3, h4⟩ := hd
    rw [← hs.nodes] at h1 h2
    exact ⟨h1, h2, h3, by rw [hs.weight v' h2 u h1 (Ne.symm h3)]; exact h4⟩
  · unfold CArgs.Costs
    rw [hs.opt]
    apply isObjective_congr
    apply List.map_congr_left
    intro p hp
    apply pathCost_congr
    intro u hu v' hv
    unfold inputCost
    by_cases e : u = v'
    · simp [e]
    · rw [hs.weight u (hlt p hp u hu) v' (hlt p hp v' hv) e]

theorem CArgs.SameInstance.symm (hs : a.SameInstance b) : b.SameInstance a :=
  ⟨hs.nodes.symm, hs.starts.symm, hs.ends.symm, fun u hu v hv hne => (hs.weight u (by rw [hs.nodes]; exact hu) v (by rw [hs.nodes]; exact hv) hne).symm, hs.opt.symm⟩

/-- **C77.** Whatever the number of threads, the schedule, the libraries and the clock: the bounds of two calls for the same
instance never contradict each other: the lower bound of a calm one does not exceed the upper bound of a checked one. -/
theorem C77_bounds_compatible_partial (hs : a.SameInstance b) (hTa : a.Typed) (hTb : b.Typed) (hL : L.Correct) (hM : M.Correct)
    {c d : ℤ} {o o' : COut}
    (ha : a.Call L t tr (.ret c o)) (hb : b.Call M t' tr' (.ret d o')) (hc : 0 ≤ c) (hd : 0 ≤ d)
    (hcalm : a.Calm L tr) (hk : b.Checked o') : ∃ lo up, o.lower = some lo ∧ o'.upper = some up ∧ lo ≤ up := by
  obtain ⟨lo, h1, h2⟩ := C64_lower_bound_partial hTa hL ha hc hcalm
  obtain ⟨P, up, h3, h4, h5, _⟩ := checked_solution hTb hM hb hd hk
  obtain ⟨_, hr, _⟩ := call_success hTb hM hb hd
  obtain ⟨h6, h7⟩ := hs.symm.solution hr (v := up) h3
  exact ⟨lo, up, h1, h5, h2 P up h6 (h7.1 h4)⟩

/-- **C77**, results: two calm calls for the same instance that both report SOLVED report the same cost, and each one's paths (if
checked) are an optimal solution for both. -/
theorem C77_same_result_partial (hs : a.SameInstance b) (hTa : a.Typed) (hTb : b.Typed) (hL : L.Correct) (hM : M.Correct)
    {o o' : COut}
    (ha : a.Call L t tr (.ret 0 o)) (hb : b.Call M t' tr' (.ret 0 o')) (hca : a.Calm L tr) (hcb : b.Calm M tr')
    (hka : a.Checked o) (hkb : b.Checked o') : ∃ v, o.lower = some v ∧ o.upper = some v ∧ o'.lower = some v ∧ o'.upper = some v := by
  obtain ⟨P, v, _, _, _, h1, h2, _⟩ := C64_checked_is_optimal_partial hTa hL ha hca hka
  obtain ⟨P', v', _, _, _, h3, h4, _⟩ := C64_checked_is_optimal_partial hTb hM hb hcb hkb
  obtain ⟨x, y, e1, e2, e3⟩ := C77_bounds_compatible_partial hs hTa hTb hL hM ha hb (le_refl _) (le_refl _) hca hkb
  obtain ⟨x', y', e1', e2', e3'⟩ := C77_bounds_compatible_partial hs.symm hTb hTa hM hL hb ha (le_refl _) (le_refl _) hcb hka
  rw [h1] at e1; rw [h4] at e2; rw [h3] at e1'; rw [h2] at e2'
  simp only [Option.some.injEq] at e1 e2 e1' e2'
  subst e1 e2 e1' e2'
  have : v = v' := le_antisymm e3 e3'
  subst this
  exact ⟨v, h1, h2, h3, h4⟩

theorem CArgs.SameInstance.onlyDepots (hs : a.SameInstance b) (h : OnlyDepotDeps a.N a.weight a.startList a.endList) :
    OnlyDepotDeps b.N b.weight b.startList b.endList := by
  have hd : ∀ u v, b.Dep u v → a.Dep u v := by
    rintro u v ⟨h1, h2, h3, h4⟩
    rw [← hs.nodes] at h1 h2
    exact ⟨h1, h2, h3, by rw [hs.weight v h2 u h1 (Ne.symm h3)]; exact h4⟩
  refine ⟨fun u v h' => ?_, fun u v k h' => ?_⟩
  · rw [← hs.starts, ← hs.ends]; exact h.1 u v (hd u v h')
  · rw [← hs.starts, ← hs.ends]; exact h.2 u v k (hd u v h')

/-- **C77**, nothing to check: if the dependencies (if any) only say which agent visits a node, two calm calls for the same instance that both
report SOLVED report the same cost. -/
theorem C77_depot_dependencies_partial (hs : a.SameInstance b) (hTa : a.Typed) (hTb : b.Typed) (hL : L.Correct) (hM : M.Correct)
    (hd : OnlyDepotDeps a.N a.weight a.startList a.endList) {o o' : COut}
    (ha : a.Call L t tr (.ret 0 o)) (hb : b.Call M t' tr' (.ret 0 o')) (hca : a.Calm L tr) (hcb : b.Calm M tr') :
    ∃ v, o.lower = some v ∧ o.upper = some v ∧ o'.lower = some v ∧ o'.upper = some v :=
  C77_same_result_partial hs hTa hTb hL hM ha hb hca hcb (CArgs.checked_of_depots hTa hL hd ha (le_refl _))
    (CArgs.checked_of_depots hTb hM (hs.onlyDepots hd) hb (le_refl _))

/-- four nodes, from 0 to 3, node 1 before node 2 -/
def c77Args : CArgs := exArgs 1 4 [0] [3] [[0, 0, 5, 5], [5, 0, 0, 5], [5, -1, 0, 0], [5, 5, 5, 0]] 0

/-- The hypotheses are met by two concrete calls with one and two threads, on an instance with a dependency. -/
example : ∃ (a b : CArgs) (tr tr' : List (Nat × Inp)) (o o' : COut), a.SameInstance b ∧ a.Typed ∧ b.Typed ∧ exLib.Correct ∧
    a.Call exLib 100 tr (.ret 0 o) ∧ b.Call exLib 200 tr' (.ret 0 o') ∧
    a.Calm exLib tr ∧ b.Calm exLib tr' ∧ a.Checked o ∧ b.Checked o' ∧ a.Dep 1 2 ∧ a.threads = 1 ∧ b.threads = 2 := by
  have hT : c77Args.Typed := exArgs_typed (by decide) (by decide) (by decide)
  obtain ⟨tr, x, h1, h2, h3⟩ := callB_sound (a := c77Args) (L := exLib) (t := 100) (script := idle 3) (late := false) (p := isRet 0 0 0 [0, 1, 2, 3] [0])
    (by decide +kernel)
  obtain ⟨o, rfl, _, _, hp, _⟩ := isRet_ret h2
  obtain ⟨tr', x', h1', h2', h3'⟩ := callB_sound (a := { c77Args with threads := 2 }) (L := exLib) (t := 200)
    (script := [(0, .go false), (1, .go false), (0, .go false), (1, .go false), (0, .go false), (1, .go false)]) (late := false) (p := isRet 0 0 0 [0, 1, 2, 3] [0])
    (by decide +kernel)
  obtain ⟨o', rfl, _, _, hp', _⟩ := isRet_ret h2'
  have hdep : ∀ u < 4, ∀ v < 4, c77Args.weight v u = -1 → u = 1 ∧ v = 2 := by decide +kernel
  have hck : ∀ (a : CArgs) (o : COut), a.startList = [0] → a.endList = [3] → a.opt = .sum → (∀ u v, a.Dep u v → u = 1 ∧ v = 2) →
      (∀ i, i < 4 → o.paths i = [0, 1, 2, 3][i]?) → a.Checked o := by
    intro a o hs he ho hd hp
    refine ⟨fun P hP hl u v huv => ?_, Or.inl ho⟩
    obtain ⟨rfl, rfl⟩ := hd u v huv
    rw [hs, he] at hP hl
    obtain ⟨p, rfl⟩ := List.length_eq_one_iff.1 (show P.length = 1 from hP.len)
    refine ⟨p, by simp, ?_⟩
    have hn : ∀ i, i < 4 → p[i]? = [0, 1, 2, 3][i]? := by
      intro i hi
      rw [← hp i hi, hl.nodes i]
      simp [shown]
    have e0 := hn 0 (by norm_num)
    have e1 := hn 1 (by norm_num)
    have e2 := hn 2 (by norm_num)
    match p, e0, e1, e2 with
    | x :: y :: z :: q, e0, e1, e2 =>
      simp at e0 e1 e2
      subst e0 e1 e2
      exact ⟨[0], [], q, rfl⟩
  refine ⟨c77Args, { c77Args with threads := 2 }, tr, tr', o, o', ⟨rfl, rfl, rfl, fun _ _ _ _ _ => rfl, rfl⟩, hT, ⟨hT.1, hT.2, hT.3⟩, exLib_correct, h1, h1', ?_, ?_, ?_, ?_,
    ⟨by decide, by decide, by decide, by decide +kernel⟩, rfl, rfl⟩
  · intro i hi
    obtain ⟨e1, e2, _⟩ := h3 rfl i hi
    exact ⟨e2, Or.inl e1, Or.inl rfl⟩
  · intro i hi
    obtain ⟨e1, e2, _⟩ := h3' rfl i hi
    exact ⟨e2, Or.inl e1, Or.inl rfl⟩
  · exact hck _ _ (by decide) (by decide) rfl (fun u v h => hdep u h.1 v h.2.1 h.2.2.2) hp
  · exact hck _ _ (by decide) (by decide) rfl (fun u v h => hdep u h.1 v h.2.1 h.2.2.2) hp'

end
end Mtsp
