import Verif.Props.Callback
import Verif.Props.EndToEnd

/-! C94: what the values cost that the fractional callback is given. -/

namespace Mtsp
open Finset

/-- What the values of agent `a` cost: every value times the caller's weight, less the way from the agent's end to the start of the next
agent (of the first one after the last), which is in the values only to tie the paths together to a cycle. -/
def shownCost (rows : Nat) (w : Weights) (starts ends : List Nat) (x : Tensor3) (a : Nat) : ℚ :=
  (∑ i ∈ range rows, ∑ j ∈ range rows, inputCost w i j * x a i j) - inputCost w (ends.getD a 0) (starts.getD ((a + 1) % starts.length) 0)

/-- python/demos/progress_visualization.py:18-19, 39: the cost as the demo computes it: all values from an end to the next start are left out.
Simplified: the demo multiplies by the raw matrix; here, as in `shownCost`, the diagonal and dependency flags count as 0 (`inputCost`). -/
def demoCost (rows : Nat) (w : Weights) (starts ends : List Nat) (x : Tensor3) (a : Nat) : ℚ :=
  ∑ i ∈ range rows, ∑ j ∈ range rows, inputCost w i j *
    (if ∃ b < starts.length, ends.getD b 0 = i ∧ starts.getD ((b + 1) % starts.length) 0 = j then 0 else x a i j)

section
variable {e : BEnv} {rows : Nat} {w : Weights} {starts ends : List Nat} {r : ResState} {tr : List (Nat × Inp)} {s : BState} {u : Nat} {x : Tensor3}

theorem weighted_back (h : WM.make rows rows w starts ends = .ok e.m) (c : Weights) (t : Tensor3) (a : Nat) :
    ∑ i ∈ range rows, ∑ j ∈ range rows, c i j * e.m.transformTensorBack t a i j =
      ∑ p ∈ range e.m.n, ∑ q ∈ range e.m.n, c (e.m.orig p) (e.m.orig q) * t a p q := by
  obtain ⟨_, _, _, _, _, _, _, _, hlt, _⟩ := C18_own_starts_and_ends h
  have e1 : ∀ i ∈ range rows, ∀ j ∈ range rows, c i j * e.m.transformTensorBack t a i j =
      ∑ p ∈ range e.m.n, ∑ q ∈ range e.m.n, if e.m.orig p = i ∧ e.m.orig q = j then c i j * t a p q else 0 := by
    intro i hi j hj
    rw [C22_tensor_mapped_back h t a i j (mem_range.1 hi) (mem_range.1 hj), mul_sum]
    refine sum_congr rfl fun p _ => ?_
    rw [mul_sum]
    refine sum_congr rfl fun q _ => ?_
    split <;> simp
  rw [sum_congr rfl fun i hi => sum_congr rfl fun j hj => e1 i hi j hj]
  rw [sum_congr rfl fun i _ => sum_comm, sum_comm]
  refine sum_congr rfl fun p hp => ?_
  rw [sum_congr rfl fun i _ => sum_comm, sum_comm]
  refine sum_congr rfl fun q hq => ?_
  rw [sum_eq_single (e.m.orig p), sum_eq_single (e.m.orig q)]
  · simp
  · intro b _ hb; rw [if_neg]; exact fun h => hb h.2.symm
  · intro hb; exact absurd (mem_range.2 (hlt q (mem_range.1 hq))) hb
  · intro b _ hb; exact sum_eq_zero fun j _ => if_neg fun h => hb h.1.symm
  · intro hb; exact absurd (mem_range.2 (hlt p (mem_range.1 hp))) hb

/-- the ways from an end to the next start are used by the agent itself, and by no other -/
theorem tie_value {N : Nat} {S E : List Nat} {arcs : List (Nat × Nat)} {y : Nat → ℚ} (hr : LPRows N S E arcs y)
    (hpos : ∀ a < S.length, ∀ i < N, ∀ j < N, 0 ≤ y (varId N a i j)) {a b : Nat} (ha : a < S.length) (hb : b < S.length)
    (hE : E.getD b 0 < N) (hS : S.getD ((b + 1) % S.length) 0 < N) (hab : a ≠ b) :
    y (varId N a (E.getD b 0) (S.getD ((b + 1) % S.length) 0)) = 0 := by
  have h1 := hr.degOut _ hE
  have h2 := hr.art b hb
  set p := E.getD b 0
  set q := S.getD ((b + 1) % S.length) 0
  have hout : ∀ c ∈ range S.length, y (varId N c p q) ≤ outA N y c p := fun c hc =>
    single_le_sum (f := fun v => y (varId N c p v)) (fun v hv => hpos c (mem_range.1 hc) p hE v (mem_range.1 hv)) (mem_range.2 hS)
  have h3 : ∑ c ∈ range S.length, y (varId N c p q) ≤ 1 := by rw [← h1]; exact sum_le_sum hout
  have h4 : y (varId N a p q) + y (varId N b p q) ≤ ∑ c ∈ range S.length, y (varId N c p q) := by
    rw [← sum_pair (f := fun c => y (varId N c p q)) hab]
    refine sum_le_sum_of_subset_of_nonneg ?_ fun c hc _ => hpos c (mem_range.1 hc) p hE q hS
    intro c hc
    rcases mem_insert.1 hc with rfl | hc
    · exact mem_range.2 ha
    · rw [mem_singleton.1 hc]; exact mem_range.2 hb
  have := hpos a ha p hE q hS
  rw [h2] at h4
  linarith

theorem shownCost_eq (g : e.Good rows w starts ends) {y : Nat → ℚ} (hz : ∀ i < e.B, 0 ≤ y i)
    (hsat : SatAll (buildConstraints e.m.n e.m.starts e.m.ends e.m.deps.arcs) y) {a : Nat} (ha : a < starts.length) :
    shownCost rows w starts ends (e.m.transformTensorBack fun a i j => y (varId e.m.n a i j)) a = e.agentCost y a := by
  obtain ⟨_, _, hls, _, hmS, hmE, _, _, _, _⟩ := C18_own_starts_and_ends g.make
  have s := (WM.make_ok g.make).1
  have hi := WM.inst g.make
  have hl := hi.lenEq
  have hr := (rows_iff _ _ _ _ _).1 hsat
  have ha' : a < e.m.starts.length := by rw [hls]; exact ha
  have hm : (a + 1) % e.m.starts.length < e.m.starts.length := Nat.mod_lt _ (by omega)
  have he : e.m.ends[a]? = some (e.m.ends.getD a 0) := getElem?_getD (hl ▸ ha')
  have hs : e.m.starts[(a + 1) % e.m.starts.length]? = some (e.m.starts.getD ((a + 1) % e.m.starts.length) 0) := getElem?_getD hm
  have hart := hr.art a ha'
  have oE : ends.getD a 0 = e.m.orig (e.m.ends.getD a 0) := by
    have : ends[a]? = some (e.m.orig (e.m.ends.getD a 0)) := by rw [← hmE, List.getElem?_map, he]; rfl
    rw [List.getD_eq_getElem?_getD, this]; rfl
  have oS : starts.getD ((a + 1) % starts.length) 0 = e.m.orig (e.m.starts.getD ((a + 1) % e.m.starts.length) 0) := by
    have : starts[(a + 1) % e.m.starts.length]? = some (e.m.orig (e.m.starts.getD ((a + 1) % e.m.starts.length) 0)) := by
      conv_lhs => rw [← hmS, List.getElem?_map, hs]
      rfl
    rw [← hls, List.getD_eq_getElem?_getD, this]; rfl
  have hpos : ∀ a < e.m.starts.length, ∀ i < e.m.n, ∀ j < e.m.n, 0 ≤ y (varId e.m.n a i j) := fun a ha i hi j hj => hz _ (varId_lt ha hi hj)
  unfold shownCost
  rw [weighted_back g.make, oE, oS]
  set p := e.m.ends.getD a 0 with hpd
  set q := e.m.starts.getD ((a + 1) % e.m.starts.length) 0 with hqd
  have hpn : p < e.m.n := hi.lt p (List.mem_append_right _ (List.mem_of_getElem? he))
  have hqn : q < e.m.n := hi.lt q (List.mem_append_left _ (List.mem_of_getElem? hs))
  have hdep : ∀ i < e.m.n, ∀ j < e.m.n, e.m.w i j = -1 → y (varId e.m.n a i j) = 0 := fun i h1 j h2 h3 =>
    rev_zero g hsat hz ha' ⟨h2, h1, h3⟩
  have hw0 : e.m.w p q = 0 := by
    obtain ⟨base, hb, hac, hw⟩ := s.weights
    obtain ⟨hw1, hw2⟩ := hw p q hpn hqn
    by_cases hx : e.m.starts.length = 1 ∧ p = e.m.ends.getD 0 0 ∧ q = e.m.starts.getD 0 0
    · exact hw2 hx
    · obtain ⟨hw3, hw4⟩ := hw1 hx
      rw [hw4]
      · rw [hb p q hpn hqn, if_pos]
        rw [mem_artificial hl]; exact ⟨a, ha', he, hs⟩
      · intro htr
        have := hdep p hpn q hqn (hw3.2 htr)
        rw [hart] at this
        norm_num at this
  have key : ∀ i < e.m.n, ∀ j < e.m.n, ¬ (i = p ∧ j = q) →
      inputCost w (e.m.orig i) (e.m.orig j) * y (varId e.m.n a i j) = e.m.w i j * y (varId e.m.n a i j) := by
    intro i h1 j h2 hne
    rcases C19_weights_mirror_input g.make i j h1 h2 with ⟨h, _⟩ | ⟨h, h' | h' | h'⟩ | ⟨h, h', h''⟩
    · rw [hdep i h1 j h2 h, mul_zero, mul_zero]
    · obtain ⟨b, hb, hb1, hb2⟩ := h'
      have d1 : e.m.ends.getD b 0 = i := by rw [List.getD_eq_getElem?_getD, hb1]; rfl
      have d2 : e.m.starts.getD ((b + 1) % e.m.starts.length) 0 = j := by rw [List.getD_eq_getElem?_getD, hb2]; rfl
      by_cases hab : a = b
      · subst hab; exact absurd ⟨d1.symm, d2.symm⟩ hne
      · have := tie_value hr hpos ha' hb (by rw [d1]; exact h1) (by rw [d2]; exact h2) hab
        rw [d1, d2] at this
        rw [this, mul_zero, mul_zero]
    · rw [h]; unfold inputCost; rw [if_pos (Or.inl h')]
    · rw [h]; unfold inputCost; rw [if_pos (Or.inr h'.1)]
    · rw [h]; unfold inputCost; rw [if_neg]; rintro (hc | hc)
      · exact h' hc
      · exact h'' hc
  have hsplit : ∀ i ∈ range e.m.n, ∀ j ∈ range e.m.n, inputCost w (e.m.orig i) (e.m.orig j) * y (varId e.m.n a i j) =
      e.m.w i j * y (varId e.m.n a i j) + if j = q then (if i = p then inputCost w (e.m.orig p) (e.m.orig q) else 0) else 0 := by
    intro i h1 j h2
    by_cases hc : i = p ∧ j = q
    · obtain ⟨rfl, rfl⟩ := hc
      rw [if_pos rfl, if_pos rfl, hw0, hart]; ring
    · rw [key i (mem_range.1 h1) j (mem_range.1 h2) hc]
      by_cases hj : j = q
      · rw [if_pos hj, if_neg fun hi => hc ⟨hi, hj⟩, add_zero]
      · rw [if_neg hj, add_zero]
  rw [sum_congr rfl fun i h1 => sum_congr rfl fun j h2 => hsplit i h1 j h2]
  unfold BEnv.agentCost
  simp only [sum_add_distrib, sum_ite_eq', mem_range, hpn, hqn, if_true]
  ring

/-- What the caller makes of the values of all agents: the sum, or all of them are at most `v`. -/
def ShownAtMost (mode : Mode) (n : Nat) (c : Nat → ℚ) (v : ℚ) : Prop :=
  match mode with
  | .sum => ∑ a ∈ range n, c a ≤ v
  | .max => ∀ a < n, c a ≤ v

theorem shown_le_obj (g : e.Good rows w starts ends) {cuts : List LinCon} {f0 f1 : List Nat} {y : Nat → ℚ}
    (hsat : SatAll (e.rows0 ++ cuts) y) (hbox : InBox e f0 f1 y) :
    ShownAtMost e.mode starts.length (shownCost rows w starts ends (e.m.transformTensorBack fun a i j => y (varId e.m.n a i j))) (e.obj.eval y) := by
  obtain ⟨_, _, hls, _⟩ := C18_own_starts_and_ends g.make
  obtain ⟨h1, h2, _⟩ := rows0_iff.1 hsat
  have hz : ∀ i < e.B, 0 ≤ y i := fun i hi => (hbox.bin g hi).1
  rcases hm : e.mode with _ | _
  · show _ ≤ _
    rw [sum_congr rfl fun a ha => shownCost_eq g hz h2 (mem_range.1 ha), e.obj_sum hm, hls]
    exact le_refl _
  · intro a ha
    rw [shownCost_eq g hz h2 ha, e.obj_max hm]
    exact (h1 hm a (by rw [hls]; exact ha)).1

/-- **C94.** Whenever the callback is called - for every accepted input, every interleaving and all LP answers - while nothing has been fixed in
the LP yet (before the search has branched), what its values cost, in the caller's own weights, is at most what any solution costs:
but for the LP solver's noise, as in C71. -/
theorem C94_values_cost_at_most (g : e.Good rows w starts ends) (hst : e.Started) (h : BRun e r tr s) (hu : u < e.threads)
    (hx : s.callbackArg e u = some x) (h0 : (s.wk u).fix.fixed0 = []) (h1 : (s.wk u).fix.fixed1 = []) :
    ∃ x' : Tensor3, AgentFlow rows starts ends x' ∧ (∀ a < starts.length, ∀ i < rows, ∀ j < rows,
      |x a i j - x' a i j| ≤ (max 1 ((starts ++ ends).count i) : Nat) * (max 1 ((starts ++ ends).count j) : Nat) * (1 / 10 ^ 10)) ∧
      ∀ P v, InputCover rows starts ends P → Respects (InputDep rows w) P → IsObjective e.mode (inputCost w) P v →
        ShownAtMost e.mode starts.length (shownCost rows w starts ends x') v := by
  obtain ⟨_, _, hls, _⟩ := C18_own_starts_and_ends g.make
  obtain ⟨_, all, hg⟩ := run_ginv g hst h
  obtain ⟨hf, o, _, hpc⟩ := hg.wk u hu
  unfold BState.callbackArg at hx
  split at hx
  · next lb l y rc hp =>
    simp only [PcOk, hp] at hpc
    obtain ⟨hs, _, _⟩ := hpc
    simp only [Option.some.injEq] at hx
    obtain ⟨y', ho⟩ := hs.opt g
    have hsat := (rows0_iff.1 ho.sat).2.1
    have hbin : ∀ a < starts.length, ∀ i < e.m.n, ∀ j < e.m.n, varId e.m.n a i j < e.B := fun a ha i hi j hj => varId_lt (by rw [hls]; exact ha) hi hj
    refine ⟨e.m.transformTensorBack fun a i j => y' (varId e.m.n a i j),
      agentFlow_of_rows g (fun a ha i hi j hj => (ho.inBox.bin g (hbin a ha i hi j hj)).1) ((rows_iff _ _ _ _ _).1 hsat), ?_, ?_⟩
    · rw [← hx]
      exact tensor_near g fun a ha i hi j hj => ho.near _ (hbin a ha i hi j hj)
    · intro P v hP hR hv
      have hfree : Apart e.m := by
        obtain ⟨t0, t1, r0, hr0⟩ := hst
        rcases initial_cases g.make g.weights (g.n_le19.trans (by norm_num)) e.mode t0 with ⟨_, he⟩ | ⟨hfree, _⟩
        · rw [hr0] at he; simp at he
        · exact hfree
      obtain ⟨Q, hQ, hQv⟩ := feasible_of_solution g.make hfree hP hR hv
      have hcuts : ∀ c ∈ (s.wk u).cuts, CutOk e c := fun c hc => hg.cuts c (hg.sub hu c hc)
      have h3 := hs.three g
      have hle : e.obj.eval y' ≤ v := by
        have := ho.least _ (solPoint_sat g hQ h3 hQv hcuts)
          (solPoint_inBox g hQ h3 hQv hf.bin0 hf.bin1 (by rw [h0]; simp) (by rw [h1]; simp))
        rwa [solPoint_obj g hQ hQv] at this
      have := shown_le_obj g ho.sat ho.inBox
      revert this
      unfold ShownAtMost
      cases e.mode with
      | sum => exact fun k => k.trans hle
      | max => exact fun k a ha => (k a ha).trans hle
  · simp at hx

/-- What the demo shows is at most that, for the exact values of the LP, and exactly that if the ways from an end to the next start cost nothing
(as for agents that all start and end at one depot). -/
theorem C94_demo (g : e.Good rows w starts ends) {x' : Tensor3} (hx : AgentFlow rows starts ends x') {a : Nat} (ha : a < starts.length) :
    demoCost rows w starts ends x' a ≤ shownCost rows w starts ends x' a ∧
    ((∀ b < starts.length, inputCost w (ends.getD b 0) (starts.getD ((b + 1) % starts.length) 0) = 0) →
      demoCost rows w starts ends x' a = shownCost rows w starts ends x' a) := by
  obtain ⟨_, hltn, hls, hle, hmS, hmE, _, _, hlt, _⟩ := C18_own_starts_and_ends g.make
  constructor
  · have hmod : (a + 1) % starts.length < starts.length := Nat.mod_lt _ (by omega)
    have hl : ends.length = starts.length := by have := (WM.inst g.make).lenEq; rw [← hmS, ← hmE, List.length_map, List.length_map]; exact this.symm
    have he : ends[a]? = some (ends.getD a 0) := getElem?_getD (by omega)
    have hs : starts[(a + 1) % starts.length]? = some (starts.getD ((a + 1) % starts.length) 0) := getElem?_getD hmod
    have hE : ends.getD a 0 < rows := by
      have := List.mem_of_getElem? he
      rw [← hmE] at this
      obtain ⟨p, hp, hp'⟩ := List.mem_map.1 this
      rw [← hmE] 
      rw [← hp']
      exact hlt p (hltn p (List.mem_append_right _ hp))
    have hS : starts.getD ((a + 1) % starts.length) 0 < rows := by
      have := List.mem_of_getElem? hs
      rw [← hmS] at this
      obtain ⟨p, hp, hp'⟩ := List.mem_map.1 this
      rw [← hmS]
      rw [← hp']
      exact hlt p (hltn p (List.mem_append_left _ hp))
    have htie := hx.tie a ha _ _ he hs
    have hc : ∀ i < rows, ∀ j < rows, 0 ≤ inputCost w i j := by
      intro i hi j hj
      obtain ⟨z, h1, h2, _⟩ := g.weights i hi j hj
      unfold inputCost
      split
      · exact le_refl _
      · rename_i hne
        have : z ≠ -1 := fun e => hne (Or.inr (by rw [h1, e]; norm_num))
        have : 0 ≤ z := by omega
        rw [h1]; exact_mod_cast this
    unfold demoCost shownCost
    set p := ends.getD a 0 with hpd
    set q := starts.getD ((a + 1) % starts.length) 0 with hqd
    have key : ∀ i ∈ range rows, ∀ j ∈ range rows, (inputCost w i j *
        (if ∃ b < starts.length, ends.getD b 0 = i ∧ starts.getD ((b + 1) % starts.length) 0 = j then 0 else x' a i j)) +
          (if j = q then (if i = p then inputCost w p q else 0) else 0) ≤ inputCost w i j * x' a i j := by
      intro i hi j hj
      have h1 := hc i (mem_range.1 hi) j (mem_range.1 hj)
      have h2 := hx.nonneg a ha i (mem_range.1 hi) j (mem_range.1 hj)
      by_cases hij : i = p ∧ j = q
      · obtain ⟨rfl, rfl⟩ := hij
        rw [if_pos rfl, if_pos rfl, if_pos ⟨a, ha, rfl, rfl⟩, mul_zero, zero_add]
        calc inputCost w p q = inputCost w p q * 1 := (mul_one _).symm
          _ ≤ _ := mul_le_mul_of_nonneg_left htie h1
      · have : (if j = q then (if i = p then inputCost w p q else 0) else 0) = 0 := by
          by_cases hj' : j = q
          · rw [if_pos hj', if_neg fun hi' => hij ⟨hi', hj'⟩]
          · rw [if_neg hj']
        rw [this, add_zero]
        split
        · rw [mul_zero]; exact mul_nonneg h1 h2
        · exact le_refl _
    have := sum_le_sum fun i hi => sum_le_sum fun j hj => key i hi j hj
    simp only [sum_add_distrib, sum_ite_eq', mem_range, hE, hS, if_true] at this
    linarith
  · intro hzero
    unfold demoCost shownCost
    rw [hzero a ha, sub_zero]
    refine sum_congr rfl fun i _ => sum_congr rfl fun j _ => ?_
    split
    · next h =>
      obtain ⟨b, hb, rfl, rfl⟩ := h
      rw [hzero b hb, zero_mul, zero_mul]
    · rfl

end

/-! ### a call of the callback before anything is fixed -/

def openCallback (e : BEnv) (s : BState) (t : Nat) : Bool :=
  (s.callbackArg e t).isSome && decide ((s.wk t).fix.fixed0 = []) && decide ((s.wk t).fix.fixed1 = [])

set_option maxHeartbeats 4000000 in
theorem c94_play : openCallback c67rEnv (play c67rEnv c67rS (solo (c67rCycle.take 8))) 0 = true := by decide +kernel

example : ∃ (r : ResState) (tr : List (Nat × Inp)) (s : BState) (x : Tensor3) (P : Paths) (v : ℚ), c67rEnv.Good 6 c67rW [0] [5] ∧ c67rEnv.Started ∧
    BRun c67rEnv r tr s ∧ s.callbackArg c67rEnv 0 = some x ∧ (s.wk 0).fix.fixed0 = [] ∧ (s.wk 0).fix.fixed1 = [] ∧
    InputCover 6 [0] [5] P ∧ Respects (InputDep 6 c67rW) P ∧ IsObjective c67rEnv.mode (inputCost c67rW) P v := by
  obtain ⟨r, t', hr, hrun, _⟩ := exStart_run (e := c67rEnv) (t := 100) (by decide +kernel)
  have hp : playB c67rEnv c67rS (solo (c67rCycle.take 8)) = true := by
    have key : ∀ (l l' : List (Nat × Cue)) (s : BState), playB c67rEnv s (l ++ l') = true → playB c67rEnv s l = true := by
      intro l
      induction l with
      | nil => intros; rfl
      | cons x l ih =>
        intro l' s h
        simp only [List.cons_append, playB, Bool.and_eq_true] at h ⊢
        exact ⟨h.1, ih l' _ h.2⟩
    exact key _ (solo (c67rCycle.drop 8 ++ c67rCycle ++ c67rCycle)) _ c67r_play
  have hk := c94_play
  unfold openCallback at hk
  simp only [Bool.and_eq_true, decide_eq_true_eq] at hk
  obtain ⟨⟨h1, h2⟩, h3⟩ := hk
  obtain ⟨x, hx⟩ := Option.isSome_iff_exists.1 h1
  refine ⟨r, _, _, x, [[0, 1, 2, 3, 4, 5]], _, c67r_good, ⟨100, t', r, hr⟩, hrun.play _ hp, hx, h2, h3, ⟨rfl, ?_, by decide⟩, ?_, rfl⟩
  · intro k q hq
    cases k with
    | zero => simp at hq; exact ⟨0, 5, [1, 2, 3, 4], rfl, rfl, by rw [← hq]; rfl⟩
    | succ k => simp at hq
  · rintro u v ⟨hu, hv, _, hw⟩
    have key : ∀ u < 6, ∀ v < 6, c67rW v u ≠ -1 := by decide +kernel
    exact absurd hw (key u hu v hv)

end Mtsp
