import Verif.Model.Bench
import Verif.Props.Solvable
import Verif.Props.PythonArgs

/-! C93: the benchmark driver.  C92: instances of the kind "sop" with several agents. -/

namespace Mtsp
open Relation

section
variable {L : Lib} {t : Nat} {tr : List (Nat × Inp)} {x : CEnd} {sop : Bool} {W : List (List ℚ)} {A : Nat} {mode : List Char}

/-- a square matrix of weights: non-negative integers, or the dependency flag -1 -/
structure BenchMatrix (W : List (List ℚ)) : Prop where
  square : ∀ r ∈ W, r.length = W.length
  ints : ∀ r ∈ W, ∀ q ∈ r, ∃ z : ℤ, q = z ∧ -1 ≤ z ∧ z < 2 ^ 31
  size : W.length < 2 ^ 63

theorem benchArgs_wellFormed (h : BenchMatrix W) (hA : 2 * A ≤ W.length) : (benchArgs sop W A mode).WellFormed := by
  have := h.size
  refine ⟨?_, h.square, h.ints, ⟨by show W.length < _; omega, ?_⟩⟩
  · cases sop <;> simp [benchArgs]
  · have : (benchArgs sop W A mode).starts.length = A := by cases sop <;> simp [benchArgs]
    omega

theorem benchArgs_accepted (h : BenchMatrix W) (h0 : A ≠ 0) (hA : 2 * A ≤ W.length) :
    (benchArgs sop W A mode).toC.Accepted ∧ (benchArgs sop W A mode).toC.InRange := by
  obtain ⟨_, e1, e2, e3, e4, _⟩ := C79_arguments (benchArgs_wellFormed (sop := sop) (mode := mode) h hA)
  have hlen : (benchArgs sop W A mode).starts.length = A := by cases sop <;> simp [benchArgs]
  have hs := h.size
  refine ⟨⟨?_, ?_, ?_, ⟨by simp [PyArgs.toC], by simp [PyArgs.toC], by simp [PyArgs.toC], rfl, rfl, rfl, rfl⟩, ?_⟩, ?_, ?_⟩
  · rw [e1, hlen]; exact h0
  · rw [e2]; show 2 ≤ W.length; omega
  · rw [e1, e2, hlen]; show _ ≤ W.length
    rw [Nat.mod_eq_of_lt (by omega)]; omega
  · show pyMode mode = 0 ∨ pyMode mode = 1
    unfold pyMode; split <;> simp
  · intro s hm
    rw [e3] at hm
    rw [e2]
    show s < W.length
    cases sop
    · simp [benchArgs] at hm; omega
    · simp [benchArgs] at hm; omega
  · intro s hm
    rw [e4] at hm
    rw [e2]
    show s < W.length
    cases sop
    · simp [benchArgs] at hm; omega
    · simp [benchArgs] at hm; omega

theorem benchArgs_dep (h : BenchMatrix W) (hA : 2 * A ≤ W.length) (u v : Nat) :
    (benchArgs sop W A mode).toC.Dep u v ↔ u < W.length ∧ v < W.length ∧ u ≠ v ∧ (W.getD v []).getD u 0 = -1 := by
  obtain ⟨_, _, _, _, _, hw, _⟩ := C79_arguments (benchArgs_wellFormed (sop := sop) (mode := mode) h hA)
  constructor
  · rintro ⟨h1, h2, h3, h4⟩
    exact ⟨h1, h2, h3, by rw [hw v h2 u h1] at h4; exact h4⟩
  · rintro ⟨h1, h2, h3, h4⟩
    exact ⟨h1, h2, h3, by rw [hw v h2 u h1]; exact h4⟩

/-! ### sequential ordering with several agents -/

/-- A matrix of the kind "sop": node 0 before all others, node N-1 after all others, and no cycle. -/
structure SopMatrix (W : List (List ℚ)) : Prop extends BenchMatrix W where
  first : ∀ v, 0 < v → v < W.length → (W.getD v []).getD 0 0 = -1
  last : ∀ u, u < W.length - 1 → (W.getD (W.length - 1) []).getD u 0 = -1
  acyclic : ∀ v, ¬ TransGen (fun u v => u < W.length ∧ v < W.length ∧ u ≠ v ∧ (W.getD v []).getD u 0 = -1) v v

/-- **C92**: such an instance has a solution for every number of agents: one agent visits all nodes. -/
theorem C92_sop_is_solvable (h : SopMatrix W) (h0 : A ≠ 0) (hA : 2 * A ≤ W.length) : (benchArgs true W A mode).toC.Solvable := by
  obtain ⟨_, e1, e2, e3, e4, _⟩ := C79_arguments (benchArgs_wellFormed (sop := true) (mode := mode) h.toBenchMatrix hA)
  have hdep := benchArgs_dep (sop := true) (mode := mode) h.toBenchMatrix hA
  have hrel : InputDep (benchArgs true W A mode).toC.N (benchArgs true W A mode).toC.weight =
      fun u v => u < W.length ∧ v < W.length ∧ u ≠ v ∧ (W.getD v []).getD u 0 = -1 := by
    funext u v; exact propext (hdep u v)
  obtain ⟨O, hO, hord⟩ := input_order (rows := (benchArgs true W A mode).toC.N) (w := (benchArgs true W A mode).toC.weight)
    (by rw [hrel]; exact h.acyclic)
  have hOnd : O.Nodup := hO.nodup_iff.2 List.nodup_range
  rw [show (benchArgs true W A mode).toC.N = W.length from e2] at hO
  have hs : (benchArgs true W A mode).toC.startList = List.replicate A 0 := by rw [e3]; simp [benchArgs]
  have he : (benchArgs true W A mode).toC.endList = List.replicate A (W.length - 1) := by rw [e4]; simp [benchArgs]
  have hN : (benchArgs true W A mode).toC.N = W.length := e2
  let mid := O.filter fun v => decide (v ≠ 0 ∧ v ≠ W.length - 1)
  have hmid : ∀ v, v ∈ mid ↔ v < W.length ∧ v ≠ 0 ∧ v ≠ W.length - 1 := by
    intro v
    simp only [mid, List.mem_filter, hO.mem_iff, List.mem_range, decide_eq_true_eq]
  obtain ⟨B, rfl⟩ : ∃ B, A = B + 1 := ⟨A - 1, by omega⟩
  refine ⟨(0 :: mid ++ [W.length - 1]) :: List.replicate B [0, W.length - 1], ⟨?_, ?_, ?_⟩, ?_⟩
  · rw [hs]; simp
  · intro k q hq
    rw [hs, he]
    have hk : k < B + 1 := by simpa using (List.getElem?_eq_some_iff.1 hq).1
    rw [List.getElem?_replicate_of_lt hk, List.getElem?_replicate_of_lt hk]
    cases k with
    | zero => exact ⟨0, _, mid, rfl, rfl, by simpa using hq.symm⟩
    | succ k =>
      rw [List.getElem?_cons_succ, List.getElem?_replicate_of_lt (by omega)] at hq
      exact ⟨0, _, [], rfl, rfl, by simpa using hq.symm⟩
  · rw [hs, he, hN, List.map_cons, middle_shape, List.map_replicate]
    have : middle [0, W.length - 1] = [] := rfl
    rw [this, List.flatten_cons, List.flatten_replicate_nil, List.append_nil]
    rw [List.perm_ext_iff_of_nodup (hOnd.filter _) (List.nodup_range.filter _)]
    intro v
    rw [hmid]
    simp
  · intro u v huv
    have hb := hord u v huv
    obtain ⟨h1, h2, h3, h4⟩ := (hdep u v).1 huv
    refine ⟨_, List.mem_cons_self, ?_⟩
    have hv0 : v ≠ 0 := by
      rintro rfl
      exact h.acyclic u (TransGen.tail (TransGen.single (b := 0) ⟨h1, h2, h3, h4⟩) ⟨h2, h1, fun h => h3 h.symm, h.first u (by omega) h1⟩)
    have hu0 : u ≠ W.length - 1 := by
      intro hu
      rw [hu] at h1 h3 h4
      exact h.acyclic v (TransGen.tail (TransGen.single ⟨h2, h1, fun h => h3 h.symm, h.last v (by omega)⟩) ⟨h1, h2, h3, h4⟩)
    by_cases hu : u = 0
    · subst hu
      apply before_cons
      by_cases hv : v = W.length - 1
      · subst hv; simp
      · exact List.mem_append_left _ ((hmid v).2 ⟨h2, hv0, hv⟩)
    · by_cases hv : v = W.length - 1
      · subst hv
        exact before_snoc (List.mem_cons_of_mem _ ((hmid u).2 ⟨h1, hu, hu0⟩))
      · have : Before mid u v := by
          rw [before_iff_sublist] at hb ⊢
          have := hb.filter fun v => decide (v ≠ 0 ∧ v ≠ W.length - 1)
          simpa only [List.filter_cons, List.filter_nil, hu, hu0, hv, hv0, ne_eq, not_false_eq_true, and_self, decide_true, if_true] using this
        exact this.of_sublist ((List.sublist_cons_self 0 mid).trans (List.sublist_append_left _ _))

/-- **C92 is false for all of these instances**: with two or more agents (and at least one node besides the two depots)
every call of the driver ends with the error "Incompatible dependencies", although there is a solution. -/
theorem C92_refuted_sop (h : SopMatrix W) (h2 : 2 ≤ A) (hA : 2 * A ≤ W.length) (hL : L.Correct)
    (hcall : (benchArgs true W A mode).toC.Call L t tr x) :
    (benchArgs true W A mode).toC.Solvable ∧ x = .ret (-6) .untouched ∧ ∀ known, benchEntry known x = some (.error "Incompatible dependencies") := by
  obtain ⟨hT, e1, e2, e3, e4, _⟩ := C79_arguments (benchArgs_wellFormed (sop := true) (mode := mode) h.toBenchMatrix hA)
  obtain ⟨hacc, hr⟩ := benchArgs_accepted (sop := true) (mode := mode) h.toBenchMatrix (by omega) hA
  have hdep := benchArgs_dep (sop := true) (mode := mode) h.toBenchMatrix hA
  have hs : (benchArgs true W A mode).toC.startList = List.replicate A 0 := by rw [e3]; simp [benchArgs]
  have he : (benchArgs true W A mode).toC.endList = List.replicate A (W.length - 1) := by rw [e4]; simp [benchArgs]
  obtain ⟨hiff, h5, _⟩ := C46_dependency_codes hT hacc hr hL hcall
  have hput : ∀ k < A, PutsTogether (benchArgs true W A mode).toC.N (benchArgs true W A mode).toC.weight
      (benchArgs true W A mode).toC.startList (benchArgs true W A mode).toC.endList (.agent k) (.node 1) := by
    intro k hk
    refine ⟨0, 1, (hdep 0 1).2 ⟨by omega, by omega, by decide, h.first 1 (by decide) (by omega)⟩, ?_, ⟨rfl, ?_⟩, ?_⟩
    · show _ = _
      rw [hs, List.getElem?_replicate_of_lt hk]
    · rw [hs, he]
      simp only [List.mem_append, List.mem_replicate, not_or, not_and]
      exact ⟨fun _ => by decide, fun _ => by omega⟩
    · rintro ⟨b, hb, _⟩; cases hb
  have htied : AgentsTied (benchArgs true W A mode).toC.N (benchArgs true W A mode).toC.weight
      (benchArgs true W A mode).toC.startList (benchArgs true W A mode).toC.endList := by
    refine ⟨0, 1, by decide, by rw [hs]; simp; omega, ?_⟩
    exact EqvGen.trans _ _ _ (EqvGen.rel _ _ (hput 0 (by omega))) (EqvGen.symm _ _ (EqvGen.rel _ _ (hput 1 (by omega))))
  have hx : x = .ret (-6) .untouched := by
    rcases hiff.2 (Or.inr (Or.inr (Or.inr htied))) with hx | hx
    · obtain ⟨v, hv⟩ := h5 hx
      have hrel : (benchArgs true W A mode).toC.Dep = fun u v => u < W.length ∧ v < W.length ∧ u ≠ v ∧ (W.getD v []).getD u 0 = -1 := by
        funext u v; exact propext (hdep u v)
      rw [hrel] at hv
      exact absurd hv (h.acyclic v)
    · exact hx
  refine ⟨C92_sop_is_solvable h (by omega) hA, hx, ?_⟩
  intro known
  rw [hx]
  simp [benchEntry, pyMessage]

/-! ### the check of the bounds -/

/-- `v` is the length of a shortest path of a single agent -/
def PyArgs.Best (p : PyArgs) (v : ℚ) : Prop :=
  (∃ q, InputCover p.weights.length p.starts p.ends [q] ∧ Respects p.Dep [q] ∧ pathCost (inputCost p.given) q = v) ∧
  ∀ q, InputCover p.weights.length p.starts p.ends [q] → Respects p.Dep [q] → v ≤ pathCost (inputCost p.given) q

/-- a list of one path for one agent -/
theorem inputCover_single {N s e : Nat} {q : List Nat} :
    InputCover N [s] [e] [q] ↔ ∃ mid, q = s :: mid ++ [e] ∧ mid.Perm ((List.range N).filter fun v => decide (v ≠ s ∧ v ≠ e)) := by
  have hf : (fun v : Nat => decide (v ∉ [s] ++ [e])) = fun v => decide (v ≠ s ∧ v ≠ e) := by
    funext v; simp
  constructor
  · intro h
    obtain ⟨s', e', mid, h1, h2, h3⟩ := h.shape 0 q rfl
    have h1' : s = s' := by simpa using h1
    have h2' : e = e' := by simpa using h2
    subst h1' h2'
    refine ⟨mid, h3, ?_⟩
    have := h.rest
    rw [hf, h3] at this
    simpa only [List.map_cons, List.map_nil, List.flatten_cons, List.flatten_nil, List.append_nil, middle_shape] using this
  · rintro ⟨mid, rfl, hp⟩
    refine ⟨rfl, ?_, ?_⟩
    · intro a p hp
      cases a with
      | zero => exact ⟨s, e, mid, rfl, rfl, by simpa using hp.symm⟩
      | succ a => simp at hp
    · rw [hf]
      simpa only [List.map_cons, List.map_nil, List.flatten_cons, List.flatten_nil, List.append_nil, middle_shape] using hp

/-- **C93**, what is compared, kinds "tsp" and "atsp": without dependencies the optimum of the driver's call is the length of a shortest tour, that is, of a
cheapest order of all nodes but node 1, beginning and ending at node 1. -/
theorem C93_tour {v : ℚ} (hpos : ∀ r ∈ W, ∀ q ∈ r, 0 ≤ q) :
    (benchArgs false W 1 mode).Best v ↔
      (∃ mid : List Nat, mid.Perm ((List.range W.length).filter fun v => decide (v ≠ 1)) ∧
        pathCost (inputCost fun i j => (W.getD i []).getD j 0) (1 :: mid ++ [1]) = v) ∧
      ∀ mid : List Nat, mid.Perm ((List.range W.length).filter fun v => decide (v ≠ 1)) →
        v ≤ pathCost (inputCost fun i j => (W.getD i []).getD j 0) (1 :: mid ++ [1]) := by
  have hfree : ∀ q, Respects (benchArgs false W 1 mode).Dep [q] := by
    rintro q u v ⟨_, _, _, h⟩
    exfalso
    have h' : (W.getD v []).getD u 0 = -1 := h
    have h0 : 0 ≤ (W.getD v []).getD u 0 := by
      rw [List.getD_eq_getElem?_getD (l := W.getD v [])]
      cases hr : (W.getD v [])[u]? with
      | none => exact le_refl _
      | some y =>
        rw [List.getD_eq_getElem?_getD (l := W)] at hr
        cases hw : W[v]? with
        | none => rw [hw] at hr; simp at hr
        | some r => rw [hw] at hr; exact hpos r (List.mem_of_getElem? hw) y (List.mem_of_getElem? hr)
    rw [h'] at h0
    norm_num at h0
  have hc : ∀ q, InputCover (benchArgs false W 1 mode).weights.length (benchArgs false W 1 mode).starts (benchArgs false W 1 mode).ends [q] ↔
      ∃ mid, q = 1 :: mid ++ [1] ∧ mid.Perm ((List.range W.length).filter fun v => decide (v ≠ 1)) := by
    intro q
    have hf : (fun v : Nat => decide (v ≠ 1)) = fun v => decide (v ≠ 1 ∧ v ≠ 1) := by funext v; simp
    rw [hf]
    exact inputCover_single (N := W.length) (s := 1) (e := 1)
  constructor
  · rintro ⟨⟨q, h1, _, h3⟩, h4⟩
    obtain ⟨mid, rfl, hm⟩ := (hc q).1 h1
    exact ⟨⟨mid, hm, h3⟩, fun mid hm => h4 _ ((hc _).2 ⟨mid, rfl, hm⟩) (hfree _)⟩
  · rintro ⟨⟨mid, hm, h3⟩, h4⟩
    refine ⟨⟨_, (hc _).2 ⟨mid, rfl, hm⟩, hfree _, h3⟩, fun q hq _ => ?_⟩
    obtain ⟨mid, rfl, hm⟩ := (hc q).1 hq
    exact h4 mid hm

/-- **C93**, what is compared, kind "sop": the length of a cheapest order of all nodes that begins with node 0, ends with node N-1 and has `u` before
`v` if the entry in row `v`, column `u` is -1. -/
theorem C93_order {v : ℚ} :
    (benchArgs true W 1 mode).Best v ↔
      (∃ mid : List Nat, mid.Perm ((List.range W.length).filter fun v => decide (v ≠ 0 ∧ v ≠ W.length - 1)) ∧
        (∀ u < W.length, ∀ v < W.length, u ≠ v → (W.getD v []).getD u 0 = -1 → Before (0 :: mid ++ [W.length - 1]) u v) ∧
        pathCost (inputCost fun i j => (W.getD i []).getD j 0) (0 :: mid ++ [W.length - 1]) = v) ∧
      ∀ mid : List Nat, mid.Perm ((List.range W.length).filter fun v => decide (v ≠ 0 ∧ v ≠ W.length - 1)) →
        (∀ u < W.length, ∀ v < W.length, u ≠ v → (W.getD v []).getD u 0 = -1 → Before (0 :: mid ++ [W.length - 1]) u v) →
        v ≤ pathCost (inputCost fun i j => (W.getD i []).getD j 0) (0 :: mid ++ [W.length - 1]) := by
  have hR : ∀ q, Respects (benchArgs true W 1 mode).Dep [q] ↔ ∀ u < W.length, ∀ v < W.length, u ≠ v → (W.getD v []).getD u 0 = -1 → Before q u v := by
    intro q
    constructor
    · intro h u hu v hv hne hw
      obtain ⟨p, hp, hb⟩ := h u v ⟨hu, hv, hne, hw⟩
      rw [List.mem_singleton] at hp
      rw [hp] at hb; exact hb
    · rintro h u v ⟨hu, hv, hne, hw⟩
      exact ⟨q, by simp, h u hu v hv hne hw⟩
  have hc : ∀ q, InputCover (benchArgs true W 1 mode).weights.length (benchArgs true W 1 mode).starts (benchArgs true W 1 mode).ends [q] ↔
      ∃ mid, q = 0 :: mid ++ [W.length - 1] ∧ mid.Perm ((List.range W.length).filter fun v => decide (v ≠ 0 ∧ v ≠ W.length - 1)) :=
    fun q => inputCover_single (N := W.length) (s := 0) (e := W.length - 1)
  constructor
  · rintro ⟨⟨q, h1, h2, h3⟩, h4⟩
    obtain ⟨mid, rfl, hm⟩ := (hc q).1 h1
    exact ⟨⟨mid, hm, (hR _).1 h2, h3⟩, fun mid hm hr => h4 _ ((hc _).2 ⟨mid, rfl, hm⟩) ((hR _).2 hr)⟩
  · rintro ⟨⟨mid, hm, hr, h3⟩, h4⟩
    refine ⟨⟨_, (hc _).2 ⟨mid, rfl, hm⟩, (hR _).2 hr, h3⟩, fun q hq hr => ?_⟩
    obtain ⟨mid, rfl, hm⟩ := (hc q).1 hq
    exact h4 mid hm ((hR _).1 hr)

/-- with a single path both objectives are its length -/
theorem isObjective_single {opt : Mode} {w : Weights} {q : List Nat} {v : ℚ} (h0 : 0 ≤ pathCost w q) : IsObjective opt w [q] v ↔ v = pathCost w q := by
  cases opt with
  | sum => simp [IsObjective, sumCost]
  | max =>
    constructor
    · rintro ⟨h1, h2, h3 | ⟨a, p, h3, h4⟩⟩
      · exact le_antisymm (by rw [h3]; exact h0) (h2 0 q rfl)
      · have := List.mem_of_getElem? h3
        simp only [List.mem_singleton] at this
        rw [← h4, this]
    · rintro rfl
      refine ⟨h0, ?_, Or.inr ⟨0, q, rfl, rfl⟩⟩
      intro a p hp
      have := List.mem_of_getElem? hp
      simp only [List.mem_singleton] at this
      rw [this]

theorem inputCost_nonneg {w : Weights} {u v : Nat} (h : ∃ z : ℤ, w u v = z ∧ -1 ≤ z) : 0 ≤ inputCost w u v := by
  obtain ⟨z, h1, h2⟩ := h
  unfold inputCost
  split
  · exact le_refl _
  · rename_i hne
    have : z ≠ -1 := by
      rintro rfl
      exact hne (Or.inr (by rw [h1]; norm_num))
    rw [h1]
    exact_mod_cast (by omega : (0 : ℤ) ≤ z)

/-- the solutions and their costs, for a single agent, in the words of the caller -/
theorem bench_single (h : BenchMatrix W) (hN : 2 ≤ W.length) (q : List Nat) :
    ((benchArgs sop W 1 mode).toC.Solution [q] ↔
      InputCover W.length (benchArgs sop W 1 mode).starts (benchArgs sop W 1 mode).ends [q] ∧ Respects (benchArgs sop W 1 mode).Dep [q]) ∧
    ((benchArgs sop W 1 mode).toC.Solution [q] → ∀ c, (benchArgs sop W 1 mode).toC.Costs [q] c ↔ c = pathCost (inputCost (benchArgs sop W 1 mode).given) q) := by
  obtain ⟨hT, e1, e2, e3, e4, hw, _⟩ := C79_arguments (benchArgs_wellFormed (sop := sop) (mode := mode) h (by omega : 2 * 1 ≤ W.length))
  obtain ⟨_, hr⟩ := benchArgs_accepted (sop := sop) (mode := mode) h one_ne_zero (by omega)
  have hdep : (benchArgs sop W 1 mode).toC.Dep = (benchArgs sop W 1 mode).Dep := by
    funext u v
    rw [eq_iff_iff, benchArgs_dep h (by omega)]
    rfl
  constructor
  · unfold CArgs.Solution
    rw [hdep, e2, e3, e4]
    rfl
  · intro hP c
    have hlt := inputCover_lt hP.1 hr.1 hr.2 q (by simp)
    have hlt' : ∀ u ∈ q, u < W.length := fun u hu => by have := hlt u hu; rw [e2] at this; exact this
    have hc : pathCost (inputCost (benchArgs sop W 1 mode).toC.weight) q = pathCost (inputCost (benchArgs sop W 1 mode).given) q := by
      apply pathCost_congr
      intro u hu v hv
      unfold inputCost
      rw [hw u (hlt' u hu) v (hlt' v hv)]
    unfold CArgs.Costs
    rw [isObjective_single, hc]
    rw [hc]
    apply pathCost_nonneg
    intro u hu v hv
    apply inputCost_nonneg
    have hu' := hlt' u hu
    have hv' := hlt' v hv
    have hrow : (W.getD u []) ∈ W := by rw [List.getD_eq_getElem?_getD, List.getElem?_eq_getElem hu']; exact List.getElem_mem _
    have hl := h.square _ hrow
    obtain ⟨z, hz, hz1, _⟩ := h.ints _ hrow ((W.getD u []).getD v 0) (by
      rw [List.getD_eq_getElem?_getD (l := W.getD u []), List.getElem?_eq_getElem (by omega)]
      exact List.getElem_mem _)
    exact ⟨z, hz, hz1⟩

/-- the bounds of a calm, checked call enclose the length of a shortest path; if they meet, they are equal to it -/
theorem bench_bounds {v : ℚ} (h : BenchMatrix W) (hN : 2 ≤ W.length) (hL : L.Correct) (hbest : (benchArgs sop W 1 mode).Best v) {c : ℤ} {o : COut}
    (hcall : (benchArgs sop W 1 mode).toC.Call L t tr (.ret c o)) (hc : 0 ≤ c) (hcalm : (benchArgs sop W 1 mode).toC.Calm L tr)
    (hchk : (benchArgs sop W 1 mode).toC.Checked o) : ∃ lb ub, o.lower = some lb ∧ o.upper = some ub ∧ lb ≤ v ∧ v ≤ ub ∧ (c = 0 ↔ ub ≤ lb) := by
  obtain ⟨hT, _, _, e3, _⟩ := C79_arguments (benchArgs_wellFormed (sop := sop) (mode := mode) h (by omega : 2 * 1 ≤ W.length))
  obtain ⟨lb, f1, f2⟩ := C64_lower_bound_partial hT hL hcall hc hcalm
  obtain ⟨P, ub, hP, hcost, e1, _⟩ := checked_solution hT hL hcall hc hchk
  obtain ⟨⟨q, q1, q2, q3⟩, hmin⟩ := hbest
  have hq := (bench_single (sop := sop) (mode := mode) h hN q).1.2 ⟨q1, q2⟩
  obtain ⟨p, rfl⟩ : ∃ p, P = [p] := by
    have hl := hP.1.len
    rw [e3] at hl
    have : (benchArgs sop W 1 mode).starts.length = 1 := by cases sop <;> simp [benchArgs]
    rw [this] at hl
    exact List.length_eq_one_iff.1 hl
  obtain ⟨p1, p2⟩ := (bench_single (sop := sop) (mode := mode) h hN p).1.1 hP
  refine ⟨lb, ub, f1, e1, ?_, ?_, ?_⟩
  · exact f2 [q] v hq (((bench_single h hN q).2 hq v).2 q3.symm)
  · rw [((bench_single h hN p).2 hP ub).1 hcost]
    exact hmin p p1 p2
  · rcases C46_codes hT hL hcall with ⟨h1, rfl⟩ | ⟨lo', up', g1, g2, g3, _, g4⟩
    · rw [show COut.untouched.lower = none from rfl] at f1; simp at f1
    · rw [f1] at g1
      rw [e1] at g2
      simp only [Option.some.injEq] at g1 g2
      subst g1 g2
      exact g4

/-- **C93 (partial).** For one agent and an instance whose optimum is known, the driver does not stop because of the bounds, if the search was calm and the
paths respect the dependencies. -/
theorem C93_never_aborts_partial {v : ℚ} (h : BenchMatrix W) (hN : 2 ≤ W.length) (hL : L.Correct) (hbest : (benchArgs sop W 1 mode).Best v)
    (hcall : (benchArgs sop W 1 mode).toC.Call L t tr x) (hcalm : (benchArgs sop W 1 mode).toC.Calm L tr)
    (hchk : ∀ c o, x = .ret c o → 0 ≤ c → (benchArgs sop W 1 mode).toC.Checked o) : benchEntry (some (v, v)) x ≠ some .abort := by
  cases x with
  | undefined => simp [benchEntry]
  | terminated => simp [benchEntry]
  | ret c o =>
    by_cases hc : c < 0
    · simp [benchEntry, hc]
    · obtain ⟨lb, ub, e1, e2, h1, h2, _⟩ := bench_bounds h hN hL hbest hcall (not_lt.1 hc) hcalm (hchk c o rfl (not_lt.1 hc))
      have ha : benchAborts (some (v, v)) lb ub = false := by
        simp only [benchAborts, Bool.or_eq_false_iff, decide_eq_false_iff_not, not_lt, Bool.and_eq_false_iff, ge_iff_le, gt_iff_lt, ne_eq, not_not]
        refine ⟨⟨h1, h2⟩, ?_⟩
        by_cases h3 : ub ≤ lb
        · exact Or.inr (le_antisymm (h3.trans h1) h2)
        · exact Or.inl h3
      simp [benchEntry, hc, e1, e2, ha]

/-- **C93 (partial)**, without dependencies (the kinds "tsp" and "atsp"): nothing has to be checked. -/
theorem C93_tsp_never_aborts_partial {v : ℚ} (h : BenchMatrix W) (hN : 2 ≤ W.length) (hpos : ∀ r ∈ W, ∀ q ∈ r, 0 ≤ q) (hL : L.Correct)
    (hbest : (benchArgs sop W 1 mode).Best v) (hcall : (benchArgs sop W 1 mode).toC.Call L t tr x)
    (hcalm : (benchArgs sop W 1 mode).toC.Calm L tr) : benchEntry (some (v, v)) x ≠ some .abort := by
  refine C93_never_aborts_partial h hN hL hbest hcall hcalm fun c o _ _ => CArgs.checked_of_free o ?_
  intro u w hd
  obtain ⟨h1, h2, h3, h4⟩ := (benchArgs_dep (sop := sop) (mode := mode) h (by omega : 2 * 1 ≤ W.length) u w).1 hd
  have hrow : (W.getD w []) ∈ W := by rw [List.getD_eq_getElem?_getD, List.getElem?_eq_getElem h2]; exact List.getElem_mem _
  have hl := h.square _ hrow
  have := hpos _ hrow ((W.getD w []).getD u 0) (by
    rw [List.getD_eq_getElem?_getD (l := W.getD w []), List.getElem?_eq_getElem (by omega)]
    exact List.getElem_mem _)
  rw [h4] at this
  norm_num at this

/-- **C93**, entries: a recorded lower bound is not above the recorded upper bound, the gap is not negative, and it is 0 exactly if the two
are equal (and positive); the code SOLVED is the same as equal bounds. -/
theorem C93_entries (h : BenchMatrix W) (hA : 2 * A ≤ W.length) (hL : L.Correct) {known : Option (ℚ × ℚ)} {lb ub : ℚ} {gap : Option ℚ}
    (hcall : (benchArgs sop W A mode).toC.Call L t tr x) (he : benchEntry known x = some (.entry lb ub gap)) :
    lb ≤ ub ∧ (gap = none ↔ lb ≤ 0) ∧ (∀ g, gap = some g → 0 ≤ g ∧ ub = lb * (1 + g) ∧ (g = 0 ↔ lb = ub)) ∧ ((∃ o, x = .ret 0 o) ↔ lb = ub) := by
  obtain ⟨hT, _⟩ := C79_arguments (benchArgs_wellFormed (sop := sop) (mode := mode) h hA)
  cases x with
  | undefined => simp [benchEntry] at he
  | terminated => simp [benchEntry] at he
  | ret c o =>
    by_cases hc : c < 0
    · simp [benchEntry, hc] at he
    · rcases C46_codes hT hL hcall with ⟨h1, _⟩ | ⟨lo, up, g1, g2, g3, _, g4⟩
      · simp at h1; omega
      · unfold benchEntry at he
        dsimp only at he
        rw [if_neg hc, g1, g2] at he
        simp only [Option.getD_some] at he
        split at he
        · simp at he
        · simp only [Option.some.injEq, BenchEntry.entry.injEq] at he
          obtain ⟨rfl, rfl, rfl⟩ := he
          refine ⟨g3, ?_, ?_, ?_⟩
          · by_cases hp : lo > 0
            · rw [if_pos hp]; simp; exact hp
            · rw [if_neg hp]; simp; exact not_lt.1 hp
          · intro g hg
            split at hg
            · rename_i hp
              simp only [Option.some.injEq] at hg
              subst hg
              have hp' : 0 < lo := hp
              have h1 : 1 ≤ up / lo := by rw [le_div_iff₀ hp']; linarith
              refine ⟨by linarith, ?_, ?_⟩
              · field_simp; ring
              · constructor
                · intro h0
                  have : up / lo = 1 := by linarith
                  rw [div_eq_one_iff_eq hp'.ne'] at this
                  exact this.symm
                · rintro rfl
                  rw [div_self hp'.ne']; ring
            · simp at hg
          · constructor
            · rintro ⟨o', ho⟩
              simp only [CEnd.ret.injEq] at ho
              exact le_antisymm g3 (g4.1 ho.1)
            · intro hlu
              exact ⟨o, by rw [g4.2 hlu.ge]⟩

/-- **C93 is false for open instances**: if only an interval is known for the optimum, and the optimum is above its lower end, then the driver
stops with an error message on every (calm, checked) call that solves the instance. -/
theorem C93_refuted_open {v bl bu : ℚ} (h : BenchMatrix W) (hN : 2 ≤ W.length) (hL : L.Correct) (hbest : (benchArgs sop W 1 mode).Best v) {o : COut}
    (hcall : (benchArgs sop W 1 mode).toC.Call L t tr (.ret 0 o)) (hcalm : (benchArgs sop W 1 mode).toC.Calm L tr)
    (hchk : (benchArgs sop W 1 mode).toC.Checked o) (hopen : bl < v) : benchEntry (some (bl, bu)) (.ret 0 o) = some .abort := by
  obtain ⟨lb, ub, e1, e2, h1, h2, h3⟩ := bench_bounds h hN hL hbest hcall (le_refl _) hcalm hchk
  have : v ≤ lb := h2.trans (h3.1 rfl)
  have ha : benchAborts (some (bl, bu)) lb ub = true := by
    simp only [benchAborts, gt_iff_lt, Bool.or_eq_true, decide_eq_true_eq]
    exact Or.inl (Or.inl (by linarith))
  simp [benchEntry, e1, e2, ha]

end

/-! ### the hypotheses can be met -/

/-- four nodes, 0 first and 3 last -/
def sopW : List (List ℚ) := [[0, 1, 1, 1], [-1, 0, 1, 1], [-1, 1, 0, 1], [-1, -1, -1, 0]]

theorem sopW_sop : SopMatrix sopW := by
  have hint : ∀ r ∈ sopW, ∀ q ∈ r, q = 0 ∨ q = 1 ∨ q = -1 := by decide +kernel
  have hlt : ∀ u < sopW.length, ∀ v < sopW.length, (sopW.getD v []).getD u 0 = -1 → u < v := by decide +kernel
  have hfirst : ∀ v < sopW.length, 0 < v → (sopW.getD v []).getD 0 0 = -1 := by decide +kernel
  refine ⟨⟨by decide, ?_, by decide⟩, fun v h1 h2 => hfirst v h2 h1, by decide +kernel, ?_⟩
  · intro r hr q hq
    rcases hint r hr q hq with rfl | rfl | rfl
    · exact ⟨0, by norm_num, by norm_num, by norm_num⟩
    · exact ⟨1, by norm_num, by norm_num, by norm_num⟩
    · exact ⟨-1, by norm_num, by norm_num, by norm_num⟩
  · intro v hv
    have : ∀ x, TransGen (fun u v => u < sopW.length ∧ v < sopW.length ∧ u ≠ v ∧ (sopW.getD v []).getD u 0 = -1) v x → v < x := by
      intro x hx
      induction hx with
      | single h => exact hlt _ h.1 _ h.2.1 h.2.2.2
      | tail _ h ih => exact ih.trans (hlt _ h.1 _ h.2.1 h.2.2.2)
    exact absurd (this v hv) (lt_irrefl _)

/-- Non-vacuity of `C92_sop_is_solvable` and `C92_refuted_sop`: two agents. -/
example : ∃ tr x, SopMatrix sopW ∧ 2 * 2 ≤ sopW.length ∧ exLib.Correct ∧ (benchArgs true sopW 2 "max".toList).toC.Call exLib 100 tr x := by
  obtain ⟨tr, x, h1, _⟩ := callB_sound (a := (benchArgs true sopW 2 "max".toList).toC) (L := exLib) (t := 100) (script := []) (late := false)
    (p := isCode (-6)) (by decide +kernel)
  exact ⟨tr, x, sopW_sop, by decide, exLib_correct, h1⟩

/-- three nodes; every tour has length 3 -/
def tspW : List (List ℚ) := [[0, 1, 1], [1, 0, 1], [1, 1, 0]]

/-- a machine with a single core -/
def oneCore : Lib := { exLib with hw := 1 }

theorem oneCore_correct : oneCore.Correct := ⟨exLib_correct.1, exLib_correct.2, exLib_correct.3, exLib_correct.4, exLib_correct.5⟩

/-- the tour 1 - 0 - 2 - 1 -/
def tspY (i : Nat) : ℚ := if i = 4 ∨ i = 2 ∨ i = 11 ∨ i = 13 then 1 else 0

def tspScript : List (Nat × Cue) :=
  idle 5 ++ [(0, .opt tspY [-1, -1, -1, 0, 0, 1, 0, 0, 1, 0, 1, 0, 0, 0, 0, 0, 0, 1, 0, 0, 0, 0, -1, 0])] ++ idle 10

theorem tspW_matrix : BenchMatrix tspW ∧ ∀ r ∈ tspW, ∀ q ∈ r, 0 ≤ q := by
  have hint : ∀ r ∈ tspW, ∀ q ∈ r, q = 0 ∨ q = 1 := by decide +kernel
  refine ⟨⟨by decide, ?_, by decide⟩, ?_⟩
  · intro r hr q hq
    rcases hint r hr q hq with rfl | rfl
    · exact ⟨0, by norm_num, by norm_num, by norm_num⟩
    · exact ⟨1, by norm_num, by norm_num, by norm_num⟩
  · intro r hr q hq
    rcases hint r hr q hq with rfl | rfl <;> norm_num

theorem tspW_best (mode : List Char) : (benchArgs false tspW 1 mode).Best 3 := by
  have hfree : ∀ u < 3, ∀ v < 3, (tspW.getD v []).getD u 0 ≠ -1 := by decide +kernel
  have hcost : ∀ x ∈ [0, 2], ∀ y ∈ [0, 2], x ≠ y → pathCost (inputCost fun u v => (tspW.getD u []).getD v 0) [1, x, y, 1] = 3 := by decide +kernel
  have hg : (benchArgs false tspW 1 mode).given = fun u v => (tspW.getD u []).getD v 0 := rfl
  refine ⟨⟨[1, 0, 2, 1], ?_, ?_, ?_⟩, ?_⟩
  · show InputCover 3 [1] [1] [[1, 0, 2, 1]]
    exact c92_cover (by decide +kernel) (by decide +kernel) (by decide +kernel)
  · rintro u v ⟨hu, hv, _, hw⟩
    exact absurd hw (hfree u hu v hv)
  · rw [hg]; exact hcost 0 (by decide) 2 (by decide) (by decide)
  · intro q hq _
    obtain ⟨s, e, mid, h1, h2, rfl⟩ := hq.shape 0 q rfl
    have hs : s = 1 := by simpa [benchArgs] using h1.symm
    have he : e = 1 := by simpa [benchArgs] using h2.symm
    subst hs he
    have hr := hq.rest
    simp only [List.map_cons, List.map_nil, List.flatten_cons, List.flatten_nil, List.append_nil, middle_shape] at hr
    have hr' : mid.Perm [0, 2] := hr
    have hl := hr'.length_eq
    obtain ⟨x, y, rfl⟩ := List.length_eq_two.1 hl
    have hx := hr'.mem_iff.1 (List.mem_cons_self (a := x) (l := [y]))
    have hy := hr'.mem_iff.1 (show y ∈ [x, y] by simp)
    have hnd : [x, y].Nodup := hr'.nodup_iff.2 (by decide)
    have hne : x ≠ y := by simpa using hnd
    rw [hg]
    exact (hcost x hx y hy hne).ge

/-- Non-vacuity of `C93_never_aborts_partial`, `C93_tsp_never_aborts_partial`, `C93_entries` (gap 0) and `C93_refuted_open`: the driver's call for a tour
through three nodes solves an LP, ends with SOLVED and is recorded with both bounds 3; if only the interval from 2 to 3 were known, it would stop. -/
theorem C93_case : ∃ tr o, (benchArgs false tspW 1 "sum".toList).Best 3 ∧ oneCore.Correct ∧
    (benchArgs false tspW 1 "sum".toList).toC.Call oneCore 100 tr (.ret 0 o) ∧ (benchArgs false tspW 1 "sum".toList).toC.Calm oneCore tr ∧
    (benchArgs false tspW 1 "sum".toList).toC.Checked o ∧
    benchEntry (some (3, 3)) (.ret 0 o) = some (.entry 3 3 (some 0)) ∧ benchEntry (some (2, 3)) (.ret 0 o) = some .abort := by
  obtain ⟨tr, x, h1, h2, h3, _, h4, _⟩ := callB_full (a := (benchArgs false tspW 1 "sum".toList).toC) (L := oneCore) (t := 100)
    (script := tspScript) (late := false) (p := fun x => isCode 0 x && decide (benchEntry (some (3, 3)) x = some (.entry 3 3 (some 0)))) (by decide +kernel)
  rw [Bool.and_eq_true, decide_eq_true_eq] at h2
  obtain ⟨o, rfl⟩ := isCode_ret h2.1
  have hcalm : (benchArgs false tspW 1 "sum".toList).toC.Calm oneCore tr := by
    intro i hi
    obtain ⟨e1, e2, _⟩ := h3 rfl i hi
    exact ⟨e2, Or.inl e1, Or.inl (by decide +kernel)⟩
  have hchk : (benchArgs false tspW 1 "sum".toList).toC.Checked o := by
    apply CArgs.checked_of_free
    intro u v hd
    have hfree : ∀ u < 3, ∀ v < 3, (tspW.getD v []).getD u 0 ≠ -1 := by decide +kernel
    obtain ⟨hu, hv, _, hw⟩ := (benchArgs_dep (sop := false) (mode := "sum".toList) tspW_matrix.1 (by decide : 2 * 1 ≤ tspW.length) u v).1 hd
    exact hfree u hu v hv hw
  exact ⟨tr, o, tspW_best _, oneCore_correct, h1, hcalm, hchk, h2.2,
    C93_refuted_open tspW_matrix.1 (by decide) oneCore_correct (tspW_best _) h1 hcalm hchk (by norm_num)⟩

end Mtsp
