import Verif.Proof.CheckedTwoOpt
import Verif.Proof.CheckedNI
import Verif.Props.InitialResult
import Verif.Props.LocalOpt

/-! C83: the heuristics never access outside of their data.

The programs `nearestInsertionC`, `twoOptC` (Model/Checked.lean) are the heuristics with every subscript
checked: an access outside of a vector, outside of the weights, a wrapping `size() - 1` or an `insert`
outside of a path ends them with `Err.ub`. -/

namespace Mtsp

/-- the computation ends without an access outside of its data -/
def InBounds {α : Type} (x : Except Err α) : Prop := ∀ s, x ≠ .error (.ub s)

variable {rows cols : Nat} {w : Weights} {starts ends : List Nat} {m : WM} {mode : Mode}

/-- **C83, construction.** For every accepted instance, weights (also the weights scaled by a fractional
solution) and deadline, the construction makes no access outside of its data; and the checks change
nothing. -/
theorem C83_construction (h : WM.make rows cols w starts ends = .ok m) {W : Nat → Weights} (hW : SmallDeltas m.starts.length m.n W) (t : Nat) :
    InBounds (nearestInsertionC mode W m.n m.starts m.ends m.deps t) ∧
    nearestInsertionC mode W m.n m.starts m.ends m.deps t = nearestInsertion mode W m.n m.starts m.ends m.deps t := by
  have e := nearestInsertionC_eq (mode := mode) (WM.inst h) (WM.arcs_iff h) hW t
  refine ⟨?_, e⟩
  rw [e]
  intro s hs
  have := ((C25_incompatible_iff h hW (.ub s)).1 hs).1
  simp at this

/-- **C83, improvement.** For every set of non-empty paths over the nodes of the instance and every
deadline, the improvement makes no access outside of its data; and the checks change nothing. -/
theorem C83_improvement (n : Nat) (wd : Weights) (mode : Mode) (w : Weights) {P : Paths} (hn : ∀ p ∈ P, ∀ x ∈ p, x < n)
    (hne : ∀ p ∈ P, p ≠ []) (t : Nat) :
    InBounds (twoOptC n mode P w (DepGraph.make n wd) t) ∧
    twoOptC n mode P w (DepGraph.make n wd) t = .ok (twoOpt mode P w (DepGraph.make n wd) t) := by
  have e := twoOptC_ok (n := n) (mode := mode) (w := w) (sized_make n wd)
    (fun x hx => by obtain ⟨p, hp, hx⟩ := List.mem_flatten.1 hx; exact hn p hp x hx) hne t
  refine ⟨?_, e⟩
  rw [e]
  intro s hs
  cases hs

/-- **C83, improvement of what was constructed**: whatever the construction returns (also the empty
result after its deadline), the improvement makes no access outside of its data. -/
theorem C83_construction_then_improvement (h : WM.make rows cols w starts ends = .ok m) {W : Nat → Weights}
    (hW : SmallDeltas m.starts.length m.n W) {t t1 : Nat} {P : Paths} {obj : ℚ}
    (hr : nearestInsertionC mode W m.n m.starts m.ends m.deps t = .ok ((P, obj), t1)) (t2 : Nat) :
    InBounds (twoOptC m.n mode P m.w m.deps t2) ∧ InBounds (calcObjectiveC m.n mode P m.w) := by
  rw [(C83_construction h hW t).2] at hr
  have hc := C24_construction_covers h hW hr
  have hP : ∀ p ∈ P, p ≠ [] ∧ ∀ x ∈ p, x < m.n := by
    rcases Nat.lt_or_ge t m.n with ht | ht
    · rw [(hc.2 ht).1]; simp
    · intro p hp
      have hc := hc.1 ht
      obtain ⟨a, hp'⟩ := List.mem_iff_getElem?.1 hp
      refine ⟨?_, fun x hx => List.mem_range.1 (hc.perm.mem_iff.1 (List.mem_flatten.2 ⟨p, hp, hx⟩))⟩
      rintro rfl
      have h1 := hc.head a _ hp'
      have ha : a < m.starts.length := by rw [← hc.len]; exact (List.getElem?_eq_some_iff.1 hp').1
      simp [ha] at h1
  have hd : m.deps = DepGraph.make m.n m.w := (WM.make_ok h).1.deps
  refine ⟨?_, ?_⟩
  · rw [hd]
    exact (C83_improvement m.n m.w mode m.w (fun p hp => (hP p hp).2) (fun p hp => (hP p hp).1) t2).1
  · rw [calcObjectiveC_ok (n := m.n) (fun x hx => by obtain ⟨p, hp, hx⟩ := List.mem_flatten.1 hx; exact (hP p hp).2 x hx)]
    intro s hs
    cases hs

/-- **C83, weights of `DBL_MAX`.** The bound on the weights is needed: there is an accepted instance
(three nodes, every weight `DBL_MAX`, a finite double) for which no insertion costs less than `DBL_MAX`,
and the construction accesses `paths[SIZE_MAX]`. -/
theorem C83_refuted_huge_weights : ∃ (w : Weights) (m : WM), (∀ u v, w u v ≤ dblMax) ∧ WM.make 3 3 w [0] [2] = .ok m ∧
    ∀ mode, ¬ InBounds (nearestInsertionC mode (fun _ => m.w) m.n m.starts m.ends m.deps m.n) := by
  have key : testOk (WM.make 3 3 (fun _ _ => dblMax) [0] [2]) (fun m =>
      ([Mode.sum, Mode.max].all fun mode => match nearestInsertionC mode (fun _ => m.w) m.n m.starts m.ends m.deps m.n with
        | .error (.ub _) => true
        | _ => false)) = true := by decide +kernel
  obtain ⟨m, hm, k⟩ := testOk_iff key
  refine ⟨fun _ _ => dblMax, m, fun _ _ => le_refl _, hm, ?_⟩
  intro mode hb
  have k := List.all_eq_true.1 k mode (by cases mode <;> simp)
  split at k
  · next s hs => exact hb s hs
  · simp at k

/-- The checks are not idle: an empty path or a node outside of the matrix is caught. -/
example : ¬ InBounds (twoOptC 3 .sum [[]] (fun _ _ => 1) (DepGraph.make 3 fun _ _ => 1) 5) ∧
    ¬ InBounds (twoOptC 3 .sum [[0, 3, 4, 2]] (fun _ _ => 1) (DepGraph.make 3 fun _ _ => 1) 5) := by
  have key : ([[[]], [[0, 3, 4, 2]]].all fun P => match twoOptC 3 .sum P (fun _ _ => 1) (DepGraph.make 3 fun _ _ => 1) 5 with
    | .error (.ub _) => true
    | _ => false) = true := by decide +kernel
  simp only [List.all_cons, List.all_nil, Bool.and_true, Bool.and_eq_true] at key
  refine ⟨fun hb => ?_, fun hb => ?_⟩
  · have k := key.1
    split at k
    · next s hs => exact hb s hs
    · simp at k
  · have k := key.2
    split at k
    · next s hs => exact hb s hs
    · simp at k

/-- Non-vacuity: five nodes, two agents; construction and improvement run to the end. -/
example : testOk (WM.make 5 5 (fun u v => ((u * u + 3 * v) % 7 : Nat)) [0, 1] [3, 4]) (fun m =>
    testOk (nearestInsertionC .max (fun _ => m.w) m.n m.starts m.ends m.deps 9) fun r =>
      !r.1.1.isEmpty && testOk (twoOptC m.n .max r.1.1 m.w m.deps 9) fun _ => true) = true := by decide +kernel

/-! ### C82 for the initial result -/

theorem niLoop_shift {σ : Type} (starts ends : List Nat) (step : σ → Nat → Except Err σ) (d : Nat) :
    ∀ (l : List Nat) (t : Nat) (s : σ), l.length ≤ t → niLoop starts ends step l (t + d) s =
      (niLoop starts ends step l t s).map fun r => (r.1, r.2 + d) := by
  intro l
  induction l with
  | nil => intro t s _; rfl
  | cons n l ih =>
    intro t s ht
    cases t with
    | zero => simp at ht
    | succ t =>
      rw [Nat.succ_add]
      simp only [niLoop]
      simp only [List.length_cons, Nat.add_le_add_iff_right] at ht
      split
      · exact ih t s ht
      · cases step s n with
        | error e => rfl
        | ok s' => exact ih t s' ht

/-- The construction does not depend on the deadline, unless it is hit. -/
theorem ni_shift (h : WM.make rows cols w starts ends = .ok m) {W : Nat → Weights} {t : Nat} (ht : m.n ≤ t) (d : Nat) :
    nearestInsertion mode W m.n m.starts m.ends m.deps (t + d) =
      (nearestInsertion mode W m.n m.starts m.ends m.deps t).map fun r => (r.1, r.2 + d) := by
  obtain ⟨o, ho, hp, _⟩ := C56_processing_order h
  have hl : o.reverse.length ≤ t := by rw [hp.length_eq]; simpa using ht
  cases mode with
  | sum =>
    simp only [nearestInsertion, nearestInsertionSum, ho]
    cases niInitCore m.starts.length m.starts m.ends (componentIds (niArcs m.starts m.ends m.deps)) with
    | error e => rfl
    | ok core =>
      dsimp only
      rw [niLoop_shift _ _ _ d _ _ _ hl]
      cases niLoop m.starts m.ends (niSumStep m.starts.length W (componentIds (niArcs m.starts m.ends m.deps))) o.reverse t _ with
      | error e => rfl
      | ok r => rcases r with ⟨_ | s, t'⟩ <;> rfl
  | max =>
    simp only [nearestInsertion, nearestInsertionMax, ho]
    cases niInitCore m.starts.length m.starts m.ends (componentIds (niArcs m.starts m.ends m.deps)) with
    | error e => rfl
    | ok core =>
      dsimp only
      rw [niLoop_shift _ _ _ d _ _ _ hl]
      cases niLoop m.starts m.ends (niMaxStep m.starts.length W (componentIds (niArcs m.starts m.ends m.deps))) o.reverse t _ with
      | error e => rfl
      | ok r => rcases r with ⟨_ | s, t'⟩ <;> rfl

/-- **C82, initial result.** For every accepted instance there is a number of deadline checks after which
the stored paths are a local optimum: they come from a cover none of whose exchanges of two inner nodes is
shorter and respects all dependencies. -/
theorem C82_initial_result (mode : Mode) (h : WM.make rows cols w starts ends = .ok m) (hW : SmallDeltas m.starts.length m.n (fun _ => m.w)) :
    ∃ K, ∀ t, K ≤ t → ∀ (s : ResState) (t' : Nat), createInitialResult mode m t ResState.init = .ok (s, t') → s.upper < dblMax →
      ∃ P, IsCover m.n m.starts m.ends P ∧ s.paths = P.map (·.map m.orig) ∧
        ∀ Q v v', Exchanged P Q → Respects (DepIn m.n m.w) Q → IsObjective mode m.w P v → IsObjective mode m.w Q v' → v ≤ v' := by
  cases hn : nearestInsertion mode (fun _ => m.w) m.n m.starts m.ends m.deps m.n with
  | error e =>
    refine ⟨m.n, ?_⟩
    intro t ht s t' hr
    obtain ⟨d, rfl⟩ := Nat.exists_eq_add_of_le ht
    unfold createInitialResult at hr
    rw [ni_shift h le_rfl d, hn] at hr
    simp [Except.map] at hr
  | ok x =>
    obtain ⟨⟨P0, obj⟩, t1⟩ := x
    have hc := (C24_construction_covers h hW hn).1 le_rfl
    have htog := (C25_linked_nodes_together h hW hn le_rfl).2
    have hA : 0 < P0.length := by rw [hc.len]; exact WM.starts_pos h
    have hd : m.deps = DepGraph.make m.n m.w := (WM.make_ok h).1.deps
    obtain ⟨K, hK⟩ := C82_local_optimum mode m.w (n := m.n) (wd := m.w) hA (fun x hx => List.mem_range.1 (hc.perm.mem_iff.1 hx)) (hc.perm.nodup_iff.2 List.nodup_range) htog
    refine ⟨m.n + K, ?_⟩
    intro t ht s t' hr hub
    obtain ⟨d, rfl⟩ := Nat.exists_eq_add_of_le ht
    unfold createInitialResult at hr
    rw [Nat.add_assoc, ni_shift h le_rfl (K + d), hn] at hr
    simp only [Except.map] at hr
    have hc1 := C28_cover_preserved (mode := mode) (w := m.w) (deps := m.deps) (t := t1 + (K + d)) hA hc
    rw [(C21_paths_mapped_back h _ hc1.lt).1] at hr
    simp only [Except.ok.injEq, Prod.mk.injEq] at hr
    obtain ⟨hs, _⟩ := hr
    refine ⟨_, hc1, ?_, ?_⟩
    · by_cases hlt : obj - (twoOpt mode P0 m.w m.deps (t1 + (K + d))).1.2 < dblMax
      · rw [← hs]; exact (init_update_lt hlt).2
      · rw [← hs, init_update_ge hlt] at hub
        exact absurd hub (lt_irrefl _)
    · rw [hd]
      exact hK _ (by omega)

/-- **C84.** The initial result does not depend on the time limit once it is long enough: for every accepted
instance there is a number of deadline checks from which on the outcome (bounds, paths or error) is always
the same. -/
theorem C84_initial_result_stable (mode : Mode) (h : WM.make rows cols w starts ends = .ok m) (hW : SmallDeltas m.starts.length m.n (fun _ => m.w)) :
    ∃ K, ∀ t, K ≤ t → (createInitialResult mode m t ResState.init).map (·.1) = (createInitialResult mode m K ResState.init).map (·.1) := by
  cases hn : nearestInsertion mode (fun _ => m.w) m.n m.starts m.ends m.deps m.n with
  | error e =>
    refine ⟨m.n, ?_⟩
    intro t ht
    obtain ⟨d, rfl⟩ := Nat.exists_eq_add_of_le ht
    unfold createInitialResult
    rw [ni_shift h le_rfl d, hn]
    rfl
  | ok x =>
    obtain ⟨⟨P0, obj⟩, t1⟩ := x
    have hc := (C24_construction_covers h hW hn).1 le_rfl
    have hA : 0 < P0.length := by rw [hc.len]; exact WM.starts_pos h
    obtain ⟨K, r, hK⟩ := C31_terminates mode m.w m.deps P0 hA
    refine ⟨m.n + K, ?_⟩
    have key : ∀ d, (createInitialResult mode m (m.n + (K + d)) ResState.init).map (·.1) =
        (match m.transformPathsBack r.1 with
        | .error e => .error e
        | .ok q => .ok (ResState.init.updateUpperBound (obj - r.2) q).1) := by
      intro d
      unfold createInitialResult
      rw [ni_shift h le_rfl (K + d), hn]
      simp only [Except.map]
      rw [hK _ (by omega)]
      dsimp only
      cases m.transformPathsBack r.1 <;> rfl
    intro t ht
    obtain ⟨d, rfl⟩ := Nat.exists_eq_add_of_le ht
    have e0 := key 0
    rw [Nat.add_assoc, key d, ← e0]
    rfl

end Mtsp
