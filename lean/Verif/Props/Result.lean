import Verif.Model.Result

/-! Properties C03, C04, C05 of the result object, for all histories of operations. -/

namespace Mtsp

/-- Specification: the upper bounds / lower bounds submitted in a history. -/
def submittedUppers (ops : List ResOp) : List ℚ :=
  ops.filterMap fun | .updUpper v _ => some v | _ => none
def submittedLowers (ops : List ResOp) : List ℚ :=
  ops.filterMap fun | .updLower v => some v | _ => none

/-- Specification: smallest element of a list, starting from `d`; largest likewise. -/
def smallest (d : ℚ) (l : List ℚ) : ℚ := l.foldr min d
def largest (d : ℚ) (l : List ℚ) : ℚ := l.foldr max d

theorem smallest_append (d : ℚ) (l m) : smallest d (l ++ m) = min (smallest d l) (smallest d m) := by
  induction l with
  | nil =>
    simp only [List.nil_append, smallest, List.foldr_nil]
    refine (min_eq_right ?_).symm
    induction m with
    | nil => simp
    | cons a m ih => simp only [List.foldr_cons]; exact le_trans (min_le_right _ _) ih
  | cons a l ih => simp only [smallest, List.cons_append, List.foldr_cons] at *; rw [ih, min_assoc]

theorem largest_append (d : ℚ) (l m) : largest d (l ++ m) = max (largest d l) (largest d m) := by
  induction l with
  | nil =>
    simp only [List.nil_append, largest, List.foldr_nil]
    refine (max_eq_right ?_).symm
    induction m with
    | nil => simp
    | cons a m ih => simp only [List.foldr_cons]; exact le_trans ih (le_max_right _ _)
  | cons a l ih => simp only [largest, List.cons_append, List.foldr_cons] at *; rw [ih, max_assoc]

theorem smallest_perm (d : ℚ) {l m : List ℚ} (h : l.Perm m) : smallest d l = smallest d m := by
  induction h with
  | nil => rfl
  | cons x _ ih => simp only [smallest, List.foldr_cons] at *; rw [ih]
  | swap x y l => simp only [smallest, List.foldr_cons]; rw [min_left_comm]
  | trans _ _ ih1 ih2 => rw [ih1, ih2]

theorem largest_perm (d : ℚ) {l m : List ℚ} (h : l.Perm m) : largest d l = largest d m := by
  induction h with
  | nil => rfl
  | cons x _ ih => simp only [largest, List.foldr_cons] at *; rw [ih]
  | swap x y l => simp only [largest, List.foldr_cons]; rw [max_left_comm]
  | trans _ _ ih1 ih2 => rw [ih1, ih2]

theorem ResState.run_append (s : ResState) (a b : List ResOp) : s.run (a ++ b) = (s.run a).run b := by
  simp [ResState.run, List.foldl_append]

theorem ResState.run_snoc (s : ResState) (a : List ResOp) (o : ResOp) :
    s.run (a ++ [o]) = ((s.run a).step o).1 := by
  simp [ResState.run, List.foldl_append]

/-- C04, closed form: whatever the order, the upper bound is the smallest submitted upper bound
(`DBL_MAX` initially) and the lower bound the largest submitted lower bound (`-DBL_MAX` initially)
capped by the upper bound. -/
theorem C04_bounds_closed_form (ops : List ResOp) :
    (ResState.init.run ops).upper = smallest dblMax (submittedUppers ops) ∧
    (ResState.init.run ops).lower =
      min (largest (-dblMax) (submittedLowers ops)) (smallest dblMax (submittedUppers ops)) := by
  induction ops using List.reverseRecOn with
  | nil =>
    refine ⟨rfl, ?_⟩
    show -dblMax = min (-dblMax) dblMax
    exact (min_eq_left neg_dblMax_lt.le).symm
  | append_singleton ops o ih =>
    obtain ⟨hu, hl⟩ := ih
    rw [ResState.run_snoc]
    have hdU : smallest dblMax (submittedUppers ops) ≤ dblMax := by
      rw [smallest]
      generalize submittedUppers ops = l
      induction l with
      | nil => simp
      | cons a m ih => simp only [List.foldr_cons]; exact le_trans (min_le_right _ _) ih
    have hdL : -dblMax ≤ largest (-dblMax) (submittedLowers ops) := by
      rw [largest]
      generalize submittedLowers ops = l
      induction l with
      | nil => simp
      | cons a m ih => simp only [List.foldr_cons]; exact le_trans ih (le_max_right _ _)
    have e1 : submittedUppers (ops ++ [o]) = submittedUppers ops ++ submittedUppers [o] := by
      simp [submittedUppers]
    have e2 : submittedLowers (ops ++ [o]) = submittedLowers ops ++ submittedLowers [o] := by
      simp [submittedLowers]
    rw [e1, e2, smallest_append, largest_append]
    generalize hs : ResState.init.run ops = s at *
    generalize smallest dblMax (submittedUppers ops) = U at *
    generalize largest (-dblMax) (submittedLowers ops) = L at *
    cases o with
    | getBounds =>
      simp [ResState.step, submittedUppers, submittedLowers, smallest, largest, hu, hl, hdU, hdL]
    | isTimeoutHit =>
      simp [ResState.step, submittedUppers, submittedLowers, smallest, largest, hu, hl, hdU, hdL]
    | setTimeoutHit =>
      simp [ResState.step, ResState.setTimeoutHit, submittedUppers, submittedLowers, smallest, largest,
        hu, hl, hdU, hdL]
    | updUpper v p =>
      simp only [ResState.step, ResState.updateUpperBound, submittedUppers, submittedLowers, smallest,
        largest, List.filterMap_cons, List.filterMap_nil, List.foldr_cons, List.foldr_nil]
      rw [hu, max_eq_left hdL, ← min_assoc, min_comm (min U v) dblMax, ← min_assoc,
        min_eq_right (a := dblMax) (b := U) hdU]
      split
      · next h => refine ⟨(min_eq_right h.le).symm, ?_⟩
                  simp only [hl]; rw [min_assoc]
      · next h => push Not at h; rw [min_eq_left h]; exact ⟨hu, hl⟩
    | updLower v =>
      simp only [ResState.step, ResState.updateLowerBound, submittedUppers, submittedLowers, smallest,
        largest, List.filterMap_cons, List.filterMap_nil, List.foldr_cons, List.foldr_nil]
      rw [min_eq_left hdU]
      have : max L (max v (-dblMax)) = max L v := by
        rw [max_comm v, ← max_assoc, max_eq_left hdL]
      rw [this, hl]
      split
      · next h =>
        refine ⟨hu, ?_⟩
        simp only [hu]
        rcases le_total L v with h1 | h1
        · rw [max_eq_right h1]
        · rw [max_eq_left h1]
          rcases le_total L U with h2 | h2
          · rw [min_eq_left h2] at h
            have : v = L := le_antisymm h1 h
            rw [this]
          · rw [min_eq_right h2] at h
            rw [min_eq_right h2, min_eq_right h]
      · next h =>
        push Not at h
        refine ⟨hu, ?_⟩
        have : v ≤ L := le_trans h.le (min_le_left _ _)
        rw [max_eq_left this]; exact hl

/-- C04, schedule independence: reordering a history does not change the bounds. -/
theorem C04_bounds_schedule_independent (ops ops' : List ResOp) (h : ops.Perm ops') :
    (ResState.init.run ops).getBounds = (ResState.init.run ops').getBounds := by
  obtain ⟨h1, h2⟩ := C04_bounds_closed_form ops
  obtain ⟨h3, h4⟩ := C04_bounds_closed_form ops'
  have hu : (submittedUppers ops).Perm (submittedUppers ops') := h.filterMap _
  have hl : (submittedLowers ops).Perm (submittedLowers ops') := h.filterMap _
  simp only [ResState.getBounds, h1, h2, h3, h4, smallest_perm _ hu, largest_perm _ hl]

theorem smallest_le {d : ℚ} {l : List ℚ} {v : ℚ} (h : v ∈ l) : smallest d l ≤ v := by
  induction l with
  | nil => simp at h
  | cons a l ih =>
    simp only [smallest, List.foldr_cons]
    rcases List.mem_cons.1 h with rfl | h
    · exact min_le_left _ _
    · exact le_trans (min_le_right _ _) (ih h)

theorem le_smallest {d : ℚ} {l : List ℚ} {o : ℚ} (hd : o ≤ d) (h : ∀ v ∈ l, o ≤ v) : o ≤ smallest d l := by
  induction l with
  | nil => simpa [smallest]
  | cons a l ih =>
    simp only [smallest, List.foldr_cons]
    exact le_min (h _ (by simp)) (ih fun v hv => h v (by simp [hv]))

theorem largest_le {d : ℚ} {l : List ℚ} {o : ℚ} (hd : d ≤ o) (h : ∀ v ∈ l, v ≤ o) : largest d l ≤ o := by
  induction l with
  | nil => simpa [largest]
  | cons a l ih =>
    simp only [largest, List.foldr_cons]
    exact max_le (h _ (by simp)) (ih fun v hv => h v (by simp [hv]))

/-- C04, validity: if every submitted lower bound is at most the optimum and every submitted upper bound at
least the optimum, the reported bounds enclose the optimum. -/
theorem C04_valid_bounds_stay_valid (ops : List ResOp) (opt : ℚ) (h1 : -dblMax ≤ opt) (h2 : opt ≤ dblMax)
    (hl : ∀ v ∈ submittedLowers ops, v ≤ opt) (hu : ∀ v ∈ submittedUppers ops, opt ≤ v) :
    (ResState.init.run ops).lower ≤ opt ∧ opt ≤ (ResState.init.run ops).upper := by
  obtain ⟨e1, e2⟩ := C04_bounds_closed_form ops
  rw [e1, e2]
  exact ⟨le_trans (min_le_left _ _) (largest_le h1 hl), le_smallest h2 hu⟩

/-- C04, the upper bound never grows. -/
theorem C04_upper_antitone (ops more : List ResOp) :
    (ResState.init.run (ops ++ more)).upper ≤ (ResState.init.run ops).upper := by
  rw [(C04_bounds_closed_form (ops ++ more)).1, (C04_bounds_closed_form ops).1]
  have e1 : submittedUppers (ops ++ more) = submittedUppers ops ++ submittedUppers more := by
    simp [submittedUppers]
  rw [e1, smallest_append]; exact min_le_left _ _

/-- C03: after every history the lower bound is at most the upper bound, and so is every pair of
bounds returned by the next operation. -/
theorem C03_bounds_never_cross (ops : List ResOp) :
    (ResState.init.run ops).lower ≤ (ResState.init.run ops).upper ∧
    ∀ o b, ((ResState.init.run ops).step o).2 = some b → b.Lower ≤ b.Upper := by
  have key : ∀ ops, (ResState.init.run ops).lower ≤ (ResState.init.run ops).upper := by
    intro ops
    obtain ⟨e1, e2⟩ := C04_bounds_closed_form ops
    rw [e1, e2]; exact min_le_right _ _
  refine ⟨key ops, fun o b hb => ?_⟩
  have h2 := key (ops ++ [o])
  rw [ResState.run_snoc] at h2
  cases o <;> simp only [ResState.step, reduceCtorEq, Option.some.injEq] at hb h2
  · subst hb; exact h2
  · subst hb; exact h2
  · subst hb; exact h2

/-- C05: the stored paths are the ones submitted with the current upper bound, by the first submission
that reached this value; before any improvement there are none. -/
theorem C05_paths_belong_to_upper_bound (ops : List ResOp) :
    let s := ResState.init.run ops
    (s.paths = [] ∧ s.upper = dblMax ∧ ∀ v ∈ submittedUppers ops, dblMax ≤ v) ∨
    (s.upper < dblMax ∧ ∃ pre post, ops = pre ++ .updUpper s.upper s.paths :: post ∧
      (∀ v ∈ submittedUppers pre, s.upper < v) ∧ (∀ v ∈ submittedUppers post, s.upper ≤ v)) := by
  induction ops using List.reverseRecOn with
  | nil => left; exact ⟨rfl, rfl, by simp [submittedUppers]⟩
  | append_singleton ops o ih =>
    simp only at ih ⊢
    rw [ResState.run_snoc]
    have hcl := (C04_bounds_closed_form ops).1
    generalize hs : ResState.init.run ops = s at *
    have keep : (s.step o).1.upper = s.upper → (s.step o).1.paths = s.paths →
        (∀ v ∈ submittedUppers [o], s.upper ≤ v) →
        (((s.step o).1.paths = [] ∧ (s.step o).1.upper = dblMax ∧ ∀ v ∈ submittedUppers (ops ++ [o]), dblMax ≤ v) ∨
        ((s.step o).1.upper < dblMax ∧ ∃ pre post, ops ++ [o] = pre ++ .updUpper (s.step o).1.upper (s.step o).1.paths :: post ∧
          (∀ v ∈ submittedUppers pre, (s.step o).1.upper < v) ∧ (∀ v ∈ submittedUppers post, (s.step o).1.upper ≤ v))) := by
      intro h1 h2 h3
      rw [h1, h2]
      rcases ih with ⟨a, b, c⟩ | ⟨a, pre, post, e, hpre, hpost⟩
      · left; refine ⟨a, b, ?_⟩
        intro v hv
        have : v ∈ submittedUppers ops ++ submittedUppers [o] := by
          simpa [submittedUppers] using hv
        rcases List.mem_append.1 this with h | h
        · exact c v h
        · rw [← b]; exact h3 v h
      · right; refine ⟨a, pre, post ++ [o], ?_, hpre, ?_⟩
        · conv_lhs => rw [e]
          simp
        intro v hv
        have : v ∈ submittedUppers post ++ submittedUppers [o] := by
          simpa [submittedUppers] using hv
        rcases List.mem_append.1 this with h | h
        · exact hpost v h
        · exact h3 v h
    cases o with
    | getBounds => exact keep rfl rfl (by simp [submittedUppers])
    | isTimeoutHit => exact keep rfl rfl (by simp [submittedUppers])
    | setTimeoutHit => exact keep rfl rfl (by simp [submittedUppers])
    | updLower v =>
      refine keep ?_ ?_ (by simp [submittedUppers]) <;>
        simp only [ResState.step, ResState.updateLowerBound] <;> split <;> rfl
    | updUpper v p =>
      by_cases h : v < s.upper
      · right
        have hst : (s.step (.updUpper v p)).1 = { s with paths := p, upper := v, lower := min s.lower v } := by
          simp [ResState.step, ResState.updateUpperBound, h]
        rw [hst]
        refine ⟨?_, ops, [], rfl, ?_, by simp [submittedUppers]⟩
        · refine lt_of_lt_of_le h ?_
          rcases ih with ⟨_, b, _⟩ | ⟨a, _⟩
          · exact b.le
          · exact a.le
        · intro w hw
          refine lt_of_lt_of_le h ?_
          rw [hcl]; exact smallest_le hw
      · have hst : (s.step (.updUpper v p)).1 = s := by
          simp [ResState.step, ResState.updateUpperBound, h]
        push Not at h
        exact keep (by rw [hst]) (by rw [hst]) (by simpa [submittedUppers] using h)

/-- C05, replaced only by strictly better ones. -/
theorem C05_paths_replaced_only_when_better (ops : List ResOp) (o : ResOp)
    (h : (ResState.init.run (ops ++ [o])).paths ≠ (ResState.init.run ops).paths) :
    (ResState.init.run (ops ++ [o])).upper < (ResState.init.run ops).upper := by
  rw [ResState.run_snoc] at *
  cases o with
  | updUpper v p =>
    simp only [ResState.step, ResState.updateUpperBound] at *
    split at h
    · next hv => simp [hv]
    · exact absurd rfl h
  | updLower v =>
    simp only [ResState.step, ResState.updateLowerBound] at h
    split at h <;> exact absurd rfl h
  | _ => exact absurd rfl h

/-- non-vacuity: a history with two threads' updates, one of them crossing -/
example :
    let ops := [ResOp.updUpper 20 [[0, 1]], .updLower 5, .updUpper 10 [[1, 0]], .updLower 30, .updUpper 15 [[7]]]
    (ResState.init.run ops).paths = [[1, 0]] ∧ (ResState.init.run ops).getBounds = ⟨10, 10⟩ := by
  decide +kernel

end Mtsp
