import Verif.Proof.ClpHist
import Verif.Props.EndlessRefuted

/-! C69: the LP solver is given the intended linear program, at construction and at every moment of the search.
C70: setting an objective. -/

namespace Mtsp

/-! ### C69 -/

/-- **C69, adding constraints.** For every model and every batch of constraints whose variables exist and are distinct within a
constraint: at most `2^31 - 1` constraints with at most `2^31 - 1` entries in total are added; then the feasible points
are those that were feasible before and satisfy the new constraints, and nothing else changes.  More than `2^31 - 1`
constraints are refused with an error, more entries are undefined behaviour. -/
theorem C69_add_constraints (C : Clp) (cs : List LinCon)
    (hd : ∀ c ∈ cs, (c.coefs.map Prod.fst).Nodup ∧ ∀ p ∈ c.coefs, p.1 < C.ncols) :
    ((cs.length : ℤ) < 2 ^ 31 → (nnz cs : ℤ) < 2 ^ 31 → ∃ C', C.addConstraints cs = .ok C' ∧
      (∀ z, C'.toProb.Admits z ↔ C.toProb.Admits z ∧ ∀ c ∈ cs, c.Sat z) ∧ C'.toProb.obj = C.toProb.obj ∧ C'.toProb.cols = C.toProb.cols) ∧
    ((cs.length : ℤ) ≥ 2 ^ 31 → C.addConstraints cs = .error (.runtime "Too many constraints")) ∧
    ((cs.length : ℤ) < 2 ^ 31 → (nnz cs : ℤ) ≥ 2 ^ 31 → C.addConstraints cs = .error (.ub "signed integer overflow")) := by
  have key := addConstraints_eq (C := C) (cs := cs) hd
  refine ⟨?_, ?_, ?_⟩
  · intro h1 h2
    rw [if_neg (by unfold intMax; omega), if_pos (by unfold intMax; omega)] at key
    refine ⟨_, key, ?_, rfl, rfl⟩
    intro z
    have hr : ∀ c : LinCon, c ∈ ({ C with rows := C.rows ++ cs.map LinCon.toRow } : Clp).toProb.rows ↔ c ∈ C.toProb.rows ∨ c ∈ cs := by
      intro c
      have : (fun c : LinCon => (⟨c.toRow.entries, c.toRow.lo, c.toRow.up⟩ : LinCon)) = id := rfl
      simp only [Clp.toProb, List.map_append, List.map_map, Function.comp_def, this, List.map_id, List.mem_append]
    constructor
    · intro h
      exact ⟨⟨fun c hc => h.rows c ((hr c).2 (Or.inl hc)), h.bounds⟩, fun c hc => h.rows c ((hr c).2 (Or.inr hc))⟩
    · rintro ⟨h, h'⟩
      refine ⟨fun c hc => ?_, h.bounds⟩
      rcases (hr c).1 hc with hc | hc
      · exact h.rows c hc
      · exact h' c hc
  · intro h1; rw [key, if_pos (by unfold intMax; omega)]
  · intro h1 h2; rw [key, if_neg (by unfold intMax; omega), if_neg (by unfold intMax; omega)]

/-- A constraint with a variable that does not exist, or that occurs twice, is never stored. -/
theorem C69_add_constraints_undefined (C : Clp) (cs : List LinCon)
    (hd : ∃ c ∈ cs, ¬ ((c.coefs.map Prod.fst).Nodup ∧ ∀ p ∈ c.coefs, p.1 < C.ncols)) : ∀ C', C.addConstraints cs ≠ .ok C' :=
  addConstraints_bad hd

example : ∃ C', (Clp.new ⟨[0, 0], [1, 1], 2, 2⟩).addConstraints [⟨[(0, 1), (1, 1)], 1, 1⟩, ⟨[(1, 2)], 0, 1⟩] = .ok C' ∧ C'.rows.length = 2 :=
  ⟨_, rfl, rfl⟩

section
variable {e : BEnv} {rows : Nat} {w : Weights} {starts ends : List Nat}

theorem start_small {A N D : Nat} (h : 6 * (A * N * N) + 3 * (A * N) + A + D * (A * (1 + 2 * N + 2 * A)) < 2 ^ 31) :
    (entriesBound A N D : ℤ) ≤ intMax := by
  have h' : entriesBound A N D < 2 ^ 31 := h
  unfold intMax
  omega

/-- **C69, constructor.** For every accepted input (with `A` agents, `N` nodes and `D` dependencies after the preparation of the
input) small enough for `int` indices, the constructor's calls succeed and the problem CLP then holds is the LP relaxation:
same feasible points, same objective. -/
theorem C69_constructor (g : e.Good rows w starts ends)
    (hsz : 6 * (e.m.starts.length * e.m.n * e.m.n) + 3 * (e.m.starts.length * e.m.n) + e.m.starts.length +
      e.m.deps.arcs.length * (e.m.starts.length * (1 + 2 * e.m.n + 2 * e.m.starts.length)) < 2 ^ 31) :
    ∃ C, Clp.build e.mode e.m e.cols = .ok C ∧ C.Represents ⟨e.obj, e.rows0, e.cols⟩ := by
  obtain ⟨C, hC, h1, h2, h3, h4⟩ := build_mirrors g (start_small hsz)
  refine ⟨C, hC, ?_⟩
  have hm : C.Mirrors e ⟨.head, [], ⟨e.cols, [], []⟩⟩ := ⟨h1, by simpa using h2, h3, h4⟩
  have hinv : FixInv e.cols ⟨e.cols, [], []⟩ :=
    ⟨g.wf, rfl, rfl, by simp [LPModel.Bin], by simp [LPModel.Bin], fun _ _ _ => rfl⟩
  have := (hm.holds g hinv (by simp)).represents
  simpa [BEnv.prob] using this

/-- **C69, search.** For every accepted input of this size, in every execution, at every moment and for every worker: the
calls the worker has made to its copy of the LP (fixing and unfixing variables, adding cuts) succeed and leave CLP with the LP
of the worker's current node - the relaxation, with the cuts read so far and exactly the variables of the node fixed.
If CLP's status is right about what it holds, the answer of `Solve` is right about that LP.  (Batches of cuts beyond
`2^31 - 1` entries are excluded.) -/
theorem C69_search_lp (g : e.Good rows w starts ends) (hst : e.Started)
    (hsz : 6 * (e.m.starts.length * e.m.n * e.m.n) + 3 * (e.m.starts.length * e.m.n) + e.m.starts.length +
      e.m.deps.arcs.length * (e.m.starts.length * (1 + 2 * e.m.n + 2 * e.m.starts.length)) < 2 ^ 31)
    {r : ResState} {u : Nat} (hu : u < e.threads) {tr : List (Nat × Inp)} {s : BState} {ops : List ClpOp}
    (h : LPHistory e r u tr s ops) (hsm : SmallBatches ops) :
    ∃ C0 C, Clp.build e.mode e.m e.cols = .ok C0 ∧ Clp.run ops C0 = .ok C ∧ C.Represents (e.prob (s.wk u)) ∧
      ∀ status y rc, ClpStatusCorrect C status y rc → (solveAnswer status y rc).Correct (e.prob (s.wk u)) := by
  obtain ⟨C0, hb, _⟩ := C69_constructor g hsz
  obtain ⟨C, hC, hm⟩ := history_mirrors g hst hb (start_small hsz) h hu hsm
  obtain ⟨_, all, hg⟩ := run_ginv g hst h.brun
  obtain ⟨hfix, _⟩ := hg.wk u hu
  have hh := hm.holds g hfix (fun c hc => hg.cuts c (hg.sub hu c hc))
  refine ⟨C0, C, hb, hC, hh.represents, ?_⟩
  intro status y rc hs
  apply hh.answer
  obtain ⟨s0, s1, s2⟩ := hs
  unfold solveAnswer
  split
  · next h => exact s0 h
  · split
    · next h => exact s1 h
    · split
      · next h => exact s2 h
      · split <;> trivial

end

/-! ### a history that meets the hypotheses -/

/-- every execution has such a history -/
theorem BRun.history {e : BEnv} {r : ResState} {tr : List (Nat × Inp)} {s : BState} (h : BRun e r tr s) (u : Nat) :
    ∃ ops, LPHistory e r u tr s ops := by
  induction h with
  | start s h => exact ⟨[], .start s h⟩
  | step tr s t i _ ht hi ih =>
    obtain ⟨ops, ih⟩ := ih
    exact ⟨_, .step tr s ops t i ih ht hi⟩

/-- the calls along a script -/
def playOps (e : BEnv) (u : Nat) : BState → List (Nat × Cue) → List ClpOp
  | _, [] => []
  | s, x :: l => (if x.1 = u then s.lpCalls e x.1 else []) ++ playOps e u (s.step e x.1 (x.2.inp e s x.1)) l

theorem LPHistory.play {e : BEnv} {r : ResState} {u : Nat} : ∀ (l : List (Nat × Cue)) {tr0 : List (Nat × Inp)} {s : BState} {ops : List ClpOp},
    LPHistory e r u tr0 s ops → playB e s l = true → LPHistory e r u (tr0 ++ trace e s l) (Mtsp.play e s l) (ops ++ playOps e u s l)
  | [], tr0, s, ops, h, _ => by simpa [Mtsp.play, trace, playOps] using h
  | x :: l, tr0, s, ops, h, hb => by
    simp only [playB, Bool.and_eq_true, decide_eq_true_eq] at hb
    have h1 := LPHistory.step tr0 s ops x.1 _ h hb.1.1 (Cue.ok hb.1.2)
    have h2 := LPHistory.play l h1 hb.2
    simpa [Mtsp.play, trace, playOps, List.append_assoc] using h2

def ClpOp.entries : ClpOp → Nat
  | .add cs => cs.length + nnz cs
  | _ => 0

set_option maxHeartbeats 4000000 in
theorem c69_ops : (playOps c67rEnv 0 c67rS (solo (c67rCycle ++ c67rCycle))).all (fun o => decide (o.entries < 1000)) = true ∧
    (playOps c67rEnv 0 c67rS (solo (c67rCycle ++ c67rCycle))).any (fun o => decide (0 < o.entries)) = true := by decide +kernel

/-- a six-node instance, two rounds of the loop, a cut added in the second one -/
example : ∃ (r : ResState) (tr : List (Nat × Inp)) (s : BState) (ops : List ClpOp), c67rEnv.Good 6 c67rW [0] [5] ∧ c67rEnv.Started ∧
    LPHistory c67rEnv r 0 tr s ops ∧ SmallBatches ops ∧ (∃ cs, ClpOp.add cs ∈ ops ∧ cs ≠ []) ∧
    6 * (c67rEnv.m.starts.length * c67rEnv.m.n * c67rEnv.m.n) + 3 * (c67rEnv.m.starts.length * c67rEnv.m.n) + c67rEnv.m.starts.length +
      c67rEnv.m.deps.arcs.length * (c67rEnv.m.starts.length * (1 + 2 * c67rEnv.m.n + 2 * c67rEnv.m.starts.length)) < 2 ^ 31 := by
  obtain ⟨r, t', hr, hrun, _⟩ := exStart_run (e := c67rEnv) (t := 100) (by decide +kernel)
  obtain ⟨ops0, h0⟩ := hrun.history 0
  have hb := c67r_play
  have hp : playB c67rEnv c67rS (solo (c67rCycle ++ c67rCycle)) = true := by
    have key : ∀ (l l' : List (Nat × Cue)) (s : BState), playB c67rEnv s (l ++ l') = true → playB c67rEnv s l = true := by
      intro l
      induction l with
      | nil => intros; rfl
      | cons x l ih =>
        intro l' s h
        simp only [List.cons_append, playB, Bool.and_eq_true] at h ⊢
        exact ⟨h.1, ih l' _ h.2⟩
    refine key _ (solo c67rCycle) _ ?_
    rw [← hb]; simp [solo]
  have h0' : ops0 = [] := by
    have key : ∀ tr s ops, LPHistory c67rEnv r 0 tr s ops → tr = [] → ops = [] := by
      intro tr s ops h
      cases h with
      | start _ _ => intro _; rfl
      | step tr s ops t i _ _ _ => intro h; simp at h
    exact key _ _ _ h0 rfl
  subst h0'
  have hh := h0.play _ hp
  obtain ⟨c1, c2⟩ := c69_ops
  simp only [List.nil_append] at hh
  refine ⟨r, _, _, _, c67r_good, ⟨100, t', r, hr⟩, hh, ?_, ?_, by decide +kernel⟩
  · intro cs hcs
    have := of_decide_eq_true (List.all_eq_true.1 c1 _ hcs)
    simp only [ClpOp.entries] at this
    unfold intMax
    omega
  · obtain ⟨o, ho, h1⟩ := List.any_eq_true.1 c2
    simp only [decide_eq_true_eq] at h1
    cases o with
    | add cs =>
      refine ⟨cs, ho, ?_⟩
      rintro rfl
      simp [ClpOp.entries, nnz] at h1
    | fix => simp [ClpOp.entries] at h1
    | unfix => simp [ClpOp.entries] at h1

/-! ### C70 -/

/-- **C70 (partial).** On a model whose objective has not been set before, `SetObjective` with an expression over existing variables
succeeds; the objective then is that expression, and rows and columns are unchanged.  (The constructor sets the objective once.)
Missing: a second call, `C70_refuted`. -/
theorem C70_first_objective_partial (C : Clp) (o : LinComp) (hz : ∀ i, C.obj i = 0)
    (hf : (o.coefs.map Prod.fst).Nodup ∧ ∀ p ∈ o.coefs, p.1 < C.ncols) :
    ∃ C', C.setObjective o = .ok C' ∧ (∀ z, C'.toProb.obj.eval z = o.eval z) ∧ C'.toProb.rows = C.toProb.rows ∧ C'.toProb.cols = C.toProb.cols := by
  refine ⟨_, setObjective_ok hf hz, ?_, rfl, rfl⟩
  intro z
  rw [LinComp.eval_eq, LinComp.eval_eq, lin_coefOf (n := C.ncols) z o.coefs hf.1 hf.2]
  simp only [Clp.toProb, neg_neg, LinComp.lin, List.map_map, Function.comp_def]
  rw [list_sum_range]
  rfl

/-- in general the coefficients of the variables that the new expression does not mention stay as they were -/
theorem C70_objective (C : Clp) (o : LinComp) (hf : (o.coefs.map Prod.fst).Nodup ∧ ∀ p ∈ o.coefs, p.1 < C.ncols) :
    ∃ C', C.setObjective o = .ok C' ∧ C'.offset = -o.const ∧ C'.rows = C.rows ∧ C'.cols = C.cols ∧
      (∀ p ∈ o.coefs, C'.obj p.1 = p.2) ∧ ∀ j, j ∉ o.coefs.map Prod.fst → C'.obj j = C.obj j := by
  refine ⟨_, setCoefs_spec _ _ (by simpa [Clp.ncols] using hf.2) hf.1, rfl, rfl, rfl, ?_, ?_⟩
  · intro p hp
    have : o.coefs.find? (fun q => decide (q.1 = p.1)) = some p := by
      cases hfd : o.coefs.find? (fun q => decide (q.1 = p.1)) with
      | none =>
        rw [List.find?_eq_none] at hfd
        exact absurd (by simp) (hfd p hp)
      | some q =>
        have h1 := List.find?_some hfd
        have h2 := List.mem_of_find?_eq_some hfd
        simp only [decide_eq_true_eq] at h1
        have := List.inj_on_of_nodup_map hf.1 h2 hp h1
        rw [this]
    simp [this]
  · intro j hj
    have : o.coefs.find? (fun q => decide (q.1 = j)) = none := by
      rw [List.find?_eq_none]
      intro q hq
      simp only [decide_eq_true_eq]
      rintro rfl
      exact hj (List.mem_map_of_mem hq)
    simp [this]

/-- **C70 is false in full**: setting the objective `x0` and then the objective `x1` leaves the objective `x0 + x1`. -/
theorem C70_refuted : ∃ (C C1 C2 : Clp) (o1 o2 : LinComp) (z : Nat → ℚ), (o2.coefs.map Prod.fst).Nodup ∧ (∀ p ∈ o2.coefs, p.1 < C1.ncols) ∧
    C.setObjective o1 = .ok C1 ∧ C1.setObjective o2 = .ok C2 ∧ C2.toProb.obj.eval z ≠ o2.eval z := by
  refine ⟨Clp.new ⟨[0, 0], [1, 1], 2, 2⟩, _, _, .ofVar 0, .ofVar 1, fun _ => 1, by decide, ?_, rfl, rfl, ?_⟩
  · decide
  · simp [Clp.toProb, Clp.ncols, Clp.new, LinComp.eval_eq, LinComp.lin, LinComp.ofVar, List.range_succ]

example : ∃ C : Clp, (∀ i, C.obj i = 0) ∧ ∀ p ∈ (LinComp.ofVar 1).coefs, p.1 < C.ncols :=
  ⟨Clp.new ⟨[0, 0], [1, 1], 2, 2⟩, fun _ => rfl, by decide⟩

end Mtsp
