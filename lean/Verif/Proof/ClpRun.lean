import Verif.Model.ClpSearch
import Verif.Proof.ClpSize
import Verif.Proof.BnBRun

/-! The LP of every worker is represented correctly in CLP throughout the search. -/

namespace Mtsp

/-- columns without a variable have the bounds of a new column -/
structure LPModel.Spare (M : LPModel) : Prop where
  len : M.lo.length = M.up.length
  enough : M.nVars ≤ M.lo.length
  free : ∀ i, M.nVars ≤ i → i < M.lo.length → M.bounds i = (some 0, some dblMax)

theorem LPModel.Spare.add {M : LPModel} (h : M.Spare) {l u : ℚ} {k : Nat} {M' : LPModel} (ha : M.addVariable l u = .ok (k, M')) : M'.Spare := by
  unfold LPModel.addVariable at ha
  dsimp only at ha
  have hl := h.len
  have he := h.enough
  by_cases hc : M.nVars + 1 ≥ M.lo.length
  · rw [if_pos hc] at ha
    simp only [LPModel.setBounds] at ha
    rw [if_pos ⟨by simp; omega, by simp; omega⟩] at ha
    simp only [Except.ok.injEq, Prod.mk.injEq] at ha
    obtain ⟨_, rfl⟩ := ha
    refine ⟨by simp [hl], by simp; omega, ?_⟩
    intro i h1 h2
    dsimp only at h1 h2
    simp only [List.length_set, List.length_append, List.length_cons, List.length_nil] at h2
    have hne : M.nVars ≠ i := by omega
    have hi : i = M.lo.length := by omega
    simp only [LPModel.bounds, List.getElem?_set_ne hne]
    rw [hi, List.getElem?_append_right (le_refl _), hl, List.getElem?_append_right (le_refl _)]
    simp
  · rw [if_neg hc] at ha
    simp only [LPModel.setBounds] at ha
    rw [if_pos ⟨by omega, by omega⟩] at ha
    simp only [Except.ok.injEq, Prod.mk.injEq] at ha
    obtain ⟨_, rfl⟩ := ha
    refine ⟨by simp [hl], by simp; omega, ?_⟩
    intro i h1 h2
    dsimp only at h1 h2
    simp only [List.length_set] at h2
    have hne : M.nVars ≠ i := by omega
    simp only [LPModel.bounds, List.getElem?_set_ne hne]
    exact h.free i (by omega) h2

theorem LPModel.Spare.addBinaries : ∀ (k : Nat) {M M' : LPModel}, M.Spare → LPModel.addBinaries k M = .ok M' → M'.Spare
  | 0, M, M', h, ha => by simp only [LPModel.addBinaries, Except.ok.injEq] at ha; subst ha; exact h
  | k + 1, M, M', h, ha => by
    simp only [LPModel.addBinaries] at ha
    split at ha
    · simp at ha
    · next hv => exact LPModel.Spare.addBinaries k (h.add hv) ha

theorem makeCols_spare {mode : Mode} {A N : Nat} {M : LPModel} (h : makeCols mode A N = .ok M) : M.Spare := by
  unfold makeCols LPModel.make at h
  split at h
  · simp at h
  · next M0 hm =>
    have h0 : M0.Spare := by
      split at hm
      · simp at hm
      · refine LPModel.Spare.addBinaries _ ⟨by simp, by simp, ?_⟩ hm
        intro i _ h2
        simp only [List.length_replicate] at h2
        simp [LPModel.bounds, List.getElem?_replicate, h2]
    cases mode with
    | sum => simp only [Except.ok.injEq] at h; subst h; exact h0
    | max =>
      dsimp only at h
      cases ha : M0.addVariable 0 dblMax with
      | error er => rw [ha] at h; simp [Except.map] at h
      | ok p =>
        rw [ha] at h
        simp only [Except.map, Except.ok.injEq] at h
        subst h
        exact h0.add (k := p.1) ha

section
variable {e : BEnv} {rows : Nat} {w : Weights} {starts ends : List Nat}

theorem nVars_eq (g : e.Good rows w starts ends) : e.cols.nVars = e.B + if e.mode = .max then 1 else 0 := by
  obtain ⟨_, _, _, _, h1, h2⟩ := makeCols_spec g.colsOk
  rcases hm : e.mode with _ | _
  · simpa [BEnv.B] using h1 hm
  · simpa [BEnv.B] using (h2 hm).1

theorem rows0_fits (g : e.Good rows w starts ends) : ∀ c ∈ e.rows0, c.Fits e.cols.nVars := by
  intro c hc
  unfold BEnv.rows0 at hc
  rw [nVars_eq g]
  rcases List.mem_append.1 hc with hc | hc
  · exact objective_rows_fits _ _ _ _ c hc
  · exact (rows_fits g c hc).mono (by omega)

theorem obj_fits (g : e.Good rows w starts ends) : e.obj.Fits e.cols.nVars := by
  rw [nVars_eq g]; exact objective_fits _ _ _ _

theorem bounds_some_lt {M : LPModel} {i : Nat} {l u : ℚ} (h : M.bounds i = (some l, some u)) : i < M.lo.length := by
  unfold LPModel.bounds at h
  simp only [Prod.mk.injEq] at h
  exact lt_length_of_some h.1

/-- a worker's columns have what `Holds` needs -/
theorem FixInv.spare (g : e.Good rows w starts ends) {f : FixState} (h : FixInv e.cols f) :
    f.model.nVars ≤ f.model.lo.length ∧ ∀ i l u, f.model.nVars ≤ i → f.model.bounds i = (some l, some u) → l ≤ 0 ∧ 0 ≤ u := by
  have hsp := makeCols_spare g.colsOk
  have hnb : e.cols.nBin ≤ e.cols.nVars := by rw [g.nBin]; exact g.le_nVars
  have hfree : ∀ i, e.cols.nBin ≤ i → f.model.bounds i = e.cols.bounds i := fun i hi =>
    h.free i (fun hm => by have := h.bin0 i hm; omega) (fun hm => by have := h.bin1 i hm; omega)
  constructor
  · rw [h.nVars]
    by_contra hlt
    push Not at hlt
    have hw := h.wf.1
    rw [h.nBin] at hw
    have := hfree f.model.lo.length hw
    have hs := hsp.enough
    have hb : e.cols.lo[f.model.lo.length]? = none := by
      have := congrArg Prod.fst this
      simp only [LPModel.bounds] at this
      rw [← this]; simp
    rw [List.getElem?_eq_none_iff] at hb
    omega
  · intro i l u hi hb
    rw [h.nVars] at hi
    rw [hfree i (by omega)] at hb
    have := hsp.free i hi (bounds_some_lt hb)
    rw [this] at hb
    simp only [Prod.mk.injEq, Option.some.injEq] at hb
    obtain ⟨rfl, rfl⟩ := hb
    exact ⟨le_refl _, dblMax_pos.le⟩

/-- a worker's LP fits into its columns -/
theorem prob_fits (g : e.Good rows w starts ends) {wk : Worker} (hf : FixInv e.cols wk.fix) (hc : ∀ c ∈ wk.cuts, CutOk e c) :
    (∀ c ∈ (e.prob wk).rows, c.Fits (e.prob wk).cols.nVars) ∧ (e.prob wk).obj.Fits (e.prob wk).cols.nVars := by
  have hn : (e.prob wk).cols.nVars = e.cols.nVars := hf.nVars
  rw [hn]
  refine ⟨?_, obj_fits g⟩
  intro c hcm
  rcases List.mem_append.1 (show c ∈ e.rows0 ++ wk.cuts from hcm) with h | h
  · exact rows0_fits g c h
  · exact (hc c h).1.mono g.le_nVars

/-- `C` holds exactly the data of the worker's LP -/
structure Clp.Mirrors (e : BEnv) (wk : Worker) (C : Clp) : Prop where
  cols : C.cols = wk.fix.model
  rows : C.rows = (e.rows0 ++ wk.cuts).map LinCon.toRow
  obj : C.obj = coefOf e.obj.coefs
  offset : C.offset = -e.obj.const

theorem Clp.Mirrors.holds (g : e.Good rows w starts ends) {wk : Worker} (hf : FixInv e.cols wk.fix) (hc : ∀ c ∈ wk.cuts, CutOk e c) {C : Clp}
    (h : C.Mirrors e wk) : C.Holds (e.prob wk) := by
  obtain ⟨h1, h2⟩ := prob_fits g hf hc
  obtain ⟨h3, h4⟩ := hf.spare g
  exact ⟨h.cols, h.rows, h.obj, h.offset, h1, h2, by unfold Clp.ncols; rw [h.cols]; exact h3, h4⟩

/-- the constructor's calls succeed and leave the intended LP -/
theorem build_mirrors (g : e.Good rows w starts ends) (hsz : (entriesBound e.m.starts.length e.m.n e.m.deps.arcs.length : ℤ) ≤ intMax) :
    ∃ C, Clp.build e.mode e.m e.cols = .ok C ∧ C.cols = e.cols ∧ C.rows = e.rows0.map LinCon.toRow ∧
      C.obj = coefOf e.obj.coefs ∧ C.offset = -e.obj.const := by
  have hi := WM.inst g.make
  have hN := WM.two_le g.make
  have hsp := makeCols_spare g.colsOk
  have hA : 1 ≤ e.m.starts.length := hi.pos
  have hb := nnz_build e.m.n e.m.starts e.m.ends e.m.deps.arcs hi.lenEq
  have hlen := length_build e.m.n e.m.starts e.m.ends e.m.deps.arcs hi.lenEq hA hN
  obtain ⟨hr1, hr2⟩ := objective_rows_nnz e.mode e.m.starts.length e.m.n e.m.w
  have hle : e.m.starts.length * (1 + e.m.n * e.m.n) ≤ entriesBound e.m.starts.length e.m.n e.m.deps.arcs.length := by
    unfold entriesBound
    have : e.m.starts.length * (1 + e.m.n * e.m.n) = e.m.starts.length + e.m.starts.length * e.m.n * e.m.n := by ring
    rw [this]; omega
  have hle2 : e.m.starts.length ≤ entriesBound e.m.starts.length e.m.n e.m.deps.arcs.length := by unfold entriesBound; omega
  unfold Clp.build
  rw [addConstraints_eq (C := Clp.new e.cols) (fun c hc => by
    have := objective_rows_fits e.mode e.m.starts.length e.m.n e.m.w c hc
    exact this.mono (by have := nVars_eq g; unfold BEnv.B at this; rw [← this]; exact hsp.enough))]
  rw [if_neg (by omega), if_pos (by omega)]
  dsimp only
  rw [setObjective_ok (by
    have := objective_fits e.mode e.m.starts.length e.m.n e.m.w
    exact this.mono (by have := nVars_eq g; unfold BEnv.B at this; rw [← this]; exact hsp.enough)) (fun _ => rfl)]
  dsimp only
  rw [addConstraints_eq (fun c hc => by
    have := rows_fits g c hc
    exact this.mono (le_trans g.le_nVars hsp.enough))]
  rw [if_neg (by omega), if_pos (by omega)]
  exact ⟨_, rfl, rfl, by simp [Clp.new, BEnv.rows0], rfl, rfl⟩

theorem clp_run_append (a b : List ClpOp) : ∀ C : Clp, Clp.run (a ++ b) C = (Clp.run a C).bind (Clp.run b) := by
  induction a with
  | nil => intro C; rfl
  | cons o a ih =>
    intro C
    simp only [List.cons_append, Clp.run]
    cases C.step o with
    | error er => rfl
    | ok C' => exact ih C'

/-- steps other than popping a node and reading cuts leave the worker's LP alone -/
theorem step_lp_same (s : BState) (t : Nat) (i : Inp) (h1 : (s.wk t).pc ≠ .pop) (h2 : ∀ lb, (s.wk t).pc ≠ .read lb) :
    ((s.step e t i).wk t).cuts = (s.wk t).cuts ∧ ((s.step e t i).wk t).fix.model = (s.wk t).fix.model := by
  have hev : ∀ lb ub y rc, ((s.wk t).evaluate e lb ub y rc).cuts = (s.wk t).cuts ∧
      ((s.wk t).evaluate e lb ub y rc).fix.model = (s.wk t).fix.model := by
    intro lb ub y rc
    unfold Worker.evaluate
    split
    · exact ⟨rfl, rfl⟩
    · split
      · exact ⟨rfl, rfl⟩
      · dsimp only
        split
        · exact ⟨rfl, rfl⟩
        · split
          · exact ⟨rfl, rfl⟩
          · split <;> exact ⟨rfl, rfl⟩
  unfold BState.step
  split
  all_goals try dsimp only
  all_goals first
    | (rename_i h; exact absurd h h1)
    | (rename_i lb h; exact absurd h (h2 lb))
    | skip
  all_goals repeat' split
  all_goals simp [BState.goto, BState.setWk, hev]
end

end Mtsp
