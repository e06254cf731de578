import Verif.Proof.SearchExec
import Verif.Proof.CApi
import Verif.Props.Comb

/-! Checked executions: a script tells which worker moves and, where an LP is solved, the answer with its certificate.
`playB` checks the script; `play` is the state it leads to. -/

namespace Mtsp

/-- one entry of a script -/
inductive Cue where
  /-- a step without an LP; the flag tells whether the deadline has passed -/
  | go (late : Bool)
  /-- the LP optimum with its dual multipliers -/
  | opt (y : Nat → ℚ) (mult : List ℚ)
  /-- infeasible, with the multipliers that show it -/
  | inf (mult : List ℚ)
  /-- the LP solver runs into the deadline -/
  | timeout

def Cue.inp (e : BEnv) (s : BState) (t : Nat) : Cue → Inp
  | .go late => ⟨late, .infeasible, 1000⟩
  | .opt y mult => ⟨false, .optimal y (rcOf (e.prob (s.wk t)) mult), 1000⟩
  | .inf _ => ⟨false, .infeasible, 1000⟩
  | .timeout => ⟨true, .timeout, 1000⟩

def Cue.okB (e : BEnv) (s : BState) (t : Nat) : Cue → Bool
  | .go _ => !(s.wk t).pc.isSolve
  | .opt y mult => certB (e.prob (s.wk t)) y mult
  | .inf mult => infB (e.prob (s.wk t)) mult
  | .timeout => true

theorem Cue.ok {e : BEnv} {s : BState} {t : Nat} {c : Cue} (h : c.okB e s t = true) : (c.inp e s t).Ok e s t := by
  cases c with
  | go l => exact Inp.ok_of_not_solve (by simpa [Cue.okB] using h)
  | opt y mult =>
    unfold Inp.Ok
    split
    · exact certB_sound h
    · trivial
  | inf mult =>
    unfold Inp.Ok
    split
    · exact infB_sound h
    · trivial
  | timeout =>
    unfold Inp.Ok
    split
    · simp [Cue.inp, LPAnswer.Correct]
    · trivial

/-- the state after a script -/
def play (e : BEnv) : BState → List (Nat × Cue) → BState
  | s, [] => s
  | s, x :: l => play e (s.step e x.1 (x.2.inp e s x.1)) l

def trace (e : BEnv) : BState → List (Nat × Cue) → List (Nat × Inp)
  | _, [] => []
  | s, x :: l => (x.1, x.2.inp e s x.1) :: trace e (s.step e x.1 (x.2.inp e s x.1)) l

def playB (e : BEnv) : BState → List (Nat × Cue) → Bool
  | _, [] => true
  | s, x :: l => decide (x.1 < e.threads) && x.2.okB e s x.1 && playB e (s.step e x.1 (x.2.inp e s x.1)) l

theorem BRun.play {e : BEnv} {r : ResState} : ∀ (l : List (Nat × Cue)) {tr0 : List (Nat × Inp)} {s : BState}, BRun e r tr0 s →
    playB e s l = true → BRun e r (tr0 ++ trace e s l) (Mtsp.play e s l)
  | [], tr0, s, h, _ => by simpa [Mtsp.play, trace] using h
  | x :: l, tr0, s, h, hb => by
    simp only [playB, Bool.and_eq_true, decide_eq_true_eq] at hb
    have h1 := BRun.step tr0 s x.1 _ h hb.1.1 (Cue.ok hb.1.2)
    have h2 := BRun.play l h1 hb.2
    simpa [Mtsp.play, trace, List.append_assoc] using h2

/-- nobody was late -/
def Cue.early : Cue → Bool
  | .go l => !l
  | .timeout => false
  | _ => true

theorem trace_early {e : BEnv} : ∀ (l : List (Nat × Cue)) (s : BState), l.all (fun x => x.2.early) = true →
    ∀ x ∈ trace e s l, x.2.late = false ∧ x.2.ans ≠ .timeout ∧ x.2.ans ≠ .error
  | [], _, _, x, hx => by simp [trace] at hx
  | y :: l, s, h, x, hx => by
    simp only [List.all_cons, Bool.and_eq_true] at h
    simp only [trace, List.mem_cons] at hx
    rcases hx with rfl | hx
    · cases hy : y.2 <;> rw [hy] at h <;> simp_all [Cue.inp, Cue.early]
    · exact trace_early l _ h.2 x hx

/-- no LP was cut off by the deadline -/
def Cue.solved : Cue → Bool
  | .timeout => false
  | _ => true

theorem trace_solved {e : BEnv} : ∀ (l : List (Nat × Cue)) (s : BState), l.all (fun x => x.2.solved) = true →
    ∀ x ∈ trace e s l, x.2.ans ≠ .timeout
  | [], _, _, x, hx => by simp [trace] at hx
  | y :: l, s, h, x, hx => by
    simp only [List.all_cons, Bool.and_eq_true] at h
    simp only [trace, List.mem_cons] at hx
    rcases hx with rfl | hx
    · cases hy : y.2 <;> rw [hy] at h <;> simp_all [Cue.inp, Cue.solved]
    · exact trace_solved l _ h.2 x hx

/-- LP solutions come from the script -/
theorem trace_opt {e : BEnv} : ∀ (l : List (Nat × Cue)) (s : BState), ∀ x ∈ trace e s l, ∀ y rc, x.2.ans = .optimal y rc → ∃ z ∈ l, ∃ m, z.2 = .opt y m
  | [], _, x, hx, _, _, _ => by simp [trace] at hx
  | z :: l, s, x, hx, y, rc, h => by
    simp only [trace, List.mem_cons] at hx
    rcases hx with rfl | hx
    · cases hz : z.2 with
      | opt y' m =>
        rw [hz] at h
        simp only [Cue.inp, LPAnswer.optimal.injEq] at h
        exact ⟨z, List.mem_cons_self, m, by rw [hz, h.1]⟩
      | _ => rw [hz] at h; simp [Cue.inp] at h
    · obtain ⟨z', h1, h2⟩ := trace_opt l _ x hx y rc h
      exact ⟨z', List.mem_cons_of_mem _ h1, h2⟩

theorem trace_has {e : BEnv} : ∀ (l : List (Nat × Cue)) (s : BState), ∀ z ∈ l, ∀ y m, z.2 = .opt y m → ∃ x ∈ trace e s l, ∃ rc, x.2.ans = .optimal y rc
  | [], _, z, hz, _, _, _ => by simp at hz
  | z' :: l, s, z, hz, y, m, h => by
    rcases List.mem_cons.1 hz with rfl | hz
    · refine ⟨_, List.mem_cons_self, ?_⟩
      simp [h, Cue.inp]
    · obtain ⟨x, h1, h2⟩ := trace_has l (s.step e z'.1 (z'.2.inp e s z'.1)) z hz y m h
      exact ⟨x, List.mem_cons_of_mem _ h1, h2⟩

/-! ### Whole calls -/

/-- library functions that keep their contracts -/
def exLib : Lib := ⟨libstdcxx, bruteCut, bruteFlow, ghHalves, 4, roundDouble⟩

theorem exLib_correct : exLib.Correct := ⟨bruteCut_correct.near, bruteFlow_correct.near, ghHalves_correct.proper, roundDouble_rounding, roundDouble_precise⟩

def Pc.isLeft : Pc → Bool
  | .left => true
  | _ => false

theorem Pc.isLeft_eq {pc : Pc} (h : pc.isLeft = true) : pc = .left := by cases pc <;> simp_all [Pc.isLeft]

/-- a call of the C function with the given script, checked; `p` is a test of how it ends -/
def callB (a : CArgs) (L : Lib) (t : Nat) (script : List (Nat × Cue)) (late : Bool) (p : CEnd → Bool) : Bool :=
  !a.badSize && !a.badPointer && !a.badMode &&
  match Solver.make a.N a.N a.weight a.startList a.endList a.opt t with
  | .error e => script.isEmpty && p (caught e)
  | .ok S =>
    if S.ticks = 0 then script.isEmpty && p (a.report S.res.setTimeoutHit)
    else
      match S.cols with
      | none => false
      | some c =>
        match BState.start (S.env L a.threads c) S.res with
        | .error _ => false
        | .ok s0 =>
          playB (S.env L a.threads c) s0 script &&
          (List.range (threadCount L.hw a.threads)).all (fun u => ((play (S.env L a.threads c) s0 script).wk u).pc.isLeft) &&
          (late || script.all fun x => x.2.early) &&
          p (match (play (S.env L a.threads c) s0 script).finish late with | .ok r => a.report r | .error e => caught e)

theorem callB_full {a : CArgs} {L : Lib} {t : Nat} {script : List (Nat × Cue)} {late : Bool} {p : CEnd → Bool}
    (h : callB a L t script late p = true) : ∃ tr x, a.Call L t tr x ∧ p x = true ∧ (late = false → ∀ y ∈ tr, y.2.late = false ∧ y.2.ans ≠ .timeout ∧ y.2.ans ≠ .error) ∧
      (script.all (fun x => x.2.solved) = true → ∀ y ∈ tr, y.2.ans ≠ .timeout) ∧
      (∀ x ∈ tr, ∀ y rc, x.2.ans = .optimal y rc → (∃ z ∈ script, ∃ m, z.2 = .opt y m)) ∧
      ∀ z ∈ script, ∀ y m, z.2 = .opt y m → ∃ x ∈ tr, ∃ rc, x.2.ans = .optimal y rc := by
  unfold callB at h
  simp only [Bool.and_eq_true, Bool.not_eq_true'] at h
  obtain ⟨⟨⟨h1, h2⟩, h3⟩, h⟩ := h
  split at h
  · rename_i e he
    rw [Bool.and_eq_true] at h
    exact ⟨[], _, .run _ _ h1 h2 h3 (.ctor e he), h.2, by simp, by simp, by simp, by simp [List.isEmpty_iff.1 h.1]⟩
  · rename_i S hS
    split at h
    · rename_i h0
      rw [Bool.and_eq_true] at h
      exact ⟨[], _, .run _ _ h1 h2 h3 (.solved S _ _ hS (.late h0)), h.2, by simp, by simp, by simp, by simp [List.isEmpty_iff.1 h.1]⟩
    · rename_i h0
      split at h
      · simp at h
      · rename_i c hc
        split at h
        · simp at h
        · rename_i s0 hs0
          simp only [Bool.and_eq_true, Bool.or_eq_true] at h
          obtain ⟨⟨⟨h4, h5⟩, h6⟩, h7⟩ := h
          have hrun := BRun.play script (BRun.start s0 hs0) h4
          simp only [List.nil_append] at hrun
          have hleft : ∀ u < threadCount L.hw a.threads, ((play (S.env L a.threads c) s0 script).wk u).pc = .left := by
            intro u hu
            exact Pc.isLeft_eq (List.all_eq_true.1 h5 u (List.mem_range.2 hu))
          have hlate : ∀ x ∈ trace (S.env L a.threads c) s0 script, x.2.late = true → late = true := by
            intro x hx hl
            rcases h6 with h6 | h6
            · exact h6
            · rw [(trace_early script s0 h6 x hx).1] at hl; simp at hl
          have hend : late = false → ∀ y ∈ trace (S.env L a.threads c) s0 script, y.2.late = false ∧ y.2.ans ≠ .timeout ∧ y.2.ans ≠ .error := by
            intro hl
            rcases h6 with h6 | h6
            · rw [hl] at h6; simp at h6
            · exact trace_early script s0 h6
          split at h7
          · rename_i r hr
            exact ⟨_, _, .run _ _ h1 h2 h3 (.solved S _ r hS (.finished c _ _ late r (by omega) hc hrun hleft hlate hr)), h7, hend, trace_solved script s0, trace_opt script s0, trace_has script s0⟩
          · rename_i e he
            exact ⟨_, _, .run _ _ h1 h2 h3 (.thrown S _ e hS (.unfinished c _ _ late e (by omega) hc hrun hleft hlate he)), h7, hend, trace_solved script s0, trace_opt script s0, trace_has script s0⟩

theorem callB_sound {a : CArgs} {L : Lib} {t : Nat} {script : List (Nat × Cue)} {late : Bool} {p : CEnd → Bool}
    (h : callB a L t script late p = true) : ∃ tr x, a.Call L t tr x ∧ p x = true ∧ (late = false → ∀ y ∈ tr, y.2.late = false ∧ y.2.ans ≠ .timeout ∧ y.2.ans ≠ .error) := by
  obtain ⟨tr, x, h1, h2, h3, _⟩ := callB_full h
  exact ⟨tr, x, h1, h2, h3⟩

theorem callB_answers {a : CArgs} {L : Lib} {t : Nat} {script : List (Nat × Cue)} {late : Bool} {p : CEnd → Bool}
    (h : callB a L t script late p = true) (hs : script.all (fun x => x.2.solved) = true) :
    ∃ tr x, a.Call L t tr x ∧ p x = true ∧ ∀ y ∈ tr, y.2.ans ≠ .timeout := by
  obtain ⟨tr, x, h1, h2, _, h3, _⟩ := callB_full h
  exact ⟨tr, x, h1, h2, h3 hs⟩

/-- `n` steps of the only worker without an LP -/
def idle (n : Nat) : List (Nat × Cue) := List.replicate n (0, .go false)

/-- arguments from lists -/
def exArgs (A N : Nat) (starts ends : List Nat) (w : List (List ℤ)) (mode : ℤ) : CArgs :=
  { A := A, N := N, starts := some fun i => starts.getD i 0, ends := some fun i => ends.getD i 0,
    weights := some fun i => (w.getD (i / N) []).getD (i % N) 0, mode := mode, threads := 1 }

theorem exArgs_typed {A N : Nat} {starts ends : List Nat} {w : List (List ℤ)} {mode : ℤ} (hA : A < 2 ^ 64) (hN : N < 2 ^ 64)
    (hw : w.all (fun r => r.all fun z => decide (-1 ≤ z) && decide (z < 2 ^ 31)) = true) : (exArgs A N starts ends w mode).Typed := by
  refine ⟨hA, hN, ?_⟩
  intro W hW i
  simp only [exArgs, Option.some.injEq] at hW
  rw [← hW]
  simp only [List.all_eq_true, Bool.and_eq_true, decide_eq_true_eq] at hw
  have key : ∀ r ∈ w, ∀ j, -1 ≤ r.getD j 0 ∧ r.getD j 0 < 2 ^ 31 := by
    intro r hr j
    rw [List.getD_eq_getElem?_getD]
    cases hj : r[j]? with
    | none => simp
    | some z => exact hw r hr z (List.mem_of_getElem? hj)
  dsimp only
  rw [List.getD_eq_getElem?_getD (l := w)]
  cases hj : w[i / N]? with
  | none => simp
  | some r => exact key r (List.mem_of_getElem? hj) _

/-- a return with the given code, bounds and nodes -/
def isRet (code : ℤ) (lo up : ℚ) (nodes : List Nat) (offs : List Nat) : CEnd → Bool
  | .ret c o => decide (c = code) && decide (o.lower = some lo) && decide (o.upper = some up) &&
      (List.range nodes.length).all (fun i => decide (o.paths i = nodes[i]?)) && (List.range offs.length).all (fun i => decide (o.offsets i = offs[i]?))
  | _ => false

def isCode (code : ℤ) : CEnd → Bool
  | .ret c _ => decide (c = code)
  | _ => false

end Mtsp
