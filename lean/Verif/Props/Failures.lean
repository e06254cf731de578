import Verif.Props.CApiRefuted

/-!
C88: a call of the C function comes back.  False if an LP cannot be solved and there is more than one worker: the exception thrown for
it (MtspModel.cpp:375) leaves the function of a thread, or the threads that have not been joined are destroyed (lines 501-508); both
end the process.
-/

namespace Mtsp

variable {a : CArgs} {L : Lib} {t : Nat} {tr : List (Nat × Inp)} {x : CEnd}

/-- the process is ended only if there are at least two workers and the LP solver has failed -/
theorem C88_terminated_only_if (hT : a.Typed) (hL : L.Correct) (h : a.Call L t tr .terminated) :
    2 ≤ threadCount L.hw a.threads ∧ ∃ y ∈ tr, y.2.ans = .error := by
  rcases accepted_of_call h with hA | ⟨c', h1, _⟩
  · refine ⟨?_, ?_⟩
    · have ht := h.try hA
      generalize hx : CEnd.terminated = x at ht
      cases ht with
      | ctor e he => unfold caught at hx; split at hx <;> simp at hx
      | solved S _ r _ _ =>
        rcases report_codes a r with h1 | ⟨c, o, h1, _⟩ <;> rw [h1] at hx <;> simp at hx
      | thrown S _ e _ _ => unfold caught at hx; split at hx <;> simp at hx
      | terminated S _ hm hs =>
        generalize ho : (Outcome.terminated : Outcome ResState) = o at hs
        cases hs with
        | late => simp at ho
        | refused => simp at ho
        | finished => simp at ho
        | unfinished => simp at ho
        | failed => simp at ho
        | aborted c _ s er u h0 hc hrun h2 hu hpc => exact h2
    · rcases try_cases hT hA hL (h.try hA) with ⟨h1, _⟩ | ⟨_, h1, _⟩ | ⟨_, h1, _⟩ | ⟨_, m', hm', _, ⟨h1, _⟩ | ⟨h1, _⟩ | ⟨_, _, h1⟩ | ⟨h1, h2⟩ |
        ⟨_, o', lo, up, P, h1, _⟩⟩
      · simp at h1
      · simp at h1
      · simp at h1
      · simp at h1
      · simp at h1
      · exact h1
      · simp at h1
      · simp at h1
  · simp at h1

/-- **C88 (partial).** If the deadline does not fall inside the construction heuristic, a call comes back with a return code if there
is one worker only, or if the LP solver does not fail. -/
theorem C88_comes_back_partial (hT : a.Typed) (hL : L.Correct) (ht : ∀ m, WM.make a.N a.N a.weight a.startList a.endList = .ok m → m.n ≤ t)
    (h : a.Call L t tr x) (hf : threadCount L.hw a.threads ≤ 1 ∨ ∀ y ∈ tr, y.2.ans ≠ .error) : ∃ c o, x = .ret c o := by
  cases x with
  | ret c o => exact ⟨c, o, rfl⟩
  | terminated =>
    obtain ⟨h1, y, hy, he⟩ := C88_terminated_only_if hT hL h
    rcases hf with h2 | h2
    · omega
    · exact (h2 y hy he).elim
  | undefined =>
    exfalso
    rcases accepted_of_call h with hA | ⟨c', h1, _⟩
    · rcases try_cases hT hA hL (h.try hA) with ⟨h1, _⟩ | ⟨_, h1, _⟩ | ⟨_, h1, _⟩ | ⟨_, m', hm', _, ⟨h1, _⟩ | ⟨h1, _⟩ | ⟨h1, _⟩ | ⟨h1, h2⟩ |
        ⟨_, o', lo, up, P, h1, _⟩⟩
      · simp at h1
      · simp at h1
      · simp at h1
      · simp at h1
      · simp at h1
      · simp at h1
      · have := ht m' hm'
        omega
      · simp at h1
    · simp at h1

/-- the LP solver reports an error during the search: some worker is about to solve an LP, and the answer is an error -/
def LPFails (e : BEnv) (r : ResState) (tr : List (Nat × Inp)) : Prop :=
  ∃ tr1 u i tr2 s1, tr = tr1 ++ (u, i) :: tr2 ∧ u < e.threads ∧ BRun e r tr1 s1 ∧ (∃ lb, (s1.wk u).pc = .solve lb) ∧ i.ans = .error

theorem run_unique {e : BEnv} {r : ResState} {tr : List (Nat × Inp)} {s s' : BState} (h : BRun e r tr s) (h' : BRun e r tr s') : s = s' := by
  induction h generalizing s' with
  | start s hs =>
    have := h'.start_eq
    rw [hs] at this
    exact Except.ok.inj this
  | step tr s u i _ _ _ ih =>
    generalize hx : tr ++ [(u, i)] = tr' at h'
    cases h' with
    | start => simp at hx
    | step tr2 s2 u2 i2 h2 =>
      obtain ⟨rfl, h3⟩ := List.append_inj' hx rfl
      simp only [List.cons.injEq, Prod.mk.injEq, and_true] at h3
      obtain ⟨rfl, rfl⟩ := h3
      rw [ih h2]

/-- a worker that has thrown an exception does nothing more -/
theorem crash_stays {e : BEnv} {r : ResState} {tr : List (Nat × Inp)} {s : BState} (h : BRun e r tr s) {tr1 tr2 : List (Nat × Inp)} (ht : tr = tr1 ++ tr2)
    {u : Nat} {er : Err} {s1 : BState} (h1 : BRun e r tr1 s1) (hc : (s1.wk u).pc = .crashed er) : (s.wk u).pc = .crashed er := by
  induction tr2 using List.reverseRecOn generalizing tr s with
  | nil =>
    rw [List.append_nil] at ht
    subst ht
    rw [run_unique h h1]
    exact hc
  | append_singleton l x ih =>
    rw [← List.append_assoc] at ht
    cases h with
    | start => simp at ht
    | step tr0 s0 v i h0 hv _ =>
      obtain ⟨rfl, _⟩ := List.append_inj' ht rfl
      have := ih h0 rfl
      by_cases huv : u = v
      · subst huv
        unfold BState.step
        rw [this]
        exact this
      · rw [step_other s0 _ huv]
        exact this

theorem LPFails.crashed {e : BEnv} {r : ResState} {tr : List (Nat × Inp)} (h : LPFails e r tr) {s : BState} (hr : BRun e r tr s) :
    ∃ u < e.threads, (s.wk u).pc = .crashed (.logic "Unexpected error happened while solving LP") := by
  obtain ⟨tr1, u, i, tr2, s1, rfl, hu, h1, ⟨lb, hp⟩, hi⟩ := h
  have hok : i.Ok e s1 u := by
    unfold Inp.Ok
    rw [hp]
    simp [hi, LPAnswer.Correct]
  refine ⟨u, hu, crash_stays hr (tr1 := tr1 ++ [(u, i)]) (tr2 := tr2) (by simp) (h1.step _ _ _ _ hu hok) ?_⟩
  unfold BState.step
  rw [hp]
  simp [hi, BState.goto, BState.setWk]

/-- **C88** (what becomes of a failure of the LP solver): with one worker the caller gets the code for an internal error, with more
workers the process is terminated. -/
theorem C88_lp_failure (h : a.Call L t tr x)
    (hf : ∃ (S : Solver) (c : LPModel), Solver.make a.N a.N a.weight a.startList a.endList a.opt t = .ok S ∧ S.cols = some c ∧
      LPFails (S.env L a.threads c) S.res tr) :
    (threadCount L.hw a.threads = 1 ∧ x = .ret (-2147483648) .untouched) ∨ (2 ≤ threadCount L.hw a.threads ∧ x = .terminated) := by
  obtain ⟨S, c, hm, hc, hf⟩ := hf
  have htr : tr ≠ [] := by
    obtain ⟨tr1, u, i, tr2, s1, rfl, _⟩ := hf
    simp
  have hleft : ∀ {c' : LPModel} {s : BState}, S.cols = some c' → BRun (S.env L a.threads c') S.res tr s →
      (∀ u < threadCount L.hw a.threads, (s.wk u).pc = .left) → False := by
    intro c' s hc' hrun hl
    rw [hc] at hc'
    obtain rfl := Option.some.inj hc'
    obtain ⟨u, hu, hpc⟩ := hf.crashed hrun
    rw [hl u hu] at hpc
    simp at hpc
  cases h with
  | size => simp at htr
  | pointer => simp at htr
  | mode => simp at htr
  | run _ _ _ _ _ ht =>
    cases ht with
    | ctor => simp at htr
    | solved S' _ r hm' hs =>
      rw [hm] at hm'
      obtain rfl := Except.ok.inj hm'
      generalize ho : (Outcome.ok r) = o at hs
      cases hs with
      | late => simp at htr
      | refused => simp at htr
      | finished c' _ s late r' h0 hc' hrun hl => exact (hleft hc' hrun hl).elim
      | unfinished => simp at ho
      | failed => simp at ho
      | aborted => simp at ho
    | thrown S' _ er hm' hs =>
      rw [hm] at hm'
      obtain rfl := Except.ok.inj hm'
      generalize ho : (Outcome.exc er : Outcome ResState) = o at hs
      cases hs with
      | late => simp at htr
      | refused => simp at htr
      | finished c' _ s late r' h0 hc' hrun hl => exact (hleft hc' hrun hl).elim
      | unfinished c' _ s late r' h0 hc' hrun hl => exact (hleft hc' hrun hl).elim
      | aborted => simp at ho
      | failed c' _ s er' h0 hc' hrun h1 hpc =>
        simp only [Outcome.exc.injEq] at ho
        subst ho
        rw [hc] at hc'
        obtain rfl := Option.some.inj hc'
        obtain ⟨u, hu, hpc'⟩ := hf.crashed hrun
        obtain rfl : u = 0 := by
          have : u < 1 := h1 ▸ hu
          omega
        rw [hpc] at hpc'
        simp only [Pc.crashed.injEq] at hpc'
        subst hpc'
        exact .inl ⟨h1, rfl⟩
    | terminated S' _ hm' hs =>
      generalize ho : (Outcome.terminated : Outcome ResState) = o at hs
      cases hs with
      | late => simp at htr
      | refused => simp at htr
      | finished => simp at ho
      | unfinished => simp at ho
      | failed => simp at ho
      | aborted c' _ s er u h0 hc' hrun h2 => exact .inr ⟨h2, rfl⟩

/-- four nodes, one agent from 0 to 3, `k` workers -/
def c88Args (k : Nat) : CArgs := { exArgs 1 4 [0] [3] [[0, 1, 1, 1], [1, 0, 1, 1], [1, 1, 0, 1], [1, 1, 1, 0]] 0 with threads := k }

theorem c88_typed (k : Nat) : (c88Args k).Typed := by
  have := exArgs_typed (A := 1) (N := 4) (starts := [0]) (ends := [3]) (w := [[0, 1, 1, 1], [1, 0, 1, 1], [1, 1, 0, 1], [1, 1, 1, 0]]) (mode := 0)
    (by decide) (by decide) (by decide)
  exact ⟨this.1, this.2, this.3⟩

/-- worker 0 is about to solve the LP of the root -/
def c88Test (k : Nat) : Bool :=
  !(c88Args k).badSize && !(c88Args k).badPointer && !(c88Args k).badMode &&
  match Solver.make (c88Args k).N (c88Args k).N (c88Args k).weight (c88Args k).startList (c88Args k).endList (c88Args k).opt 100 with
  | .error _ => false
  | .ok S =>
    match S.cols with
    | none => false
    | some c =>
      match BState.start (S.env exLib k c) S.res with
      | .error _ => false
      | .ok s0 => decide (0 < S.ticks) && decide (0 < k) && playB (S.env exLib k c) s0 (idle 5) &&
          ((play (S.env exLib k c) s0 (idle 5)).wk 0).pc.isSolve

theorem c88_test (k : Nat) (h : c88Test k = true) : ∃ S c tr s, (c88Args k).badSize = false ∧ (c88Args k).badPointer = false ∧ (c88Args k).badMode = false ∧
    Solver.make (c88Args k).N (c88Args k).N (c88Args k).weight (c88Args k).startList (c88Args k).endList (c88Args k).opt 100 = .ok S ∧
    0 < S.ticks ∧ S.cols = some c ∧ BRun (S.env exLib k c) S.res tr s ∧
    (s.wk 0).pc = .crashed (.logic "Unexpected error happened while solving LP") ∧ LPFails (S.env exLib k c) S.res tr := by
  unfold c88Test at h
  simp only [Bool.and_eq_true, Bool.not_eq_true'] at h
  obtain ⟨⟨⟨h1, h2⟩, h3⟩, h⟩ := h
  split at h
  · simp at h
  · rename_i S hS
    split at h
    · simp at h
    · rename_i c hc
      split at h
      · simp at h
      · rename_i s0 hs0
        simp only [Bool.and_eq_true, decide_eq_true_eq] at h
        obtain ⟨⟨⟨h4, h5⟩, h6⟩, h7⟩ := h
        have hr := (BRun.start s0 hs0).play _ h6
        have hk : 0 < (S.env exLib k c).threads := by
          show 0 < threadCount exLib.hw k
          unfold threadCount
          rw [if_pos h5]
          exact h5
        have hok : (⟨false, .error, 0⟩ : Inp).Ok (S.env exLib k c) (play (S.env exLib k c) s0 (idle 5)) 0 := by
          unfold Inp.Ok
          split <;> trivial
        have hr2 := hr.step _ _ 0 ⟨false, .error, 0⟩ hk hok
        refine ⟨S, c, _, _, h1, h2, h3, hS, h4, hc, hr2, ?_, _, 0, _, [], _, rfl, hk, hr, ?_, rfl⟩
        · unfold BState.step
          unfold Pc.isSolve at h7
          split at h7
          · rename_i hp
            rw [hp]
            simp [BState.goto, BState.setWk]
          · simp at h7
        · unfold Pc.isSolve at h7
          split at h7
          · rename_i hp
            exact ⟨_, hp⟩
          · simp at h7

theorem c88_test2 : c88Test 2 = true := by decide +kernel

theorem c88_test1 : c88Test 1 = true := by decide +kernel

/-- **C88 is false** for several workers: if the LP solver fails, the process is terminated. -/
theorem C88_refuted : ∃ (a : CArgs) (L : Lib) (t : Nat) (tr : List (Nat × Inp)), a.Typed ∧ a.Accepted ∧ a.InRange ∧ L.Correct ∧
    (∀ m, WM.make a.N a.N a.weight a.startList a.endList = .ok m → m.n ≤ t) ∧ a.Call L t tr .terminated := by
  obtain ⟨S, c, tr, s, h1, h2, h3, h4, h5, h6, h7, h8, _⟩ := c88_test 2 c88_test2
  refine ⟨c88Args 2, exLib, 100, tr, c88_typed 2, (c88Args 2).accepted_iff.2 ⟨h1, h2, h3⟩, ⟨by decide +kernel, by decide +kernel⟩, exLib_correct, ?_,
    .run _ _ h1 h2 h3 (.terminated S _ h4 (.aborted c tr s _ 0 h5 h6 h7 (by decide) (by decide) h8))⟩
  intro m hm
  have : testOk (WM.make (c88Args 2).N (c88Args 2).N (c88Args 2).weight (c88Args 2).startList (c88Args 2).endList) (fun m => decide (m.n ≤ 100)) = true := by
    decide +kernel
  obtain ⟨m', h9, h10⟩ := testOk_iff this
  rw [hm] at h9
  simp only [Except.ok.injEq] at h9
  subst h9
  simpa using h10

/-- Non-vacuity of `C88_comes_back_partial`: one worker, whose LP solver fails; the caller is told. -/
example : ∃ tr, (c88Args 1).Call exLib 100 tr (.ret (-2147483648) .untouched) ∧ threadCount exLib.hw (c88Args 1).threads ≤ 1 ∧
    ∃ (S : Solver) (c : LPModel), Solver.make (c88Args 1).N (c88Args 1).N (c88Args 1).weight (c88Args 1).startList (c88Args 1).endList (c88Args 1).opt 100 = .ok S ∧
      S.cols = some c ∧ LPFails (S.env exLib 1 c) S.res tr := by
  obtain ⟨S, c, tr, s, h1, h2, h3, h4, h5, h6, h7, h8, h9⟩ := c88_test 1 c88_test1
  exact ⟨tr, .run _ _ h1 h2 h3 (.thrown S _ _ h4 (.failed c tr s _ h5 h6 h7 (by decide) h8)), by decide, S, c, h4, h6, h9⟩

end Mtsp
