import Verif.Model.Locks

/-! The statements of a member function, executed without interruption, are the operation of Model/BranchAndCut.lean. -/

namespace Mtsp

/-- the operation a call stands for in Model/BranchAndCut.lean -/
def Call.atomic (e : BEnv) : (c : Call) → c.obj.St → Ret × c.obj.St
  | .queue op => fun (x : QState) => let r := x.step e.H op; (.q r.1, r.2)
  | .result op => fun (x : ResState) => let r := x.step op; (.b r.2, r.1)
  | .deque op => fun (x : CDeque LinCon) => let r := x.step op; (.d r.1, r.2)
  | .getPaths => fun (x : ResState) => (.paths x.paths, x)

/-- uninterrupted execution of statements; `none`: it would have to wait -/
def Instr.run {σ : Type} : List (Instr σ) → σ → Reg → Option (σ × Reg)
  | [], x, r => some (x, r)
  | .loc g :: l, x, r => if (g r).leave then some (x, g r) else run l x (g r)
  | .lock :: l, x, r => run l x r
  | .wait p :: l, x, r => if p x then none else run l x r
  | .act g :: l, x, r => if (g x r).2.leave then some (g x r) else run l (g x r).1 (g x r).2
  | .unlock :: l, x, r => run l x r

/-- stages of a member function: before the lock, with the lock but before the first access, with the lock, after the lock -/
inductive Stage where
  | before
  | clean
  | dirty

/-- the statements take the mutex once, before the first access, and give it back at the very end -/
def Instr.fits {σ : Type} : Stage → List (Instr σ) → Bool
  | .before, .loc _ :: l => fits .before l
  | .before, .lock :: l => fits .clean l
  | .clean, .wait _ :: l => fits .dirty l
  | .clean, .act _ :: l => fits .dirty l
  | .dirty, .act _ :: l => fits .dirty l
  | .clean, .unlock :: l => l.isEmpty
  | .dirty, .unlock :: l => l.isEmpty
  | _, _ => false

theorem fits_map_append {σ α : Type} (g : α → σ → Reg → σ × Reg) (l : List α) (l' : List (Instr σ)) :
    Instr.fits .dirty (l.map (fun d => .act (g d)) ++ l') = Instr.fits .dirty l' := by
  induction l with
  | nil => rfl
  | cons a l ih => simpa [Instr.fits] using ih

/-- which calls take the mutex -/
def Call.Locks : Call → Prop
  | .getPaths => False
  | _ => True

theorem body_fits (e : BEnv) (c : Call) (h : c.Locks) : Instr.fits .before (c.body e) = true := by
  cases c with
  | queue op =>
    cases op <;> simp [Call.body, queueBody, getLowerBoundBody, popBody, clearAllBody, updateCurrentLowerBoundBody, pushBody,
      notifyDoneBody, calcBody, Instr.fits, branchNodes, Call.obj, Obj.St]
  | result op => cases op <;> rfl
  | deque op => cases op <;> rfl
  | getPaths => exact h.elim

/-- what is known about the shared objects in every state of the search -/
def Obj.Valid (e : BEnv) : (o : Obj) → o.St → Prop
  | .queue, x => (show QState from x).workedOn.length = e.threads
  | _, _ => True

theorem run_go {σ : Type} {g : σ → Reg → σ × Reg} {l : List (Instr σ)} {x y : σ} {r r' : Reg} (h : g x r = (y, r')) (hl : r'.leave = false) :
    Instr.run (.act g :: l) x r = Instr.run l y r' := by
  simp [Instr.run, h, hl]

theorem run_stop {σ : Type} {g : σ → Reg → σ × Reg} {l : List (Instr σ)} {x y : σ} {r r' : Reg} (h : g x r = (y, r')) (hl : r'.leave = true) :
    Instr.run (.act g :: l) x r = some (y, r') := by
  simp [Instr.run, h, hl]

theorem run_loc {σ : Type} {g : Reg → Reg} {l : List (Instr σ)} {x : σ} {r r' : Reg} (h : g r = r') (hl : r'.leave = false) :
    Instr.run (.loc g :: l) x r = Instr.run l x r' := by
  simp [Instr.run, h, hl]

theorem run_lock {σ : Type} {l : List (Instr σ)} {x : σ} {r : Reg} : Instr.run (.lock :: l) x r = Instr.run l x r := rfl

theorem run_wait {σ : Type} {p : σ → Bool} {l : List (Instr σ)} {x : σ} {r : Reg} (h : p x = true) : Instr.run (.wait p :: l) x r = none := by
  simp [Instr.run, h]

theorem run_pass {σ : Type} {p : σ → Bool} {l : List (Instr σ)} {x : σ} {r : Reg} (h : p x = false) :
    Instr.run (.wait p :: l) x r = Instr.run l x r := by
  simp [Instr.run, h]

theorem run_calc (l : List (Instr QState)) (x : QState) (r : Reg) (hr : r.leave = false) :
    (∃ er r', x.calcLB = .error er ∧ r'.out = .q (.error er) ∧ Instr.run (calcBody ++ l) x r = some (x, r')) ∨
    (∃ v b, x.calcLB = .ok v ∧ Instr.run (calcBody ++ l) x r = Instr.run l x { r with num := v, flag := b }) := by
  unfold QState.calcLB
  simp only [calcBody, List.cons_append, List.nil_append]
  by_cases h1 : x.heap = [] ∧ x.count = 0
  · refine .inr ⟨-dblMax, true, by simp [h1], ?_⟩
    refine Eq.trans (run_go (if_pos h1) hr) ?_
    refine Eq.trans (run_go (if_pos rfl) hr) ?_
    exact run_go (if_pos rfl) hr
  · rw [if_neg h1]
    by_cases h2 : x.count = 0
    · rw [if_pos h2]
      refine .inr ⟨_, false, rfl, ?_⟩
      refine Eq.trans (run_go (if_neg h1) hr) ?_
      refine Eq.trans (run_go (if_neg (by simp)) hr) ?_
      exact run_go ((if_neg (by simp)).trans (if_pos h2)) hr
    · rw [if_neg h2]
      cases h3 : minElement x.workedOn with
      | none =>
        refine .inl ⟨_, _, rfl, ?_, Eq.trans (run_go (if_neg h1) hr) (Eq.trans (run_go (if_neg (by simp)) hr)
          (run_stop ((if_neg (by simp)).trans ((if_neg h2).trans (by rw [h3]))) ?_))⟩ <;> rfl
      | some o =>
        cases o with
        | none =>
          refine .inl ⟨_, _, rfl, ?_, Eq.trans (run_go (if_neg h1) hr) (Eq.trans (run_go (if_neg (by simp)) hr)
            (run_stop ((if_neg (by simp)).trans ((if_neg h2).trans (by rw [h3]))) ?_))⟩ <;> rfl
        | some v =>
          refine .inr ⟨_, false, rfl, ?_⟩
          refine Eq.trans (run_go (if_neg h1) hr) ?_
          refine Eq.trans (run_go (if_neg (by simp)) hr) ?_
          exact run_go ((if_neg (by simp)).trans ((if_neg h2).trans (by rw [h3]; rfl))) hr

theorem run_map (H : HeapImpl) (nodes : List SData) (x : QState) (r : Reg) (hr : r.leave = false) :
    Instr.run (nodes.map (fun d => .act fun (s : QState) (r : Reg) => ({ s with heap := H.push (s.heap ++ [d]) }, r)) ++ [.unlock]) x r =
      some ({ x with heap := nodes.foldl (fun h d => H.push (h ++ [d])) x.heap }, r) := by
  induction nodes generalizing x with
  | nil => rfl
  | cons a l ih => 
    simp only [List.map_cons, List.cons_append, Instr.run, hr, List.foldl_cons]
    exact ih _

theorem run_push (H : HeapImpl) (v : ℚ) (nodes : List SData) (x : QState) :
    ∃ r', Instr.run (pushBody H v nodes) x {} = some ((x.pushNodes H v nodes).2, r') ∧ r'.out = .q (x.pushNodes H v nodes).1 := by
  unfold pushBody QState.pushNodes
  simp only [List.cons_append, List.append_assoc, Instr.run]
  by_cases hc : x.cleared = true
  · simp [hc]
  · simp only [Bool.not_eq_true] at hc
    simp only [hc, Bool.false_eq_true, if_false]
    rcases run_calc ([.act fun s r =>
       if v < r.num then (s, { r with leave := true, out := .q (.error (.logic "cannot push smaller lower bound")) })
       else (s, { r with out := .q (.ok .unit) })] ++
      (nodes.map (fun d => .act fun s r => ({ s with heap := H.push (s.heap ++ [d]) }, r)) ++ [.unlock])) x {} rfl with
      ⟨er, r', h1, h2, h3⟩ | ⟨w, b, h1, h2⟩
    · rw [h1]
      exact ⟨r', h3, h2⟩
    · rw [h1]
      simp only [List.cons_append, List.nil_append, Instr.run] at h2 ⊢
      rw [h2]
      by_cases hv : v < w
      · simp [hv]
      · simp only [hv, if_false, Bool.false_eq_true]
        have := run_map H nodes x { out := .q (.ok .unit), flag := b, num := w } rfl
        rw [hc] at this
        exact ⟨_, this, rfl⟩

theorem body_run (e : BEnv) (c : Call) (x : c.obj.St) (hx : Obj.Valid e c.obj x) {x' : c.obj.St} {r' : Reg}
    (h : Instr.run (c.body e) x {} = some (x', r')) : c.atomic e x = (r'.out, x') := by
  cases c with
  | queue op =>
    change QState at x x'
    change x.workedOn.length = e.threads at hx
    change Instr.run (queueBody e.H e.threads op) x {} = _ at h
    show (Ret.q (x.step e.H op).1, (x.step e.H op).2) = _
    have key : ∀ {y : Except Err QOut × QState} (h1 : ∃ r', Instr.run (queueBody e.H e.threads op) x {} = some (y.2, r') ∧ r'.out = .q y.1),
        (Ret.q y.1, y.2) = (r'.out, x') := by
      rintro y ⟨r1, h1, h2⟩
      rw [h] at h1
      obtain ⟨h3, h4⟩ := Prod.mk.inj (Option.some.inj h1)
      rw [h4, h2]
      exact congrArg _ h3.symm
    cases op with
    | getLowerBound =>
      refine key (y := x.step e.H .getLowerBound) ?_
      show ∃ r', Instr.run (calcBody ++ _) x {} = some (x, r') ∧ r'.out = .q (x.calcLB.map .bound)
      rcases run_calc [.act fun s r => (s, { r with out := .q (.ok (.bound r.num)) }), .unlock] x {} rfl with
        ⟨er, r', h1, h2, h3⟩ | ⟨w, b, h1, h2⟩
      · rw [h1]; exact ⟨r', h3, h2⟩
      · rw [h1, h2]; exact ⟨_, rfl, rfl⟩
    | pop t =>
      refine key (y := x.pop e.H t) ?_
      unfold QState.pop
      rw [hx]
      by_cases h1 : t ≥ e.threads
      · simp [queueBody, popBody, Instr.run, h1]
      · rw [if_neg h1]
        cases h2 : !x.cleared && x.heap.isEmpty && decide (x.count > 0) with
        | true =>
          exfalso
          have : Instr.run (queueBody e.H e.threads (.pop t)) x {} = none := Eq.trans (run_loc (if_neg h1) rfl)
            (Eq.trans run_lock (run_wait (p := fun s : QState => !s.cleared && s.heap.isEmpty && decide (s.count > 0)) h2))
          rw [this] at h
          simp at h
        | false =>
          have h3 : Instr.run (queueBody e.H e.threads (.pop t)) x {} = Instr.run ((popBody e.H e.threads t).drop 3) x {} :=
            Eq.trans (run_loc (if_neg h1) rfl) (Eq.trans run_lock
              (run_pass (p := fun s : QState => !s.cleared && s.heap.isEmpty && decide (s.count > 0)) h2))
          rw [h3]
          simp only [popBody, List.drop_succ_cons, List.drop_zero]
          rw [if_neg (by simp)]
          by_cases h4 : (x.cleared || (x.heap.isEmpty && decide (x.count = 0))) = true
          · rw [if_pos h4]
            exact ⟨_, run_stop (if_pos h4) rfl, rfl⟩
          · rw [if_neg h4]
            cases h5 : (e.H.pop x.heap).getLast? with
            | none => exact ⟨_, Eq.trans (run_go (if_neg h4) rfl) (run_stop (by rw [h5]) rfl), rfl⟩
            | some d => exact ⟨_, Eq.trans (run_go (if_neg h4) rfl) (Eq.trans (run_go (by rw [h5]) rfl) rfl), rfl⟩
    | clearAll => exact key (y := x.step e.H .clearAll) ⟨_, rfl, rfl⟩
    | updateCurrentLowerBound t v =>
      refine key (y := x.updateCurrentLowerBound t v) ?_
      unfold QState.updateCurrentLowerBound
      cases h1 : x.workedOn[t]? with
      | none => simp [queueBody, updateCurrentLowerBoundBody, Instr.run, h1]
      | some o =>
        cases o with
        | none => simp [queueBody, updateCurrentLowerBoundBody, Instr.run, h1]
        | some w =>
          by_cases hv : v < w
          · simp [queueBody, updateCurrentLowerBoundBody, Instr.run, h1, hv]
          · simp [queueBody, updateCurrentLowerBoundBody, Instr.run, h1, hv]
    | pushResult v => exact key (run_push e.H v _ x)
    | push v f0 f1 => exact key (run_push e.H v _ x)
    | pushBranch v f0 f1 var rec0 => exact key (run_push e.H v _ x)
    | done t =>
      refine key (y := x.notifyDone t) ?_
      unfold QState.notifyDone
      cases h1 : x.workedOn[t]? with
      | none => simp [queueBody, notifyDoneBody, Instr.run, h1]
      | some o =>
        cases o with
        | none => simp [queueBody, notifyDoneBody, Instr.run, h1]
        | some w => simp [queueBody, notifyDoneBody, Instr.run, h1]
  | result op =>
    change ResState at x x'
    have key : ∀ {y : ResState × Option Bounds} (h1 : ∃ r', Instr.run (resultBody op) x {} = some (y.1, r') ∧ r'.out = .b y.2),
        (Ret.b y.2, y.1) = (r'.out, x') := by
      rintro y ⟨r1, h1, h2⟩
      change Instr.run (resultBody op) x {} = _ at h
      rw [h] at h1
      obtain ⟨h3, h4⟩ := Prod.mk.inj (Option.some.inj h1)
      rw [h4, h2]
      exact congrArg _ h3.symm
    refine key (y := x.step op) ?_
    cases op with
    | getBounds => exact ⟨_, rfl, rfl⟩
    | isTimeoutHit => exact ⟨_, rfl, rfl⟩
    | setTimeoutHit => exact ⟨_, rfl, rfl⟩
    | updUpper v p =>
      by_cases hv : v < x.upper
      · simp [resultBody, Instr.run, ResState.step, ResState.updateUpperBound, hv, ResState.getBounds]
      · simp [resultBody, Instr.run, ResState.step, ResState.updateUpperBound, hv, ResState.getBounds]
    | updLower v =>
      by_cases hv : x.lower ≤ v
      · simp [resultBody, Instr.run, ResState.step, ResState.updateLowerBound, hv, ResState.getBounds]
      · simp [resultBody, Instr.run, ResState.step, ResState.updateLowerBound, hv, ResState.getBounds]
  | deque op =>
    change CDeque LinCon at x x'
    have key : ∀ {y : Except Err (List LinCon) × CDeque LinCon} (h1 : ∃ r', Instr.run (dequeBody op) x {} = some (y.2, r') ∧ r'.out = .d y.1),
        (Ret.d y.1, y.2) = (r'.out, x') := by
      rintro y ⟨r1, h1, h2⟩
      change Instr.run (dequeBody op) x {} = _ at h
      rw [h] at h1
      obtain ⟨h3, h4⟩ := Prod.mk.inj (Option.some.inj h1)
      rw [h4, h2]
      exact congrArg _ h3.symm
    refine key (y := x.step op) ?_
    cases op with
    | push cs => exact ⟨_, rfl, rfl⟩
    | read t =>
      unfold CDeque.step
      cases h1 : x.readPos[t]? with
      | none => simp [dequeBody, Instr.run, h1]
      | some p =>
        by_cases hp : p < 0 ∨ p > x.deque.length
        · simp [dequeBody, Instr.run, h1, if_pos hp]
        · simp [dequeBody, Instr.run, h1, if_neg hp]
    | compact =>
      unfold CDeque.step
      cases h1 : minInt x.readPos with
      | none => simp [dequeBody, Instr.run, h1]
      | some p =>
        by_cases hp : p < 0 ∨ p > x.deque.length
        · simp [dequeBody, Instr.run, h1, if_pos hp]
        · simp [dequeBody, Instr.run, h1, if_neg hp]
  | getPaths =>
    have h1 := Prod.mk.inj (Option.some.inj h)
    exact Prod.ext (by rw [← h1.2]; rfl) h1.1

end Mtsp
