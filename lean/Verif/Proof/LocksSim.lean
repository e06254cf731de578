import Verif.Proof.Locks
import Verif.Spec.Locks

/-! Every execution at the granularity of statements is one of Model/BranchAndCut.lean. -/

namespace Mtsp

/-! ### A step of Model/BranchAndCut.lean is a call and the computation after it -/

/-- the state with these shared objects and workers -/
def BState.put (sh : (o : Obj) → o.St) (wk : Nat → Worker) : BState := ⟨sh .queue, sh .result, sh .deque, wk⟩

theorem BState.put_sh (s : BState) : BState.put s.sh s.wk = s := rfl

theorem BState.sh_put (sh : (o : Obj) → o.St) (wk : Nat → Worker) : (BState.put sh wk).sh = sh := by
  funext o; cases o <;> rfl

theorem BState.ext' {s s' : BState} (h1 : s.sh = s'.sh) (h2 : s.wk = s'.wk) : s = s' := by
  rw [← s.put_sh, ← s'.put_sh, h1, h2]

theorem setWk_eq (s : BState) (t : Nat) (w : Worker) : s.setWk t w = BState.put s.sh (Function.update s.wk t w) := by
  unfold BState.setWk BState.put
  congr 1
  funext u
  by_cases h : u = t
  · subst h; simp
  · simp [h]

theorem step_alone {e : BEnv} {s : BState} {t : Nat} {i : Inp} (h : (s.wk t).call e t i = none) :
    s.step e t i = BState.put s.sh (Function.update s.wk t ((s.wk t).alone e i)) := by
  rw [← setWk_eq]
  have hid : s.setWk t (s.wk t) = s := by
    rw [setWk_eq, Function.update_eq_self]; exact s.put_sh
  unfold BState.step Worker.alone
  unfold Worker.call at h
  cases hp : (s.wk t).pc <;> rw [hp] at h <;> dsimp only at h ⊢ <;> try (simp at h; done)
  · cases i.ans <;> rfl
  · split at h
    · rename_i er h1; rw [h1]; rfl
    · simp at h
    · simp at h
  · split at h
    · rename_i er h1; rw [h1]; rfl
    · simp at h
  · exact hid.symm
  · exact hid.symm

theorem update_queue (s : BState) (q : QState) (wk : Nat → Worker) : BState.put (Function.update s.sh .queue q) wk = ⟨q, s.res, s.deque, wk⟩ := rfl

theorem update_result (s : BState) (r : ResState) (wk : Nat → Worker) : BState.put (Function.update s.sh .result r) wk = ⟨s.q, r, s.deque, wk⟩ := rfl

theorem update_deque (s : BState) (d : CDeque LinCon) (wk : Nat → Worker) : BState.put (Function.update s.sh .deque d) wk = ⟨s.q, s.res, d, wk⟩ := rfl

/-- what `Pop` can return; when it would have to wait it changes nothing -/
theorem pop_out (H : HeapImpl) (x : QState) (t : Nat) {o : QOut} {q : QState} (h : x.pop H t = (.ok o, q)) :
    o = .nothing ∨ (∃ d, o = .node d) ∨ o = .blocked ∧ q = x := by
  unfold QState.pop at h
  split at h
  · simp at h
  · split at h
    · simp only [Prod.mk.injEq, Except.ok.injEq] at h
      exact .inr (.inr ⟨h.1.symm, h.2.symm⟩)
    · split at h
      · simp only [Prod.mk.injEq, Except.ok.injEq] at h
        exact .inl h.1.symm
      · dsimp only at h
        split at h
        · simp at h
        · simp only [Prod.mk.injEq, Except.ok.injEq] at h
          exact .inr (.inl ⟨_, h.1.symm⟩)

theorem step_queue_call {e : BEnv} {s : BState} {t : Nat} {i : Inp} {op : QOp} (h : (s.wk t).call e t i = some (.queue op)) :
    s.step e t i = BState.put (Function.update s.sh .queue (s.q.step e.H op).2)
      (Function.update s.wk t ((s.wk t).resume e t i (.q (s.q.step e.H op).1))) := by
  rw [update_queue]
  have hs : ∀ w, Function.update s.wk t w = fun u => if u = t then w else s.wk u := by
    intro w; funext u; by_cases hu : u = t
    · subst hu; simp
    · simp [hu]
  rw [hs]
  unfold Worker.call at h
  unfold BState.step Worker.resume
  cases hp : (s.wk t).pc <;> rw [hp] at h <;> dsimp only at h ⊢ <;> try (simp at h; done)
  · obtain rfl := by simpa using h
    show _ = (⟨s.q, s.res, s.deque, _⟩ : BState)
    simp only [QState.step]
    cases s.q.calcLB <;> rfl
  · obtain rfl := by simpa using h
    rfl
  · obtain rfl := by simpa using h
    simp only [QState.step]
    rcases hq : s.q.pop e.H t with ⟨o, q⟩
    cases o with
    | error er => rfl
    | ok o =>
      cases o with
      | nothing => rfl
      | node d =>
        dsimp only
        by_cases hd : d.isResult = true
        · rw [if_pos hd, if_pos hd]
          cases (s.wk t).fix.skip <;> rfl
        · rw [if_neg hd, if_neg hd]
          cases (s.wk t).fix.load d.fixed0 d.fixed1 <;> rfl
      | unit => rcases pop_out _ _ _ hq with h1 | ⟨_, h1⟩ | ⟨h1, _⟩ <;> simp at h1
      | bound v => rcases pop_out _ _ _ hq with h1 | ⟨_, h1⟩ | ⟨h1, _⟩ <;> simp at h1
      | blocked =>
        rcases pop_out _ _ _ hq with h1 | ⟨_, h1⟩ | ⟨_, rfl⟩
        · simp at h1
        · simp at h1
        · rw [← hs]
          show s = ⟨s.q, s.res, s.deque, Function.update s.wk t (s.wk t)⟩
          rw [Function.update_eq_self]
  · obtain rfl := by simpa using h
    simp only [QState.step]
    cases s.q.calcLB <;> rfl
  · obtain rfl := by simpa using h
    simp only [QState.step]
    rcases hq : s.q.updateCurrentLowerBound t _ with ⟨o, q⟩
    cases o <;> rfl
  · obtain rfl := by simpa using h
    simp only [QState.step]
    cases s.q.calcLB <;> rfl
  · split at h <;> simp at h
  · obtain rfl := by simpa using h
    rcases hq : s.q.step e.H _ with ⟨o, q⟩
    cases o <;> rfl
  · split at h <;> simp at h
  · obtain rfl := by simpa using h
    simp only [QState.step]
    rcases hq : s.q.notifyDone t with ⟨o, q⟩
    cases o <;> rfl

theorem step_result_call {e : BEnv} {s : BState} {t : Nat} {i : Inp} {op : ResOp} (h : (s.wk t).call e t i = some (.result op)) :
    s.step e t i = BState.put (Function.update s.sh .result (s.res.step op).1)
      (Function.update s.wk t ((s.wk t).resume e t i (.b (s.res.step op).2))) := by
  rw [update_result]
  have hs : ∀ w, Function.update s.wk t w = fun u => if u = t then w else s.wk u := by
    intro w; funext u; by_cases hu : u = t
    · subst hu; simp
    · simp [hu]
  rw [hs]
  unfold Worker.call at h
  unfold BState.step Worker.resume
  cases hp : (s.wk t).pc <;> rw [hp] at h <;> dsimp only at h ⊢ <;> try (simp at h; done)
  · obtain rfl := by simpa using h
    dsimp only [ResState.step]
    split_ifs <;> rfl
  · obtain rfl := by simpa using h
    dsimp only [ResState.step]
    split_ifs <;> rfl
  · obtain rfl := by simpa using h
    dsimp only [ResState.step]
    split_ifs <;> rfl
  · split at h
    · simp at h
    · rename_i h1
      obtain rfl := by simpa using h
      rw [h1]
      rfl
    · rename_i h1
      obtain rfl := by simpa using h
      rw [h1]
      rfl
  · obtain rfl := by simpa using h
    dsimp only [ResState.step]
    split_ifs <;> rfl
  · split at h
    · simp at h
    · rename_i h1
      obtain rfl := by simpa using h
      rw [h1]
      rfl

theorem step_deque_call {e : BEnv} {s : BState} {t : Nat} {i : Inp} {op : CDOp LinCon} (h : (s.wk t).call e t i = some (.deque op)) :
    s.step e t i = BState.put (Function.update s.sh .deque (s.deque.step op).2)
      (Function.update s.wk t ((s.wk t).resume e t i (.d (s.deque.step op).1))) := by
  rw [update_deque]
  have hs : ∀ w, Function.update s.wk t w = fun u => if u = t then w else s.wk u := by
    intro w; funext u; by_cases hu : u = t
    · subst hu; simp
    · simp [hu]
  rw [hs]
  unfold Worker.call at h
  unfold BState.step Worker.resume
  cases hp : (s.wk t).pc <;> rw [hp] at h <;> dsimp only at h ⊢ <;> try (simp at h; done)
  · obtain rfl := by simpa using h
    rcases hq : s.deque.step (.read t) with ⟨o, q⟩
    cases o <;> rfl
  · obtain rfl := by simpa using h
    rcases hq : s.deque.step .compact with ⟨o, q⟩
    cases o <;> rfl
  · split at h <;> simp at h
  · obtain rfl := by simpa using h
    rcases hq : s.deque.step (.push _) with ⟨o, q⟩
    cases o <;> rfl
  · split at h <;> simp at h

theorem call_ne_getPaths {e : BEnv} {t : Nat} {i : Inp} {w : Worker} : w.call e t i ≠ some .getPaths := by
  intro h
  unfold Worker.call at h
  split at h <;> try (simp at h; done)
  · split at h <;> simp at h
  · split at h <;> simp at h

/-- a step of Model/BranchAndCut.lean with a call -/
theorem step_call {e : BEnv} {s : BState} {t : Nat} {i : Inp} {c : Call} (h : (s.wk t).call e t i = some c) :
    s.step e t i = BState.put (Function.update s.sh c.obj (c.atomic e (s.sh c.obj)).2)
      (Function.update s.wk t ((s.wk t).resume e t i (c.atomic e (s.sh c.obj)).1)) := by
  cases c with
  | queue op => exact step_queue_call h
  | result op => exact step_result_call h
  | deque op => exact step_deque_call h
  | getPaths => exact (call_ne_getPaths h).elim

/-! ### The simulation -/

/-- the number of threads the queue knows about never changes -/
theorem step_qlen (H : HeapImpl) (x : QState) (op : QOp) : (x.step H op).2.workedOn.length = x.workedOn.length := by
  have hp : ∀ v nodes, (x.pushNodes H v nodes).2.workedOn.length = x.workedOn.length := by
    intro v nodes
    unfold QState.pushNodes
    split
    · rfl
    · split
      · rfl
      · split <;> rfl
  cases op with
  | getLowerBound => rfl
  | pop t =>
    simp only [QState.step, QState.pop]
    split
    · rfl
    · split
      · rfl
      · split
        · rfl
        · split
          · rfl
          · simp
  | clearAll => rfl
  | updateCurrentLowerBound t v =>
    simp only [QState.step, QState.updateCurrentLowerBound]
    split
    · rfl
    · rfl
    · split
      · rfl
      · simp
  | pushResult v => exact hp _ _
  | push v f0 f1 => exact hp _ _
  | pushBranch v f0 f1 var rec0 => exact hp _ _
  | done t =>
    simp only [QState.step, QState.notifyDone]
    split
    · rfl
    · rfl
    · simp

theorem run_valid {e : BEnv} {r : ResState} {tr : List (Nat × Inp)} {s : BState} (h : BRun e r tr s) (o : Obj) : Obj.Valid e o (s.sh o) := by
  cases o with
  | result => trivial
  | deque => trivial
  | queue =>
    show s.q.workedOn.length = e.threads
    induction h with
    | start s hs =>
      unfold BState.start QState.new at hs
      split at hs
      · simp at hs
      · rename_i q hq
        have hq' : q.workedOn.length = e.threads := by
          split at hq
          · simp at hq
          · simp only [Except.ok.injEq] at hq
            rw [← hq]; simp
        split at hs
        · simp at hs
        · rename_i q' h1
          simp only [Except.ok.injEq] at hs
          rw [← hs]
          show q'.workedOn.length = _
          have := step_qlen e.H q (.push 0 [] [])
          rw [h1] at this
          exact this.trans hq'
    | step tr s t i _ _ _ ih =>
      cases hc : (s.wk t).call e t i with
      | none => rw [step_alone hc]; exact ih
      | some c =>
        rw [step_call hc]
        cases c with
        | queue op => exact (step_qlen e.H s.q op).trans ih
        | result op => exact ih
        | deque op => exact ih
        | getPaths => exact (call_ne_getPaths hc).elim

/-- the bounds of some state of the search -/
def Told (e : BEnv) (r : ResState) (x : Ret) : Prop := ∃ tr s, BRun e r tr s ∧ x = .b (some s.res.getBounds)

/-- who called the function -/
def Called (e : BEnv) (f : FState) (t : Nat) (c : Call) (i : Inp) : Prop :=
  c.Locks ∧ if t < e.threads then (f.wk t).call e t i = some c ∧ i.Ok e f.core t else c = .result .getBounds

/-- the remaining statements do what the operation does -/
def Rest (e : BEnv) (c : Call) (l : List (Instr c.obj.St)) (r : Reg) : Prop :=
  ∀ x, Obj.Valid e c.obj x → ∀ x' r', Instr.run l x r = some (x', r') → c.atomic e x = (r'.out, x')

/-- thread `t` is between two function calls, or in one of the stages of a function call -/
inductive Thr (e : BEnv) (r0 : ResState) (f : FState) (s : BState) (t : Nat) : Prop
  | idle : f.fr t = none → (∀ o, f.own o ≠ some t) → f.wk t = s.wk t → Thr e r0 f s t
  | before (c : Call) (l : List (Instr c.obj.St)) (r : Reg) (i : Inp) : f.fr t = some ⟨c, l, r, i⟩ → Called e f t c i →
      (∀ o, f.own o ≠ some t) → f.wk t = s.wk t → Instr.fits .before l = true → Rest e c l r → Thr e r0 f s t
  | clean (c : Call) (l : List (Instr c.obj.St)) (r : Reg) (i : Inp) : f.fr t = some ⟨c, l, r, i⟩ → Called e f t c i →
      (∀ o, f.own o = some t ↔ o = c.obj) → f.wk t = s.wk t → Instr.fits .clean l = true → Rest e c l r →
      f.sh c.obj = s.sh c.obj → Thr e r0 f s t
  | dirty (c : Call) (l : List (Instr c.obj.St)) (r : Reg) (i : Inp) : f.fr t = some ⟨c, l, r, i⟩ → Called e f t c i →
      (∀ o, f.own o = some t ↔ o = c.obj) → f.wk t = s.wk t → Instr.fits .dirty l = true →
      (∀ x' r', Instr.run l (f.sh c.obj) r = some (x', r') → c.atomic e (s.sh c.obj) = (r'.out, x')) → Thr e r0 f s t
  | after (c : Call) (r : Reg) (i : Inp) : f.fr t = some ⟨c, [], r, i⟩ → (∀ o, f.own o ≠ some t) →
      (if t < e.threads then s.wk t = (f.wk t).resume e t i r.out else s.wk t = f.wk t ∧ Told e r0 r.out) → Thr e r0 f s t

/-- the state `f` of the search, statement by statement, belongs to the state `s` of Model/BranchAndCut.lean -/
structure FSim (e : BEnv) (r0 : ResState) (f : FState) (s : BState) : Prop where
  free : ∀ o, f.own o = none → f.sh o = s.sh o
  thr : ∀ t, Thr e r0 f s t
  told : ∀ x ∈ f.seen, Told e r0 x

/-- the stage of a thread does not depend on other threads -/
theorem Thr.other {e : BEnv} {r0 : ResState} {f f' : FState} {s s' : BState} {t : Nat} (h : Thr e r0 f s t) (h1 : f'.fr t = f.fr t)
    (h2 : f'.wk t = f.wk t) (h3 : s'.wk t = s.wk t) (h4 : ∀ o, f'.own o = some t ↔ f.own o = some t)
    (h5 : ∀ o, f.own o = some t → f'.sh o = f.sh o ∧ s'.sh o = s.sh o) : Thr e r0 f' s' t := by
  have hc : ∀ c i, Called e f t c i → Called e f' t c i := by
    intro c i ⟨hl, hc⟩
    refine ⟨hl, ?_⟩
    split_ifs at hc ⊢
    · rw [h2]
      refine ⟨hc.1, ?_⟩
      have := hc.2
      unfold Inp.Ok at this ⊢
      show match (f'.wk t).pc with | .solve _ => i.ans.Correct (e.prob (f'.wk t)) | _ => True
      rw [h2]
      exact this
    · exact hc
  cases h with
  | idle a b c => exact .idle (h1.trans a) (fun o ho => b o ((h4 o).1 ho)) (by rw [h2, h3, c])
  | before c l r i a1 a2 a3 a4 a5 a6 => exact .before c l r i (h1.trans a1) (hc _ _ a2) (fun o ho => a3 o ((h4 o).1 ho)) (by rw [h2, h3, a4]) a5 a6
  | clean c l r i a1 a2 a3 a4 a5 a6 a7 =>
    refine .clean c l r i (h1.trans a1) (hc _ _ a2) (fun o => (h4 o).trans (a3 o)) (by rw [h2, h3, a4]) a5 a6 ?_
    obtain ⟨b1, b2⟩ := h5 c.obj ((a3 _).2 rfl)
    rw [b1, b2, a7]
  | dirty c l r i a1 a2 a3 a4 a5 a6 =>
    refine .dirty c l r i (h1.trans a1) (hc _ _ a2) (fun o => (h4 o).trans (a3 o)) (by rw [h2, h3, a4]) a5 ?_
    obtain ⟨b1, b2⟩ := h5 c.obj ((a3 _).2 rfl)
    rw [b1, b2]
    exact a6
  | after c r i a1 a2 a3 =>
    refine .after c r i (h1.trans a1) (fun o ho => a2 o ((h4 o).1 ho)) ?_
    rw [h2, h3]
    exact a3

/-- the operation takes effect -/
theorem take_effect {e : BEnv} {r0 : ResState} {tr : List (Nat × Inp)} {f : FState} {s : BState} {t : Nat} {c : Call} {i : Inp}
    (h : BRun e r0 tr s) (hc : Called e f t c i) (hw : f.wk t = s.wk t) {out : Ret} {x' : c.obj.St}
    (ha : c.atomic e (s.sh c.obj) = (out, x')) :
    ∃ tr' s', BRun e r0 tr' s' ∧ s'.sh = Function.update s.sh c.obj x' ∧ (∀ u, u ≠ t → s'.wk u = s.wk u) ∧
      (if t < e.threads then s'.wk t = (f.wk t).resume e t i out else s'.wk t = f.wk t ∧ Told e r0 out) := by
  obtain ⟨_, hc⟩ := hc
  split_ifs at hc with ht
  · obtain ⟨h1, h2⟩ := hc
    rw [hw] at h1
    have h3 : i.Ok e s t := by
      unfold Inp.Ok at h2 ⊢
      rw [show f.core.wk t = s.wk t from hw] at h2
      exact h2
    refine ⟨_, _, .step tr s t i h ht h3, ?_, ?_, ?_⟩
    · rw [step_call h1, BState.sh_put, ha]
    · intro u hu
      rw [step_call h1]
      exact Function.update_of_ne hu _ _
    · rw [if_pos ht, step_call h1, ha, hw]
      exact Function.update_self ..
  · subst hc
    have h1 := Prod.mk.inj ha
    refine ⟨tr, s, h, ?_, fun _ _ => rfl, ?_⟩
    · rw [← h1.2]
      exact (Function.update_eq_self _ _).symm
    · rw [if_neg ht]
      exact ⟨hw.symm, tr, s, h, h1.1.symm⟩

theorem FSim.micro {e : BEnv} {r0 : ResState} {tr : List (Nat × Inp)} {f f' : FState} {s : BState} {t : Nat}
    (h : BRun e r0 tr s) (hs : FSim e r0 f s) (st : FMicro t f f') : ∃ tr' s', BRun e r0 tr' s' ∧ FSim e r0 f' s' := by
  have hv := run_valid h
  cases st with
  | loc c g l r i hf =>
    cases hs.thr t with
    | idle a => rw [hf] at a; simp at a
    | clean c' l' r' i' a1 a2 a3 a4 a5 => rw [hf] at a1; cases a1; simp [Instr.fits] at a5
    | dirty c' l' r' i' a1 a2 a3 a4 a5 => rw [hf] at a1; cases a1; simp [Instr.fits] at a5
    | after c' r' i' a1 => rw [hf] at a1; cases a1
    | before c' l' r' i' a1 a2 a3 a4 a5 a6 =>
      rw [hf] at a1; cases a1
      by_cases hl : (g r).leave = true
      · have ha := a6 _ (hv c.obj) (s.sh c.obj) (g r) (by simp [Instr.run, hl])
        obtain ⟨tr', s', b1, b2, b3, b4⟩ := take_effect h a2 a4 ha
        rw [Function.update_eq_self] at b2
        refine ⟨tr', s', b1, ⟨?_, ?_, hs.told⟩⟩
        · intro o ho; rw [b2]; exact hs.free o ho
        · intro u
          by_cases hu : u = t
          · subst hu
            refine .after c (g r) i ?_ a3 b4
            simp [Instr.next, hl, a3]
          · refine (hs.thr u).other ?_ rfl (b3 u hu) (fun _ => Iff.rfl) (fun o _ => ⟨rfl, by rw [b2]⟩)
            exact Function.update_of_ne hu _ _
      · simp only [Bool.not_eq_true] at hl
        refine ⟨tr, s, h, ⟨hs.free, ?_, hs.told⟩⟩
        intro u
        by_cases hu : u = t
        · subst hu
          refine .before c l (g r) i ?_ a2 a3 a4 a5 ?_
          · simp [Instr.next, hl]
          · intro x hx x' r' hr
            exact a6 x hx x' r' (by simp [Instr.run, hl, hr])
        · exact (hs.thr u).other (Function.update_of_ne hu _ _) rfl rfl (fun _ => Iff.rfl) (fun o _ => ⟨rfl, rfl⟩)
  | lock c l r i hf hfree =>
    cases hs.thr t with
    | idle a => rw [hf] at a; simp at a
    | clean c' l' r' i' a1 a2 a3 a4 a5 => rw [hf] at a1; cases a1; simp [Instr.fits] at a5
    | dirty c' l' r' i' a1 a2 a3 a4 a5 => rw [hf] at a1; cases a1; simp [Instr.fits] at a5
    | after c' r' i' a1 => rw [hf] at a1; cases a1
    | before c' l' r' i' a1 a2 a3 a4 a5 a6 =>
      rw [hf] at a1; cases a1
      refine ⟨tr, s, h, ⟨?_, ?_, hs.told⟩⟩
      · intro o ho
        by_cases hoc : o = c.obj
        · subst hoc; simp at ho
        · exact hs.free o (by simpa [hoc] using ho)
      · intro u
        by_cases hu : u = t
        · subst hu
          refine .clean c l r i ?_ a2 ?_ a4 a5 a6 (hs.free _ hfree)
          · simp
          · intro o
            by_cases hoc : o = c.obj
            · subst hoc; simp
            · simp [hoc, a3]
        · refine (hs.thr u).other (Function.update_of_ne hu _ _) rfl rfl ?_ (fun o _ => ⟨rfl, rfl⟩)
          intro o
          by_cases hoc : o = c.obj
          · subst hoc; simp [hfree, Ne.symm hu]
          · simp [hoc]
  | pass c p l r i hf hp =>
    cases hs.thr t with
    | idle a => rw [hf] at a; simp at a
    | before c' l' r' i' a1 a2 a3 a4 a5 => rw [hf] at a1; cases a1; simp [Instr.fits] at a5
    | dirty c' l' r' i' a1 a2 a3 a4 a5 => rw [hf] at a1; cases a1; simp [Instr.fits] at a5
    | after c' r' i' a1 => rw [hf] at a1; cases a1
    | clean c' l' r' i' a1 a2 a3 a4 a5 a6 a7 =>
      rw [hf] at a1; cases a1
      refine ⟨tr, s, h, ⟨hs.free, ?_, hs.told⟩⟩
      intro u
      by_cases hu : u = t
      · subst hu
        refine .dirty c l r i ?_ a2 a3 a4 a5 ?_
        · simp
        · intro x' r' hr
          refine a6 _ (hv c.obj) x' r' ?_
          rw [← a7, run_pass hp]
          exact hr
      · exact (hs.thr u).other (Function.update_of_ne hu _ _) rfl rfl (fun _ => Iff.rfl) (fun o _ => ⟨rfl, rfl⟩)
  | block c p l r i hf hp =>
    cases hs.thr t with
    | idle a => rw [hf] at a; simp at a
    | before c' l' r' i' a1 a2 a3 a4 a5 => rw [hf] at a1; cases a1; simp [Instr.fits] at a5
    | dirty c' l' r' i' a1 a2 a3 a4 a5 => rw [hf] at a1; cases a1; simp [Instr.fits] at a5
    | after c' r' i' a1 => rw [hf] at a1; cases a1
    | clean c' l' r' i' a1 a2 a3 a4 a5 a6 a7 =>
      rw [hf] at a1; cases a1
      refine ⟨tr, s, h, ⟨?_, ?_, hs.told⟩⟩
      · intro o ho
        by_cases hoc : o = c.obj
        · subst hoc; exact a7
        · exact hs.free o (by simpa [hoc] using ho)
      · intro u
        by_cases hu : u = t
        · subst hu
          refine .before c (.lock :: .wait p :: l) r i ?_ a2 ?_ a4 a5 a6
          · simp
          · intro o
            by_cases hoc : o = c.obj
            · subst hoc; simp
            · simp [hoc, a3]
        · refine (hs.thr u).other (Function.update_of_ne hu _ _) rfl rfl ?_ (fun o _ => ⟨rfl, rfl⟩)
          intro o
          by_cases hoc : o = c.obj
          · subst hoc; simp [(a3 _).2 rfl, Ne.symm hu]
          · simp [hoc]
  | act c g l r i hf =>
    have key : Called e f t c i → (∀ o, f.own o = some t ↔ o = c.obj) → f.wk t = s.wk t → Instr.fits .dirty l = true →
        (∀ x' r', Instr.run (.act g :: l) (f.sh c.obj) r = some (x', r') → c.atomic e (s.sh c.obj) = (r'.out, x')) →
        ∃ tr' s', BRun e r0 tr' s' ∧ FSim e r0 { f with
          sh := Function.update f.sh c.obj (g (f.sh c.obj) r).1
          fr := Function.update f.fr t (some ⟨c, Instr.next (decide (f.own c.obj = some t)) l (g (f.sh c.obj) r).2, (g (f.sh c.obj) r).2, i⟩) } s' := by
      intro a2 a3 a4 a5 a6
      have hown := (a3 c.obj).2 rfl
      refine ⟨tr, s, h, ⟨?_, ?_, hs.told⟩⟩
      · intro o ho
        have hoc : o ≠ c.obj := by
          rintro rfl
          rw [show f.own c.obj = none from ho] at hown
          simp at hown
        show Function.update f.sh c.obj _ o = _
        rw [Function.update_of_ne hoc]
        exact hs.free o ho
      · intro u
        by_cases hu : u = t
        · subst hu
          by_cases hl : (g (f.sh c.obj) r).2.leave = true
          · refine .dirty c [.unlock] (g (f.sh c.obj) r).2 i ?_ a2 a3 a4 rfl ?_
            · simp [Instr.next, hl, hown]
            · intro x' r' hr
              refine a6 x' r' ?_
              rw [← hr]
              simp [Instr.run, hl]
          · simp only [Bool.not_eq_true] at hl
            refine .dirty c l (g (f.sh c.obj) r).2 i ?_ a2 a3 a4 a5 ?_
            · simp [Instr.next, hl]
            · intro x' r' hr
              refine a6 x' r' ?_
              rw [← hr]
              simp [Instr.run, hl]
        · refine (hs.thr u).other (Function.update_of_ne hu _ _) rfl rfl (fun _ => Iff.rfl) ?_
          intro o ho
          have hoc : o ≠ c.obj := by
            rintro rfl
            rw [hown] at ho
            simp only [Option.some.injEq] at ho
            exact hu ho.symm
          exact ⟨Function.update_of_ne hoc _ _, rfl⟩
    cases hs.thr t with
    | idle a => rw [hf] at a; simp at a
    | before c' l' r' i' a1 a2 a3 a4 a5 => rw [hf] at a1; cases a1; simp [Instr.fits] at a5
    | after c' r' i' a1 => rw [hf] at a1; cases a1
    | clean c' l' r' i' a1 a2 a3 a4 a5 a6 a7 =>
      rw [hf] at a1; cases a1
      refine key a2 a3 a4 a5 ?_
      rw [a7]
      exact a6 _ (hv _)
    | dirty c' l' r' i' a1 a2 a3 a4 a5 a6 =>
      rw [hf] at a1; cases a1
      exact key a2 a3 a4 a5 a6
  | unlock c l r i hf =>
    have key : Called e f t c i → (∀ o, f.own o = some t ↔ o = c.obj) → f.wk t = s.wk t → l.isEmpty = true →
        c.atomic e (s.sh c.obj) = (r.out, f.sh c.obj) →
        ∃ tr' s', BRun e r0 tr' s' ∧
          FSim e r0 { f with own := Function.update f.own c.obj none, fr := Function.update f.fr t (some ⟨c, l, r, i⟩) } s' := by
      intro a2 a3 a4 a5 a6
      have hown := (a3 c.obj).2 rfl
      obtain ⟨tr', s', b1, b2, b3, b4⟩ := take_effect h a2 a4 a6
      refine ⟨tr', s', b1, ⟨?_, ?_, hs.told⟩⟩
      · intro o ho
        rw [b2]
        by_cases hoc : o = c.obj
        · subst hoc; simp
        · rw [Function.update_of_ne hoc]
          exact hs.free o (by simpa [hoc] using ho)
      · intro u
        by_cases hu : u = t
        · subst hu
          refine .after c r i ?_ ?_ b4
          · simpa using a5
          · intro o
            by_cases hoc : o = c.obj
            · subst hoc; simp
            · simp [hoc, a3]
        · refine (hs.thr u).other (Function.update_of_ne hu _ _) rfl (b3 u hu) ?_ ?_
          · intro o
            by_cases hoc : o = c.obj
            · subst hoc; simp [hown, Ne.symm hu]
            · simp [hoc]
          · intro o ho
            have hoc : o ≠ c.obj := by
              rintro rfl
              rw [hown] at ho
              simp only [Option.some.injEq] at ho
              exact hu ho.symm
            exact ⟨rfl, by rw [b2, Function.update_of_ne hoc]⟩
    cases hs.thr t with
    | idle a => rw [hf] at a; simp at a
    | before c' l' r' i' a1 a2 a3 a4 a5 => rw [hf] at a1; cases a1; simp [Instr.fits] at a5
    | after c' r' i' a1 => rw [hf] at a1; cases a1
    | clean c' l' r' i' a1 a2 a3 a4 a5 a6 a7 =>
      rw [hf] at a1; cases a1
      refine key a2 a3 a4 a5 ?_
      rw [← a7]
      refine a6 _ (a7 ▸ hv _) _ _ ?_
      simp only [Instr.fits, List.isEmpty_iff] at a5
      subst a5
      rfl
    | dirty c' l' r' i' a1 a2 a3 a4 a5 a6 =>
      rw [hf] at a1; cases a1
      refine key a2 a3 a4 a5 (a6 _ _ ?_)
      simp only [Instr.fits, List.isEmpty_iff] at a5
      subst a5
      rfl

theorem FSim.step {e : BEnv} {obs : Call → Prop} (hw : Watching obs) {r0 : ResState} {tr : List (Nat × Inp)} {f f' : FState} {s : BState} {t : Nat}
    (h : BRun e r0 tr s) (hs : FSim e r0 f s) (st : FStep e obs t f f') : ∃ tr' s', BRun e r0 tr' s' ∧ FSim e r0 f' s' := by
  cases st with
  | micro _ m => exact hs.micro h m
  | alone i ht hf hi hc =>
    cases hs.thr t with
    | before c' l' r' i' a1 => rw [hf] at a1; simp at a1
    | clean c' l' r' i' a1 => rw [hf] at a1; simp at a1
    | dirty c' l' r' i' a1 => rw [hf] at a1; simp at a1
    | after c' r' i' a1 => rw [hf] at a1; simp at a1
    | idle a1 a2 a3 =>
      have hc' : (s.wk t).call e t i = none := a3 ▸ hc
      have h3 : i.Ok e s t := by
        unfold Inp.Ok at hi ⊢
        rw [show f.core.wk t = s.wk t from a3] at hi
        exact hi
      refine ⟨_, _, .step tr s t i h ht h3, ?_⟩
      rw [step_alone hc']
      refine ⟨?_, ?_, hs.told⟩
      · intro o ho
        rw [BState.sh_put]
        exact hs.free o ho
      · intro u
        by_cases hu : u = t
        · subst hu
          refine .idle hf a2 ?_
          simp [BState.put, a3]
        · refine (hs.thr u).other rfl (Function.update_of_ne hu _ _) (Function.update_of_ne hu _ _) (fun _ => Iff.rfl) (fun o _ => ⟨rfl, ?_⟩)
          rw [BState.sh_put]
  | enter i c ht hf hi hc =>
    cases hs.thr t with
    | before c' l' r' i' a1 => rw [hf] at a1; simp at a1
    | clean c' l' r' i' a1 => rw [hf] at a1; simp at a1
    | dirty c' l' r' i' a1 => rw [hf] at a1; simp at a1
    | after c' r' i' a1 => rw [hf] at a1; simp at a1
    | idle a1 a2 a3 =>
      have hl : c.Locks := by
        cases c with
        | getPaths => exact (call_ne_getPaths hc).elim
        | _ => trivial
      refine ⟨tr, s, h, ⟨hs.free, ?_, hs.told⟩⟩
      intro u
      by_cases hu : u = t
      · subst hu
        refine .before c (c.body e) {} i (by simp) ⟨hl, ?_⟩ a2 a3 (body_fits e c hl) ?_
        · rw [if_pos ht]; exact ⟨hc, hi⟩
        · intro x hx x' r' hr
          exact body_run e c x hx hr
      · exact (hs.thr u).other (Function.update_of_ne hu _ _) rfl rfl (fun _ => Iff.rfl) (fun o _ => ⟨rfl, rfl⟩)
  | ret c r i ht hf =>
    cases hs.thr t with
    | idle a => rw [hf] at a; simp at a
    | before c' l' r' i' a1 a2 a3 a4 a5 => rw [hf] at a1; cases a1; simp [Instr.fits] at a5
    | clean c' l' r' i' a1 a2 a3 a4 a5 => rw [hf] at a1; cases a1; simp [Instr.fits] at a5
    | dirty c' l' r' i' a1 a2 a3 a4 a5 => rw [hf] at a1; cases a1; simp [Instr.fits] at a5
    | after c' r' i' a1 a2 a3 =>
      rw [hf] at a1; cases a1
      rw [if_pos ht] at a3
      refine ⟨tr, s, h, ⟨hs.free, ?_, hs.told⟩⟩
      intro u
      by_cases hu : u = t
      · subst hu
        refine .idle (by simp) a2 ?_
        simp [a3]
      · exact (hs.thr u).other (Function.update_of_ne hu _ _) (Function.update_of_ne hu _ _) rfl (fun _ => Iff.rfl) (fun o _ => ⟨rfl, rfl⟩)
  | ask c i ht hf hc =>
    cases hs.thr t with
    | before c' l' r' i' a1 => rw [hf] at a1; simp at a1
    | clean c' l' r' i' a1 => rw [hf] at a1; simp at a1
    | dirty c' l' r' i' a1 => rw [hf] at a1; simp at a1
    | after c' r' i' a1 => rw [hf] at a1; simp at a1
    | idle a1 a2 a3 =>
      obtain rfl := hw c hc
      refine ⟨tr, s, h, ⟨hs.free, ?_, hs.told⟩⟩
      intro u
      by_cases hu : u = t
      · subst hu
        refine .before (.result .getBounds) (Call.body e (.result .getBounds)) {} i (by simp) ⟨trivial, ?_⟩ a2 a3 (body_fits e _ trivial) ?_
        · rw [if_neg ht]
        · intro x hx x' r' hr
          exact body_run e _ x hx hr
      · exact (hs.thr u).other (Function.update_of_ne hu _ _) rfl rfl (fun _ => Iff.rfl) (fun o _ => ⟨rfl, rfl⟩)
  | told c r i ht hf =>
    cases hs.thr t with
    | idle a => rw [hf] at a; simp at a
    | before c' l' r' i' a1 a2 a3 a4 a5 => rw [hf] at a1; cases a1; simp [Instr.fits] at a5
    | clean c' l' r' i' a1 a2 a3 a4 a5 => rw [hf] at a1; cases a1; simp [Instr.fits] at a5
    | dirty c' l' r' i' a1 a2 a3 a4 a5 => rw [hf] at a1; cases a1; simp [Instr.fits] at a5
    | after c' r' i' a1 a2 a3 =>
      rw [hf] at a1; cases a1
      rw [if_neg ht] at a3
      refine ⟨tr, s, h, ⟨hs.free, ?_, ?_⟩⟩
      · intro u
        by_cases hu : u = t
        · subst hu
          exact .idle (by simp) a2 a3.1.symm
        · exact (hs.thr u).other (Function.update_of_ne hu _ _) rfl rfl (fun _ => Iff.rfl) (fun o _ => ⟨rfl, rfl⟩)
      · intro x hx
        rcases List.mem_append.1 hx with h1 | h1
        · exact hs.told x h1
        · obtain rfl := List.mem_singleton.1 h1
          exact a3.2

/-- every execution at the granularity of statements belongs to one of Model/BranchAndCut.lean -/
theorem FRun.sim {e : BEnv} {obs : Call → Prop} (hw : Watching obs) {r0 : ResState} {f : FState} (h : FRun e obs r0 f) :
    ∃ tr s, BRun e r0 tr s ∧ FSim e r0 f s := by
  induction h with
  | start s hs => exact ⟨[], s, .start s hs, fun _ _ => rfl, fun t => .idle rfl (fun o => by simp [FState.of]) rfl, by simp [FState.of]⟩
  | step f f' t _ st ih =>
    obtain ⟨tr, s, h1, h2⟩ := ih
    exact h2.step hw h1 st

end Mtsp
