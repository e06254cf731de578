import Verif.Props.QueueConc

/-! C12 (balance of notifications) and C81: blocked workers and queued nodes. -/

namespace Mtsp

/-- notifications a worker still has to send -/
def WPc.owed : WPc → Nat
  | .notifyOne k => k
  | _ => 0

/-- notifications that workers have yet to send -/
def CState.owed (n : Nat) (c : CState) : Nat := ∑ t ∈ Finset.range n, (c.pc t).owed

/-- notifications that a step makes due: one for every node pushed into an empty queue that is not cleared -/
def CLabel.due (c : CState) : CLabel → Nat
  | .push k => if c.q.heap = [] ∧ c.q.cleared = false then k else 0
  | _ => 0

theorem owed_update (n : Nat) (pc : Nat → WPc) (t : Nat) (p : WPc) (ht : t < n) :
    (∑ w ∈ Finset.range n, (Function.update pc t p w).owed) + (pc t).owed = (∑ w ∈ Finset.range n, (pc w).owed) + p.owed := by
  have hm : t ∈ Finset.range n := Finset.mem_range.2 ht
  rw [← Finset.add_sum_erase _ _ hm, ← Finset.add_sum_erase (a := t) _ (fun w => (pc w).owed) hm]
  have : ∑ x ∈ (Finset.range n).erase t, (Function.update pc t p x).owed = ∑ x ∈ (Finset.range n).erase t, (pc x).owed := by
    apply Finset.sum_congr rfl
    intro x hx
    rw [upd_ne _ _ (Finset.ne_of_mem_erase hx)]
  rw [this]; simp only [Function.update_self]; omega

theorem owed_afterWakeOne (k : Nat) : (pcAfterWakeOne k).owed = k := by
  unfold pcAfterWakeOne
  split
  · next h => rw [h]; rfl
  · rfl

/-- **C12 (balance of notifications).** In every execution: pushing `k` nodes into an empty queue that is not cleared makes `k` notifications due, no
other step makes any due, and each one is sent exactly once - a notification that is due is neither dropped nor repeated. -/
theorem C12_notifications_balance (H : HeapImpl) (n : Nat) (ls : List CLabel) (c c' : CState) (l : CLabel)
    (h : CRun H n ls c) (hs : CStep H n l c c') :
    c'.owed n + (if l = .wakeOne then 1 else 0) =
      c.owed n + l.due c := by
  have hi := crun_inv h
  cases hs with
  | popWait _ t q' ht hpc he =>
    have := owed_update n c.pc t .waiting ht
    simp only [CState.owed, CLabel.due]
    rcases hpc with e | e <;> rw [e] at this <;> simpa [WPc.owed] using this
  | popNothing _ t q' ht hpc he =>
    have := owed_update n c.pc t .left ht
    simp only [CState.owed, CLabel.due]
    rcases hpc with e | e <;> rw [e] at this <;> simpa [WPc.owed] using this
  | popNode _ t q' d ht hpc he =>
    have := owed_update n c.pc t .holding ht
    simp only [CState.owed, CLabel.due]
    rcases hpc with e | e <;> rw [e] at this <;> simpa [WPc.owed] using this
  | push _ t op q' ht hpc hk hl he =>
    have := owed_update n c.pc t (pcAfterPush c.q op) ht
    have hpos := owner_count_pos hi ht (by rw [hpc]; rfl)
    have e : (pcAfterPush c.q op).owed = if c.q.heap = [] ∧ c.q.cleared = false then pushCount op else 0 := by
      unfold pcAfterPush
      by_cases h1 : c.q.heap = [] <;> by_cases h2 : c.q.cleared = false <;> simp [h1, h2, hpos, WPc.owed]
    rw [hpc, e] at this
    simp only [CState.owed, CLabel.due]
    simpa [WPc.owed] using this
  | update _ t v q' ht hpc hl he => simp [CState.owed, CLabel.due]
  | done _ t q' ht hpc he =>
    have := owed_update n c.pc t (pcAfterDone q') ht
    have e : (pcAfterDone q').owed = 0 := by unfold pcAfterDone; split <;> rfl
    rw [hpc, e] at this
    simp only [CState.owed, CLabel.due]
    simpa [WPc.owed] using this
  | clear _ t ht hpc =>
    have := owed_update n c.pc t (.notifyAll true) ht
    rw [hpc] at this
    simp only [CState.owed, CLabel.due]
    simpa [WPc.owed] using this
  | wakeOne _ t w k ht hw hpc hpw =>
    have htw : w ≠ t := by rintro rfl; rw [hpc] at hpw; simp at hpw
    have h1 := owed_update n c.pc w .woken hw
    have h2 := owed_update n (Function.update c.pc w .woken) t (pcAfterWakeOne k) ht
    rw [upd_ne _ _ (Ne.symm htw), hpc, owed_afterWakeOne] at h2
    rw [hpw] at h1
    simp only [CState.owed, CLabel.due]
    simp only [WPc.owed, reduceIte] at h1 h2 ⊢
    omega
  | wakeNone _ t k ht hpc hnone =>
    have h2 := owed_update n c.pc t (pcAfterWakeOne k) ht
    rw [hpc, owed_afterWakeOne] at h2
    simp only [CState.owed, CLabel.due]
    simp only [WPc.owed, reduceIte] at h2 ⊢
    omega
  | wakeAll _ t b ht hpc =>
    have h2 := owed_update n (fun w => if c.pc w = .waiting then .woken else c.pc w) t (if b then .left else .running) ht
    have e : ∀ w, (if c.pc w = .waiting then WPc.woken else c.pc w).owed = (c.pc w).owed := by
      intro w; split
      · next h => rw [h]; rfl
      · rfl
    simp only [e, hpc] at h2
    simp only [CState.owed, CLabel.due]
    cases b <;> simpa [WPc.owed] using h2
  | spurious _ w hw hpw =>
    have := owed_update n c.pc w .woken hw
    rw [hpw] at this
    simp only [CState.owed, CLabel.due]
    simpa [WPc.owed] using this

/-- executions as in `CRun`, with the number of notifications that have become due so far -/
inductive CDue (H : HeapImpl) (n : Nat) : List CLabel → Nat → CState → Prop
  | init (q q1 : QState) : QState.new n = .ok q → q.step H (.push 0 [] []) = (.ok .unit, q1) → CDue H n [] 0 ⟨q1, fun _ => .running⟩
  | step (ls : List CLabel) (d : Nat) (c c' : CState) (l : CLabel) : CDue H n ls d c → CStep H n l c c' →
      CDue H n (ls ++ [l]) (d + l.due c) c'

theorem CDue.run {H : HeapImpl} {n d : Nat} {ls : List CLabel} {c : CState} (h : CDue H n ls d c) : CRun H n ls c := by
  induction h with
  | init q q1 h h1 => exact .init q q1 h h1
  | step ls d c c' l _ hs ih => exact .step ls c c' l ih hs

/-- **C12, whole executions**: when all workers have left, the number of notifications sent equals the number of nodes pushed into an empty
queue, whatever the schedule was. -/
theorem C12_notifications_total (H : HeapImpl) (n d : Nat) (ls : List CLabel) (c : CState) (h : CDue H n ls d c) :
    ls.count .wakeOne + c.owed n = d ∧ ((∀ t, t < n → c.pc t = .left) → ls.count .wakeOne = d) := by
  have key : ls.count .wakeOne + c.owed n = d := by
    induction h with
    | init => simp [CState.owed, WPc.owed]
    | step ls d c c' l hd hs ih =>
      have := C12_notifications_balance H n ls c c' l hd.run hs
      rw [List.count_append, List.count_singleton]
      by_cases e : l = .wakeOne
      · subst e; simp only [reduceIte, beq_self_eq_true] at this ⊢; omega
      · simp [e] at this ⊢; omega
  refine ⟨key, fun hl => ?_⟩
  have : c.owed n = 0 := by
    unfold CState.owed
    apply Finset.sum_eq_zero
    intro t ht
    rw [hl t (Finset.mem_range.1 ht)]; rfl
  omega

/-- **C81 (partial)**: with two workers, whenever nodes are queued (and the queue is not cleared) while one worker is blocked in `Pop`, the other
one is just about to notify it. -/
theorem C81_no_sleep_two_workers_partial (H : HeapImpl) (n : Nat) (hn : n ≤ 2) (ls : List CLabel) (c : CState) (h : CRun H n ls c)
    (w : Nat) (hw : w < n) (hp : c.pc w = .waiting) (hq : c.q.heap ≠ []) (hc : c.q.cleared = false) :
    ∃ t k, t < n ∧ c.pc t = .notifyOne (k + 1) := by
  induction h generalizing w with
  | init q q1 h h1 => simp at hp
  | step ls c c' l hr hs ih =>
    have hi := crun_inv hr
    have two : ∀ {x y z : Nat}, x < n → y < n → z < n → x ≠ y → z ≠ y → x = z := by intro x y z; omega
    cases hs with
    | popWait _ t q' ht hpc he =>
      dsimp only at hp
      exfalso
      rcases pop_cases H c.q t hi.q (hi.len ▸ ht) with ⟨_, hh, _, e⟩ | ⟨_, e⟩ | ⟨_, d, r, l, _, _, _, _, e⟩ <;> rw [e] at he <;> simp at he
      subst he
      exact hq hh
    | popNothing _ t q' ht hpc he =>
      dsimp only at hp
      exfalso
      rcases pop_cases H c.q t hi.q (hi.len ▸ ht) with ⟨_, _, _, e⟩ | ⟨h', e⟩ | ⟨_, d, r, l, _, _, _, _, e⟩ <;> rw [e] at he <;> simp at he
      subst he
      rcases h' with h' | h'
      · dsimp only at hc; rw [hc] at h'; simp at h'
      · exact hq h'.1
    | popNode _ t q' d ht hpc he =>
      dsimp only at hp
      exfalso
      have hwt : w ≠ t := by rintro rfl; simp at hp
      rw [upd_ne _ _ hwt] at hp
      rcases pop_cases H c.q t hi.q (hi.len ▸ ht) with ⟨_, _, _, e⟩ | ⟨h', e⟩ | ⟨hcl, d', r, l, hh, _, _, _, e⟩ <;> rw [e] at he <;> simp at he
      obtain ⟨x, k, hx, hxp⟩ := ih w hw hp (by rw [hh]; simp) hcl
      have hxt : x = t := two hx hw ht (by rintro rfl; rw [hp] at hxp; simp at hxp) (Ne.symm hwt)
      subst hxt
      rcases hpc with e | e <;> rw [e] at hxp <;> simp at hxp
    | push _ t op q' ht hpc hk hl he =>
      dsimp only at hp
      obtain ⟨e1, e2, e3, e4, e5⟩ := push_effect hk he
      have hne : pcAfterPush c.q op ≠ .waiting := by unfold pcAfterPush; split <;> simp
      have hwt : w ≠ t := by rintro rfl; rw [Function.update_self] at hp; exact hne hp
      rw [upd_ne _ _ hwt] at hp
      dsimp only at hc
      rw [e3] at hc
      by_cases hh : c.q.heap = []
      · obtain ⟨k, hk'⟩ := Nat.exists_eq_succ_of_ne_zero (Nat.pos_iff_ne_zero.1 hk)
        have := owner_count_pos hi ht (by rw [hpc]; rfl)
        exact ⟨t, k, ht, by simp [pcAfterPush, hc, hh, this, hk']⟩
      · exfalso
        obtain ⟨x, k, hx, hxp⟩ := ih w hw hp hh hc
        have hxt : x = t := two hx hw ht (by rintro rfl; rw [hp] at hxp; simp at hxp) (Ne.symm hwt)
        subst hxt
        rw [hpc] at hxp; simp at hxp
    | update _ t v q' ht hpc hl he =>
      dsimp only at hp
      exfalso
      simp only [QState.step, QState.updateCurrentLowerBound] at he
      obtain ⟨w0, hw0⟩ := own_some hi ht (by rw [hpc]; rfl)
      rw [hw0] at he
      simp only at he
      split at he <;> simp at he
      subst he
      dsimp only at hq hc
      obtain ⟨x, k, hx, hxp⟩ := ih w hw hp hq hc
      have hwt : w ≠ t := by rintro rfl; rw [hpc] at hp; simp at hp
      have hxt : x = t := two hx hw ht (by rintro rfl; rw [hp] at hxp; simp at hxp) (Ne.symm hwt)
      subst hxt
      rw [hpc] at hxp; simp at hxp
    | done _ t q' ht hpc he =>
      dsimp only at hp
      exfalso
      have hne : pcAfterDone q' ≠ .waiting := by unfold pcAfterDone; split <;> simp
      have hwt : w ≠ t := by rintro rfl; rw [Function.update_self] at hp; exact hne hp
      rw [upd_ne _ _ hwt] at hp
      simp only [QState.notifyDone] at he
      obtain ⟨w0, hw0⟩ := own_some hi ht (by rw [hpc]; rfl)
      rw [hw0] at he
      simp only at he
      simp at he
      have e2 : q'.heap = c.q.heap := by rw [← he]
      have e3 : q'.cleared = c.q.cleared := by rw [← he]
      dsimp only at hq hc
      rw [e2] at hq; rw [e3] at hc
      obtain ⟨x, k, hx, hxp⟩ := ih w hw hp hq hc
      have hxt : x = t := two hx hw ht (by rintro rfl; rw [hp] at hxp; simp at hxp) (Ne.symm hwt)
      subst hxt
      rw [hpc] at hxp; simp at hxp
    | clear _ t ht hpc => simp [QState.clearAll] at hc
    | wakeOne _ t x k ht hx hpc hpx =>
      dsimp only at hp
      exfalso
      have hwt : w ≠ t := by
        rintro rfl; rw [Function.update_self] at hp; unfold pcAfterWakeOne at hp; split at hp <;> simp at hp
      rw [upd_ne _ _ hwt] at hp
      have hxt : x ≠ t := by rintro rfl; rw [hpc] at hpx; simp at hpx
      have : w = x := two hw ht hx hwt hxt
      subst this
      simp at hp
    | wakeNone _ t k ht hpc hnone =>
      dsimp only at hp
      exfalso
      have hwt : w ≠ t := by
        rintro rfl; rw [Function.update_self] at hp; unfold pcAfterWakeOne at hp; split at hp <;> simp at hp
      rw [upd_ne _ _ hwt] at hp
      exact hnone w hw hp
    | wakeAll _ t b ht hpc =>
      dsimp only at hp
      exfalso
      have hwt : w ≠ t := by rintro rfl; rw [Function.update_self] at hp; cases b <;> simp at hp
      rw [upd_ne _ _ hwt] at hp
      split at hp
      · simp at hp
      · contradiction
    | spurious _ x hx hpx =>
      dsimp only at hp
      exfalso
      have hwx : w ≠ x := by rintro rfl; simp at hp
      rw [upd_ne _ _ hwx] at hp
      obtain ⟨y, k, hy, hyp⟩ := ih w hw hp hq hc
      have : y = x := two hy hw hx (by rintro rfl; rw [hp] at hyp; simp at hyp) (Ne.symm hwx)
      subst this
      rw [hpx] at hyp; simp at hyp

/-! ### C81 is false for four workers -/

def c81pc (l : List WPc) : Nat → WPc := fun t => l.getD t .running

theorem c81pc_set {l l' : List WPc} {t : Nat} {p : WPc} (ht : t < l.length) (h : l' = l.set t p) : Function.update (c81pc l) t p = c81pc l' := by
  subst h
  funext x
  unfold c81pc
  by_cases e : x = t
  · subst e; simp [List.getD_eq_getElem?_getD, ht]
  · simp [Function.update, e, List.getD_eq_getElem?_getD, Ne.symm e]

def c81n (v : ℚ) (f0 f1 : List Nat) : SData := { lb := v, fixed0 := f0, fixed1 := f1 }

/-- **C81 is false in full**: four workers.  Worker 0 branches on the root; workers 0 and 1 take the two nodes, workers 2 and 3 block.  Worker 0
pushes its node back with cuts and owes one notification; worker 1 does the same, but the queue is not empty any more, so no notification is due.
Worker 2 is woken and takes one of the nodes.  Now a node is queued and worker 3 is blocked, but all others are busy with nodes of their own
(each has pushed at most once for each node): worker 3 goes on sleeping next to the queued node. -/
theorem C81_refuted : ∃ ls c, CRun libstdcxx 4 ls c ∧ c.q.cleared = false ∧ c.q.heap.length = 1 ∧ c.pc 3 = .waiting ∧ ∀ t, t < 3 → c.pc t = .holding := by
  let R := WPc.running
  let Hd := WPc.holding
  let W := WPc.waiting
  have r0 : CRun libstdcxx 4 [] ⟨{ heap := [c81n 0 [] []], workedOn := [none, none, none, none] }, fun _ => R⟩ :=
    .init { workedOn := [none, none, none, none] } _ (by decide +kernel) (by decide +kernel)
  have e0 : (fun _ => R : Nat → WPc) = c81pc [R, R, R, R] := by
    funext x
    unfold c81pc
    rcases x with _ | _ | _ | _ | x <;> simp [R]
  rw [e0] at r0
  -- worker 0 takes the root
  have r1 := r0.step _ _ _ _ (.popNode _ 0 { heap := [], workedOn := [some 0, none, none, none], count := 1 } (c81n 0 [] []) (by decide) (Or.inl rfl) (by decide +kernel))
  rw [c81pc_set (l' := [Hd, R, R, R]) (by decide) rfl] at r1
  -- and branches
  have r2 := r1.step _ _ _ _ (.push _ 0 (.pushBranch 0 [] [] 5 []) { heap := branchNodes 0 [] [] 5 [], workedOn := [some 0, none, none, none], count := 1 }
    (by decide) rfl (by decide) (by simp only [QState.Legal]; decide +kernel) (by decide +kernel))
  rw [c81pc_set (l' := [.notifyOne 2, R, R, R]) (by decide) (by decide)] at r2
  have nw : ∀ (l : List WPc), l.length = 4 → (∀ p ∈ l, p ≠ WPc.waiting) → ∀ w, w < 4 → c81pc l w ≠ .waiting := by
    intro l hl h w hw
    have : w < l.length := by omega
    unfold c81pc
    rw [List.getD_eq_getElem?_getD, List.getElem?_eq_getElem this, Option.getD_some]
    exact h _ (List.getElem_mem this)
  have r3 := r2.step _ _ _ _ (.wakeNone _ 0 1 (by decide) rfl (nw _ rfl (by decide)))
  rw [c81pc_set (l' := [.notifyOne 1, R, R, R]) (by decide) (by decide)] at r3
  have r4 := r3.step _ _ _ _ (.wakeNone _ 0 0 (by decide) rfl (nw _ rfl (by decide)))
  rw [c81pc_set (l' := [Hd, R, R, R]) (by decide) (by decide)] at r4
  -- worker 1 takes one node
  have r5 := r4.step _ _ _ _ (.popNode _ 1 { heap := [c81n 0 [] [5]], workedOn := [some 0, some 0, none, none], count := 2 } (c81n 0 [5] []) (by decide) (Or.inl rfl) (by decide +kernel))
  rw [c81pc_set (l' := [Hd, Hd, R, R]) (by decide) rfl] at r5
  -- worker 0 finishes the root and takes the other one
  have r6 := r5.step _ _ _ _ (.done _ 0 { heap := [c81n 0 [] [5]], workedOn := [none, some 0, none, none], count := 1 } (by decide) rfl (by decide +kernel))
  rw [c81pc_set (l' := [R, Hd, R, R]) (by decide) (by decide)] at r6
  have r7 := r6.step _ _ _ _ (.popNode _ 0 { heap := [], workedOn := [some 0, some 0, none, none], count := 2 } (c81n 0 [] [5]) (by decide) (Or.inl rfl) (by decide +kernel))
  rw [c81pc_set (l' := [Hd, Hd, R, R]) (by decide) rfl] at r7
  -- workers 2 and 3 block
  have r8 := r7.step _ _ _ _ (.popWait _ 2 { heap := [], workedOn := [some 0, some 0, none, none], count := 2 } (by decide) (Or.inl rfl) (by decide +kernel))
  rw [c81pc_set (l' := [Hd, Hd, W, R]) (by decide) rfl] at r8
  have r9 := r8.step _ _ _ _ (.popWait _ 3 { heap := [], workedOn := [some 0, some 0, none, none], count := 2 } (by decide) (Or.inl rfl) (by decide +kernel))
  rw [c81pc_set (l' := [Hd, Hd, W, W]) (by decide) rfl] at r9
  -- worker 0 pushes into the empty queue, worker 1 after it
  have r10 := r9.step _ _ _ _ (.push _ 0 (.push 0 [] [5]) { heap := [c81n 0 [] [5]], workedOn := [some 0, some 0, none, none], count := 2 }
    (by decide) rfl (by decide) (by simp only [QState.Legal]; decide +kernel) (by decide +kernel))
  rw [c81pc_set (l' := [.notifyOne 1, Hd, W, W]) (by decide) (by decide)] at r10
  have r11 := r10.step _ _ _ _ (.push _ 1 (.push 0 [5] []) { heap := [c81n 0 [] [5], c81n 0 [5] []], workedOn := [some 0, some 0, none, none], count := 2 }
    (by decide) rfl (by decide) (by simp only [QState.Legal]; decide +kernel) (by decide +kernel))
  rw [c81pc_set (l' := [.notifyOne 1, Hd, W, W]) (by decide) (by decide)] at r11
  -- the one notification wakes worker 2, which takes a node
  have r12 := r11.step _ _ _ _ (.wakeOne _ 0 2 0 (by decide) (by decide) rfl rfl)
  rw [c81pc_set (l := [.notifyOne 1, Hd, W, W]) (l' := [.notifyOne 1, Hd, .woken, W]) (by decide) rfl,
    c81pc_set (l' := [Hd, Hd, .woken, W]) (by decide) (by decide)] at r12
  have r13 := r12.step _ _ _ _ (.popNode _ 2 { heap := [c81n 0 [5] []], workedOn := [some 0, some 0, some 0, none], count := 3 } (c81n 0 [] [5]) (by decide) (Or.inr rfl) (by decide +kernel))
  rw [c81pc_set (l' := [Hd, Hd, Hd, W]) (by decide) rfl] at r13
  refine ⟨_, _, r13, rfl, rfl, rfl, ?_⟩
  intro t ht
  have : t = 0 ∨ t = 1 ∨ t = 2 := by omega
  rcases this with rfl | rfl | rfl <;> rfl

/-- The hypotheses of the two-worker theorem are met: worker 0 takes the root, worker 1 blocks, worker 0 branches. -/
example : ∃ ls c, CRun libstdcxx 2 ls c ∧ c.pc 1 = .waiting ∧ c.q.heap.length = 2 ∧ c.q.cleared = false := by
  have := c12_run2.step _ _ _ _ (.push _ 0 (.pushBranch 1 [] [] 5 []) c12q3 (by decide) rfl (by decide)
    (by simp only [QState.Legal]; decide +kernel) (by decide +kernel))
  exact ⟨_, _, this, rfl, rfl, rfl⟩

end Mtsp
