import Verif.Proof.QueueConc

/-! C12: no worker waits forever. -/

namespace Mtsp

/-- steps that need neither a spurious wake-up nor a decision of the worker to push, update or clear -/
def CLabel.forced : CLabel → Bool
  | .pop | .done | .wakeOne | .wakeAll => true
  | _ => false

/-- **C12 (deadlock freedom).** In every reachable state of every schedule, with any number of workers,
either every worker has left its loop or some worker can make a step right now: finish a `Pop` call,
complete its node, or deliver a pending notification. -/
theorem C12_no_deadlock (H : HeapImpl) (n : Nat) (ls : List CLabel) (c : CState) (h : CRun H n ls c) :
    (∀ t, t < n → c.pc t = .left) ∨ ∃ l c', l.forced = true ∧ CStep H n l c c' := by
  have hi := crun_inv h
  by_cases hall : ∀ t, t < n → c.pc t = .left
  · exact Or.inl hall
  right
  have hact : ∃ t, t < n ∧ (c.pc t).active = true := by
    push Not at hall
    obtain ⟨t, ht, hne⟩ := hall
    by_cases hw : c.pc t = .waiting
    · exact hi.act ⟨t, ht, hw⟩
    · refine ⟨t, ht, ?_⟩
      cases hp : c.pc t <;> simp_all [WPc.active]
  obtain ⟨t, ht, ha⟩ := hact
  have popStep : (c.pc t = .running ∨ c.pc t = .woken) → ∃ l c', l.forced = true ∧ CStep H n l c c' := by
    intro hp
    rcases pop_cases H c.q t hi.q (hi.len ▸ ht) with ⟨_, _, _, e⟩ | ⟨_, e⟩ | ⟨_, d, r, l, _, _, _, _, e⟩
    · exact ⟨.pop, _, rfl, .popWait c t _ ht hp e⟩
    · exact ⟨.pop, _, rfl, .popNothing c t _ ht hp e⟩
    · exact ⟨.pop, _, rfl, .popNode c t _ d ht hp e⟩
  cases hp : c.pc t with
  | running => exact popStep (Or.inl hp)
  | woken => exact popStep (Or.inr hp)
  | waiting => rw [hp] at ha; simp [WPc.active] at ha
  | left => rw [hp] at ha; simp [WPc.active] at ha
  | holding =>
    obtain ⟨v, hv⟩ := own_some hi ht (by rw [hp]; rfl)
    exact ⟨.done, _, rfl, .done c t _ ht hp (by simp [QState.notifyDone, hv]; rfl)⟩
  | notifyAll b => exact ⟨.wakeAll, _, rfl, .wakeAll c t b ht hp⟩
  | notifyOne k =>
    cases k with
    | zero => exact absurd hp (hi.pend t ht)
    | succ k =>
      by_cases hw : ∃ w, w < n ∧ c.pc w = .waiting
      · obtain ⟨w, hw, hpw⟩ := hw
        exact ⟨.wakeOne, _, rfl, .wakeOne c t w k ht hw hp hpw⟩
      · push Not at hw
        exact ⟨.wakeOne, _, rfl, .wakeNone c t k ht hp hw⟩

/-- **C12 (termination).** The number of steps of any execution, of any length and schedule, is bounded by
a function of the number of workers, of pushed nodes, of bound updates and of spurious wake-ups. So if the
search tree is finite no worker spins or waits forever: by `C12_no_deadlock` an execution can only end
when all workers have left. -/
theorem C12_bounded_steps (H : HeapImpl) (n : Nat) (ls : List CLabel) (c : CState) (h : CRun H n ls c) :
    ls.length ≤ (n + 2) * (n + 2) +
      (ls.map fun l => match l with | .push k => (2 * n + 7) * k | .update => 1 | .spurious => 2 | _ => 0).sum := by
  have := crun_pot h
  have e : (fun l : CLabel => match l with | .push k => (2 * n + 7) * k | .update => 1 | .spurious => 2 | _ => 0) =
      CLabel.budget n := by funext l; cases l <;> rfl
  rw [e]
  have e2 : (n + 2) * (n + 2) = n * (n + 2) + (2 * n + 4) := by ring
  omega

/-- **C12 (work is never left lying, all work done, cleared).** If some worker is blocked in `Pop`, then
another one is neither blocked nor gone; and if moreover the queue is cleared or all work is done, then a
`notify_all` is still to be delivered. -/
theorem C12_waiters_get_woken (H : HeapImpl) (n : Nat) (ls : List CLabel) (c : CState) (h : CRun H n ls c)
    (hw : ∃ w, w < n ∧ c.pc w = .waiting) :
    (∃ t, t < n ∧ c.pc t ≠ .waiting ∧ c.pc t ≠ .left) ∧
    ((c.q.cleared = true ∨ (c.q.heap = [] ∧ c.q.count = 0)) → ∃ t b, t < n ∧ c.pc t = .notifyAll b) := by
  have hi := crun_inv h
  refine ⟨?_, hi.wake hw⟩
  obtain ⟨t, ht, ha⟩ := hi.act hw
  refine ⟨t, ht, ?_, ?_⟩ <;> intro e <;> rw [e] at ha <;> simp [WPc.active] at ha

/-- **C12 (new work wakes).** When a worker pushes `k` nodes into an empty, uncleared queue, it goes on to
send `k` notifications; delivering one of them while somebody is blocked unblocks a blocked worker. -/
theorem C12_push_notifies (H : HeapImpl) (n : Nat) (ls : List CLabel) (c c' : CState) (k : Nat)
    (h : CRun H n ls c) (hs : CStep H n (.push k) c c') (hc : c.q.cleared = false) (he : c.q.heap = []) :
    ∃ t, t < n ∧ c.pc t = .holding ∧ c'.pc t = .notifyOne k ∧ c'.q.heap.length = k := by
  have hi := crun_inv h
  cases hs with
  | push _ t op q' ht hpc hk hl hq =>
    refine ⟨t, ht, hpc, ?_, ?_⟩
    · have := owner_count_pos hi ht (by rw [hpc]; rfl)
      simp [pcAfterPush, hc, he, this]
    · have := (push_effect hk hq).2.2.2.2 hc
      simpa [he] using this

theorem C12_notification_unblocks (H : HeapImpl) (n : Nat) (c c' : CState)
    (hs : CStep H n .wakeOne c c') (hw : ∃ w, w < n ∧ c.pc w = .waiting) :
    ∃ w, w < n ∧ c.pc w = .waiting ∧ c'.pc w = .woken := by
  cases hs with
  | wakeOne _ t w k ht hwn hpc hpw =>
    refine ⟨w, hwn, hpw, ?_⟩
    have : w ≠ t := by rintro rfl; rw [hpc] at hpw; simp at hpw
    simp [Function.update, this]
  | wakeNone _ t k ht hpc hn =>
    obtain ⟨w, hwn, e⟩ := hw
    exact absurd e (hn w hwn)

/-! Non-vacuity: two workers; worker 0 takes the root, worker 1 blocks, worker 0 branches. -/

def c12q1 : QState := { heap := [{ lb := 0 }], workedOn := [none, none] }
def c12q2 : QState := { heap := [], workedOn := [some 0, none], count := 1 }
def c12q3 : QState := { heap := branchNodes 1 [] [] 5 [], workedOn := [some 0, none], count := 1 }

theorem c12_run2 : CRun libstdcxx 2 [.pop, .pop]
    ⟨c12q2, Function.update (Function.update (fun _ => .running) 0 .holding) 1 .waiting⟩ := by
  have r0 : CRun libstdcxx 2 [] ⟨c12q1, fun _ => .running⟩ :=
    .init { workedOn := [none, none] } c12q1 (by decide +kernel) (by decide +kernel)
  have r1 := r0.step _ _ _ _ (.popNode _ 0 c12q2 { lb := 0 } (by decide) (Or.inl rfl) (by decide +kernel))
  exact r1.step _ _ _ _ (.popWait _ 1 c12q2 (by decide) (Or.inl rfl) (by decide +kernel))

example : ∃ w, w < 2 ∧ (Function.update (Function.update (fun _ => WPc.running) 0 .holding) 1 .waiting) w = .waiting :=
  ⟨1, by decide, rfl⟩

example : CStep libstdcxx 2 (.push 2)
    ⟨c12q2, Function.update (Function.update (fun _ => .running) 0 .holding) 1 .waiting⟩
    ⟨c12q3, Function.update (Function.update (Function.update (fun _ => .running) 0 .holding) 1 .waiting) 0 (.notifyOne 2)⟩ :=
  .push _ 0 (.pushBranch 1 [] [] 5 []) c12q3 (by decide) rfl (by decide)
    (by simp only [QState.Legal]; decide +kernel) (by decide +kernel)

end Mtsp
