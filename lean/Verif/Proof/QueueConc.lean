import Verif.Model.QueueConc
import Verif.Proof.Queue
import Mathlib.Algebra.BigOperators.Fin
import Mathlib.Tactic.FinCases
import Mathlib.Algebra.Order.BigOperators.Group.Finset
import Mathlib.Data.Finset.Range

/-! Invariant and potential of the queue's condition variable protocol. -/

namespace Mtsp

/-- owns a node -/
def WPc.owns : WPc → Bool
  | .holding => true
  | .notifyOne _ => true
  | _ => false

/-- can go on without being woken -/
def WPc.active : WPc → Bool
  | .waiting => false
  | .left => false
  | _ => true

structure CInv (n : Nat) (c : CState) : Prop where
  q : QInv c.q
  len : c.q.workedOn.length = n
  own : ∀ t, t < n → ((c.q.workedOn[t]?).join.isSome = (c.pc t).owns)
  pend : ∀ t, t < n → c.pc t ≠ .notifyOne 0
  wake : (∃ w, w < n ∧ c.pc w = .waiting) → (c.q.cleared = true ∨ (c.q.heap = [] ∧ c.q.count = 0)) →
    ∃ t b, t < n ∧ c.pc t = .notifyAll b
  act : (∃ w, w < n ∧ c.pc w = .waiting) → ∃ t, t < n ∧ (c.pc t).active = true

theorem owns_notifyOne_active {p : WPc} (h : p.owns = true) : p.active = true := by
  cases p <;> simp_all [WPc.owns, WPc.active]

theorem count_pos_owner {n : Nat} {c : CState} (h : CInv n c) (hc : 0 < c.q.count) :
    ∃ t, t < n ∧ (c.pc t).owns = true := by
  rw [h.q.count] at hc
  obtain ⟨v, hv⟩ := activeCount_pos hc
  obtain ⟨t, ht, e⟩ := List.getElem_of_mem hv
  refine ⟨t, h.len ▸ ht, ?_⟩
  rw [← h.own t (h.len ▸ ht), List.getElem?_eq_getElem ht, e]; rfl

theorem owner_count_pos {n : Nat} {c : CState} (h : CInv n c) {t : Nat} (ht : t < n) (ho : (c.pc t).owns = true) :
    0 < c.q.count := by
  rw [h.q.count]
  unfold activeCount
  rw [List.countP_pos_iff]
  rw [← h.own t ht] at ho
  have hl : t < c.q.workedOn.length := h.len ▸ ht
  rw [List.getElem?_eq_getElem hl] at ho
  exact ⟨c.q.workedOn[t], List.getElem_mem hl, by simpa using ho⟩

theorem own_none {n : Nat} {c : CState} (h : CInv n c) {t : Nat} (ht : t < n) (ho : (c.pc t).owns = false) :
    c.q.workedOn[t]? = some none := by
  rw [← h.own t ht] at ho
  have hl : t < c.q.workedOn.length := h.len ▸ ht
  rw [List.getElem?_eq_getElem hl] at ho ⊢
  simpa using ho

theorem own_some {n : Nat} {c : CState} (h : CInv n c) {t : Nat} (ht : t < n) (ho : (c.pc t).owns = true) :
    ∃ v, c.q.workedOn[t]? = some (some v) := by
  rw [← h.own t ht] at ho
  have hl : t < c.q.workedOn.length := h.len ▸ ht
  rw [List.getElem?_eq_getElem hl] at ho ⊢
  obtain ⟨v, hv⟩ := Option.isSome_iff_exists.1 ho
  exact ⟨v, by simpa using hv⟩

/-- effect of a successful push on the queue -/
theorem push_effect {H : HeapImpl} {s s' : QState} {op : QOp} (hk : 0 < pushCount op)
    (h : s.step H op = (.ok .unit, s')) :
    s'.workedOn = s.workedOn ∧ s'.count = s.count ∧ s'.cleared = s.cleared ∧
    s'.heap.length ≤ s.heap.length + pushCount op ∧
    (s.cleared = false → s'.heap.length = s.heap.length + pushCount op) := by
  have key : ∀ v nodes, s.pushNodes H v nodes = (.ok .unit, s') → s'.workedOn = s.workedOn ∧ s'.count = s.count ∧
      s'.cleared = s.cleared ∧ s'.heap.length ≤ s.heap.length + nodes.length ∧
      (s.cleared = false → s'.heap.length = s.heap.length + nodes.length) := by
    intro v nodes he
    unfold QState.pushNodes at he
    split at he
    · next hc => simp at he; subst he; simp [hc]
    · split at he
      · simp at he
      · split at he
        · simp at he
        · simp at he; subst he
          have := (pushFold_perm H nodes s.heap).length_eq
          simp at this
          simp [this]
  cases op <;> simp [pushCount] at hk
  · exact key _ _ h
  · exact key _ _ h
  · exact key _ _ h

theorem upd_ne {α : Type} (f : Nat → α) {t w : Nat} (v : α) (h : w ≠ t) : Function.update f t v w = f w := by
  simp [Function.update, h]

theorem cinit_inv {H : HeapImpl} {n : Nat} {q q1 : QState} (h : QState.new n = .ok q)
    (h1 : q.step H (.push 0 [] []) = (.ok .unit, q1)) : CInv n ⟨q1, fun _ => .running⟩ ∧ q1.heap.length ≤ 1 := by
  obtain ⟨hi, hh, hw, hc, hcl⟩ := new_inv h
  have hi1 : QInv q1 := by
    have := step_inv H q (.push 0 [] []) hi (by constructor <;> norm_num [dblMax])
    rw [h1] at this; exact this
  obtain ⟨e1, e2, e3, e4, e5⟩ := push_effect (by simp [pushCount]) h1
  refine ⟨⟨hi1, by simp [e1, hw], ?_, ?_, ?_, ?_⟩, ?_⟩
  · intro t ht; simp [e1, hw, ht, WPc.owns]
  · simp
  · rintro ⟨w, _, hw⟩; simp at hw
  · rintro ⟨w, _, hw⟩; simp at hw
  · simpa [hh, pushCount] using e4

theorem cstep_inv {H : HeapImpl} {n : Nat} {l : CLabel} {c c' : CState} (h : CInv n c) (hs : CStep H n l c c') :
    CInv n c' := by
  cases hs with
  | popWait _ t q' ht hpc he =>
    have hno : (c.pc t).owns = false := by rcases hpc with e | e <;> rw [e] <;> rfl
    rcases pop_cases H c.q t h.q (h.len ▸ ht) with ⟨hc, hh, hcnt, e⟩ | ⟨_, e⟩ | ⟨_, d, r, l, _, _, _, _, e⟩ <;> rw [e] at he <;> simp at he
    subst he
    obtain ⟨o, ho, hoo⟩ := count_pos_owner h hcnt
    have hot : o ≠ t := by rintro rfl; rw [hno] at hoo; simp at hoo
    refine ⟨h.q, h.len, ?_, ?_, ?_, ?_⟩
    · intro w hw
      by_cases e : w = t
      · subst e; simp [own_none h ht hno, WPc.owns]
      · simp only [upd_ne _ _ e]; exact h.own w hw
    · intro w hw
      by_cases e : w = t
      · subst e; simp
      · simp only [upd_ne _ _ e]; exact h.pend w hw
    · rintro _ (h1 | h1)
      · simp [hc] at h1
      · simp only at h1; omega
    · intro _
      exact ⟨o, ho, by simp only [upd_ne _ _ hot]; exact owns_notifyOne_active hoo⟩
  | popNothing _ t q' ht hpc he =>
    have hno : (c.pc t).owns = false := by rcases hpc with e | e <;> rw [e] <;> rfl
    rcases pop_cases H c.q t h.q (h.len ▸ ht) with ⟨hc, hh, hcnt, e⟩ | ⟨hcond, e⟩ | ⟨_, d, r, l, _, _, _, _, e⟩ <;> rw [e] at he <;> simp at he
    subst he
    have hwt : (∃ w, w < n ∧ Function.update c.pc t .left w = .waiting) → ∃ w, w < n ∧ c.pc w = .waiting := by
      rintro ⟨w, hw, e⟩
      by_cases e' : w = t
      · subst e'; simp at e
      · exact ⟨w, hw, by rwa [upd_ne _ _ e'] at e⟩
    have hne : ∀ o b, c.pc o = .notifyAll b → o ≠ t := by
      intro o b hob e1; subst e1; rcases hpc with e' | e' <;> rw [e'] at hob <;> simp at hob
    refine ⟨h.q, h.len, ?_, ?_, ?_, ?_⟩
    · intro w hw
      by_cases e : w = t
      · subst e; simp [own_none h ht hno, WPc.owns]
      · simp only [upd_ne _ _ e]; exact h.own w hw
    · intro w hw
      by_cases e : w = t
      · subst e; simp
      · simp only [upd_ne _ _ e]; exact h.pend w hw
    · intro hw hcond
      obtain ⟨o, b, ho, hb⟩ := h.wake (hwt hw) hcond
      exact ⟨o, b, ho, by simp only [upd_ne _ _ (hne o b hb)]; exact hb⟩
    · intro hw
      obtain ⟨o, b, ho, hb⟩ := h.wake (hwt hw) hcond
      exact ⟨o, ho, by simp only [upd_ne _ _ (hne o b hb), hb]; rfl⟩
  | popNode _ t q' d ht hpc he =>
    have hno : (c.pc t).owns = false := by rcases hpc with e | e <;> rw [e] <;> rfl
    have hinv : QInv q' := by
      have := step_inv H c.q (.pop t) h.q (fun _ => own_none h ht hno)
      simp only [QState.step, he] at this; exact this
    rcases pop_cases H c.q t h.q (h.len ▸ ht) with ⟨hc, hh, hcnt, e⟩ | ⟨_, e⟩ | ⟨hc, d', r, l, _, _, _, _, e⟩ <;> rw [e] at he <;> simp at he
    obtain ⟨_, he⟩ := he
    have hlt : t < c.q.workedOn.length := h.len ▸ ht
    subst he
    refine ⟨hinv, by simpa using h.len, ?_, ?_, ?_, ?_⟩
    · intro w hw
      by_cases e : w = t
      · subst e; simp [hlt, WPc.owns]
      · simp only [upd_ne _ _ e, List.getElem?_set_ne (Ne.symm e)]; exact h.own w hw
    · intro w hw
      by_cases e : w = t
      · subst e; simp
      · simp only [upd_ne _ _ e]; exact h.pend w hw
    · rintro _ (h1 | h1)
      · simp [hc] at h1
      · simp at h1
    · intro _
      exact ⟨t, ht, by simp [WPc.active]⟩
  | push _ t op q' ht hpc hk hl he =>
    have hinv : QInv q' := by
      have := step_inv H c.q op h.q hl
      rw [he] at this; exact this
    obtain ⟨e1, e2, e3, e4, e5⟩ := push_effect hk he
    have hpos : 0 < c.q.count := owner_count_pos h ht (by rw [hpc]; rfl)
    have hp : (pcAfterPush c.q op).owns = true := by unfold pcAfterPush; split <;> rfl
    have hnw : pcAfterPush c.q op ≠ .waiting := by intro e; rw [e] at hp; simp [WPc.owns] at hp
    have hwt : (∃ w, w < n ∧ Function.update c.pc t (pcAfterPush c.q op) w = .waiting) → ∃ w, w < n ∧ c.pc w = .waiting := by
      rintro ⟨w, hw, e⟩
      by_cases e' : w = t
      · subst e'; simp at e; exact absurd e hnw
      · exact ⟨w, hw, by rwa [upd_ne _ _ e'] at e⟩
    refine ⟨hinv, by simpa [e1] using h.len, ?_, ?_, ?_, ?_⟩
    · intro w hw
      by_cases e : w = t
      · subst e; simp only [e1, Function.update_self, hp]; rw [h.own _ hw, hpc]; rfl
      · simp only [upd_ne _ _ e, e1]; exact h.own w hw
    · intro w hw
      by_cases e : w = t
      · subst e; simp only [Function.update_self]; unfold pcAfterPush; split
        · intro e; simp at e; omega
        · simp
      · simp only [upd_ne _ _ e]; exact h.pend w hw
    · rintro hw (h1 | h1)
      · obtain ⟨o, b, ho, hb⟩ := h.wake (hwt hw) (Or.inl (by simpa [e3] using h1))
        have hne : o ≠ t := by rintro rfl; rw [hpc] at hb; simp at hb
        exact ⟨o, b, ho, by simp only [upd_ne _ _ hne]; exact hb⟩
      · simp only [e2] at h1; omega
    · intro _
      exact ⟨t, ht, by simp only [Function.update_self]; exact owns_notifyOne_active hp⟩
  | update _ t v q' ht hpc hl he =>
    have hinv : QInv q' := by
      have := step_inv H c.q _ h.q hl
      rw [he] at this; exact this
    simp only [QState.step, QState.updateCurrentLowerBound] at he
    obtain ⟨w0, hw0⟩ := own_some h ht (by rw [hpc]; rfl)
    rw [hw0] at he
    simp only at he
    split at he <;> simp at he
    have hlt : t < c.q.workedOn.length := h.len ▸ ht
    subst he
    refine ⟨hinv, by simpa using h.len, ?_, h.pend, h.wake, h.act⟩
    intro w hw
    by_cases e : w = t
    · subst e; simp [hlt, hpc, WPc.owns]
    · simp only [List.getElem?_set_ne (Ne.symm e)]; exact h.own w hw
  | done _ t q' ht hpc he =>
    have hinv : QInv q' := by
      have := step_inv H c.q (.done t) h.q trivial
      simp only [QState.step, he] at this; exact this
    simp only [QState.notifyDone] at he
    obtain ⟨w0, hw0⟩ := own_some h ht (by rw [hpc]; rfl)
    rw [hw0] at he
    simp only at he
    simp at he
    have hlt : t < c.q.workedOn.length := h.len ▸ ht
    have hpos : 0 < c.q.count := owner_count_pos h ht (by rw [hpc]; rfl)
    have e2 : q'.heap = c.q.heap := by rw [← he]
    have e3 : q'.cleared = c.q.cleared := by rw [← he]
    have e1 : q'.workedOn = c.q.workedOn.set t none := by rw [← he]
    have hp : (pcAfterDone q').owns = false := by unfold pcAfterDone; split <;> rfl
    have hpa : (pcAfterDone q').active = true := by unfold pcAfterDone; split <;> rfl
    have hwt : (∃ w, w < n ∧ Function.update c.pc t (pcAfterDone q') w = .waiting) → ∃ w, w < n ∧ c.pc w = .waiting := by
      rintro ⟨w, hw, e⟩
      by_cases e' : w = t
      · subst e'; simp at e; rw [e] at hpa; simp [WPc.active] at hpa
      · exact ⟨w, hw, by rwa [upd_ne _ _ e'] at e⟩
    refine ⟨hinv, by simpa [e1] using h.len, ?_, ?_, ?_, ?_⟩
    · intro w hw
      by_cases e : w = t
      · subst e; simp [e1, hlt, hp]
      · simp only [upd_ne _ _ e, e1, List.getElem?_set_ne (Ne.symm e)]; exact h.own w hw
    · intro w hw
      by_cases e : w = t
      · subst e; simp only [Function.update_self]; intro e; rw [e] at hp; simp [WPc.owns] at hp
      · simp only [upd_ne _ _ e]; exact h.pend w hw
    · intro hw hcond
      by_cases hcl : c.q.cleared = true
      · obtain ⟨o, b, ho, hb⟩ := h.wake (hwt hw) (Or.inl hcl)
        have hne : o ≠ t := by rintro rfl; rw [hpc] at hb; simp at hb
        exact ⟨o, b, ho, by simp only [upd_ne _ _ hne]; exact hb⟩
      · refine ⟨t, false, ht, ?_⟩
        rcases hcond with h1 | ⟨h1, h2⟩
        · simp only [e3] at h1; exact absurd h1 hcl
        · simp only [Function.update_self, pcAfterDone]
          simp only at h1 h2
          simp [h1, h2, e3, hcl]
    · intro _
      exact ⟨t, ht, by simpa using hpa⟩
  | clear _ t ht hpc =>
    refine ⟨⟨h.q.heap, h.q.count, h.q.rangeH, h.q.rangeW⟩, h.len, ?_, ?_, ?_, ?_⟩
    · intro w hw
      by_cases e : w = t
      · subst e; simp [QState.clearAll, own_none h ht (by rw [hpc]; rfl), WPc.owns]
      · simp only [upd_ne _ _ e]; exact h.own w hw
    · intro w hw
      by_cases e : w = t
      · subst e; simp
      · simp only [upd_ne _ _ e]; exact h.pend w hw
    · intro _ _; exact ⟨t, true, ht, by simp⟩
    · intro _; exact ⟨t, ht, by simp [WPc.active]⟩
  | wakeOne _ t w k ht hw hpc hpw =>
    have htw : w ≠ t := by rintro rfl; rw [hpc] at hpw; simp at hpw
    have hp : (pcAfterWakeOne k).owns = true := by unfold pcAfterWakeOne; split <;> rfl
    have hpcs : ∀ x, x ≠ t → x ≠ w → Function.update (Function.update c.pc w .woken) t (pcAfterWakeOne k) x = c.pc x := by
      intro x h1 h2; rw [upd_ne _ _ h1, upd_ne _ _ h2]
    have hpcw : Function.update (Function.update c.pc w .woken) t (pcAfterWakeOne k) w = .woken := by
      rw [upd_ne _ _ htw]; simp
    refine ⟨h.q, h.len, ?_, ?_, ?_, ?_⟩
    · intro x hx
      by_cases e : x = t
      · subst e; simp only [Function.update_self, hp]; rw [h.own _ hx, hpc]; rfl
      · by_cases e' : x = w
        · subst e'; simp only [hpcw]; rw [h.own _ hx, hpw]; rfl
        · simp only [hpcs x e e']; exact h.own x hx
    · intro x hx
      by_cases e : x = t
      · subst e; simp only [Function.update_self]; unfold pcAfterWakeOne; split
        · simp
        · intro e; simp at e; omega
      · by_cases e' : x = w
        · subst e'; simp only [hpcw]; simp
        · simp only [hpcs x e e']; exact h.pend x hx
    · intro _ hcond
      obtain ⟨o, b, ho, hb⟩ := h.wake ⟨w, hw, hpw⟩ hcond
      have h1 : o ≠ t := by rintro rfl; rw [hpc] at hb; simp at hb
      have h2 : o ≠ w := by rintro rfl; rw [hpw] at hb; simp at hb
      exact ⟨o, b, ho, by simp only [hpcs o h1 h2]; exact hb⟩
    · intro _
      exact ⟨t, ht, by simp only [Function.update_self]; exact owns_notifyOne_active hp⟩
  | wakeNone _ t k ht hpc hnone =>
    have hp : (pcAfterWakeOne k).owns = true := by unfold pcAfterWakeOne; split <;> rfl
    have hno : ¬ ∃ w, w < n ∧ Function.update c.pc t (pcAfterWakeOne k) w = .waiting := by
      rintro ⟨w, hw, e⟩
      by_cases e' : w = t
      · subst e'; simp at e; rw [e] at hp; simp [WPc.owns] at hp
      · rw [upd_ne _ _ e'] at e; exact hnone w hw e
    refine ⟨h.q, h.len, ?_, ?_, fun h => absurd h hno, fun h => absurd h hno⟩
    · intro x hx
      by_cases e : x = t
      · subst e; simp only [Function.update_self, hp]; rw [h.own _ hx, hpc]; rfl
      · simp only [upd_ne _ _ e]; exact h.own x hx
    · intro x hx
      by_cases e : x = t
      · subst e; simp only [Function.update_self]; unfold pcAfterWakeOne; split
        · simp
        · intro e; simp at e; omega
      · simp only [upd_ne _ _ e]; exact h.pend x hx
  | wakeAll _ t b ht hpc =>
    have hno : ¬ ∃ w, w < n ∧ Function.update (fun w => if c.pc w = .waiting then .woken else c.pc w) t
        (if b then .left else .running) w = .waiting := by
      rintro ⟨w, hw, e⟩
      by_cases e' : w = t
      · subst e'; simp at e; split at e <;> simp at e
      · rw [upd_ne _ _ e'] at e; split at e
        · simp at e
        · contradiction
    refine ⟨h.q, h.len, ?_, ?_, fun h => absurd h hno, fun h => absurd h hno⟩
    · intro x hx
      by_cases e : x = t
      · subst e; simp only [Function.update_self]; rw [h.own _ hx, hpc]; cases b <;> rfl
      · simp only [upd_ne _ _ e]; rw [h.own _ hx]; split
        · next e => rw [e]; rfl
        · rfl
    · intro x hx
      by_cases e : x = t
      · subst e; simp only [Function.update_self]; cases b <;> simp
      · simp only [upd_ne _ _ e]; split
        · simp
        · exact h.pend x hx
  | spurious _ w hw hpw =>
    refine ⟨h.q, h.len, ?_, ?_, ?_, ?_⟩
    · intro x hx
      by_cases e : x = w
      · subst e; simp only [Function.update_self]; rw [h.own _ hx, hpw]; rfl
      · simp only [upd_ne _ _ e]; exact h.own x hx
    · intro x hx
      by_cases e : x = w
      · subst e; simp
      · simp only [upd_ne _ _ e]; exact h.pend x hx
    · intro _ hcond
      obtain ⟨o, b, ho, hb⟩ := h.wake ⟨w, hw, hpw⟩ hcond
      have h2 : o ≠ w := by rintro rfl; rw [hpw] at hb; simp at hb
      exact ⟨o, b, ho, by simp only [upd_ne _ _ h2]; exact hb⟩
    · intro _; exact ⟨w, hw, by simp [WPc.active]⟩

theorem crun_inv {H : HeapImpl} {n : Nat} {ls : List CLabel} {c : CState} (h : CRun H n ls c) : CInv n c := by
  induction h with
  | init q q1 h h1 => exact (cinit_inv h h1).1
  | step ls c c' l _ hs ih => exact cstep_inv ih hs

/-! ### Potential -/

def WPc.weight (n : Nat) : WPc → Nat
  | .left => 0
  | .waiting => 1
  | .woken => 2
  | .notifyAll true => n + 1
  | .running => n + 2
  | .notifyAll false => 2 * n + 3
  | .holding => 2 * n + 4
  | .notifyOne k => 2 * n + 4 + 2 * k

def pcSum (n : Nat) (pc : Nat → WPc) : Nat := ∑ t ∈ Finset.range n, (pc t).weight n

def CState.pot (n : Nat) (c : CState) : Nat := pcSum n c.pc + (2 * n + 4) * c.q.heap.length

def CLabel.budget (n : Nat) : CLabel → Nat
  | .push k => (2 * n + 7) * k
  | .update => 1
  | .spurious => 2
  | _ => 0

theorem sum_update (n : Nat) (pc : Nat → WPc) (t : Nat) (p : WPc) (ht : t < n) :
    pcSum n (Function.update pc t p) + (pc t).weight n = pcSum n pc + p.weight n := by
  unfold pcSum
  have hm : t ∈ Finset.range n := Finset.mem_range.2 ht
  rw [← Finset.add_sum_erase _ _ hm, ← Finset.add_sum_erase (a := t) _ (fun w => (pc w).weight n) hm]
  have : ∑ x ∈ (Finset.range n).erase t, (Function.update pc t p x).weight n =
      ∑ x ∈ (Finset.range n).erase t, (pc x).weight n := by
    apply Finset.sum_congr rfl
    intro x hx
    rw [upd_ne _ _ (Finset.ne_of_mem_erase hx)]
  rw [this]; simp only [Function.update_self]; omega

theorem sum_wake (n : Nat) (pc : Nat → WPc) :
    pcSum n (fun w => if pc w = .waiting then WPc.woken else pc w) ≤ pcSum n pc + n := by
  unfold pcSum
  have : (∑ w ∈ Finset.range n, (pc w).weight n) + n = ∑ w ∈ Finset.range n, ((pc w).weight n + 1) := by
    rw [Finset.sum_add_distrib]; simp
  rw [this]
  apply Finset.sum_le_sum
  intro w _
  simp only
  split
  · next h => rw [h]; simp [WPc.weight]
  · omega

theorem w_left (n) : WPc.weight n .left = 0 := rfl
theorem w_waiting (n) : WPc.weight n .waiting = 1 := rfl
theorem w_woken (n) : WPc.weight n .woken = 2 := rfl
theorem w_running (n) : WPc.weight n .running = n + 2 := rfl
theorem w_holding (n) : WPc.weight n .holding = 2 * n + 4 := rfl
theorem w_allT (n) : WPc.weight n (.notifyAll true) = n + 1 := rfl
theorem w_one (n k) : WPc.weight n (.notifyOne k) = 2 * n + 4 + 2 * k := rfl

theorem pushCount_le (op : QOp) : pushCount op ≤ 2 := by cases op <;> simp [pushCount]

theorem cstep_pot {H : HeapImpl} {n : Nat} {l : CLabel} {c c' : CState} (h : CInv n c) (hs : CStep H n l c c') :
    c'.pot n + 1 ≤ c.pot n + l.budget n := by
  cases hs with
  | popWait _ t q' ht hpc he =>
    rcases pop_cases H c.q t h.q (h.len ▸ ht) with ⟨hc, hh, hcnt, e⟩ | ⟨_, e⟩ | ⟨_, d, r, l, _, _, _, _, e⟩ <;> rw [e] at he <;> simp at he
    subst he
    have := sum_update n c.pc t .waiting ht
    simp only [CState.pot, CLabel.budget]
    rcases hpc with e | e <;> rw [e] at this <;> simp only [w_left, w_waiting, w_woken, w_running, w_holding, w_allT, w_one] at this <;> omega
  | popNothing _ t q' ht hpc he =>
    rcases pop_cases H c.q t h.q (h.len ▸ ht) with ⟨hc, hh, hcnt, e⟩ | ⟨_, e⟩ | ⟨_, d, r, l, _, _, _, _, e⟩ <;> rw [e] at he <;> simp at he
    subst he
    have := sum_update n c.pc t .left ht
    simp only [CState.pot, CLabel.budget]
    rcases hpc with e | e <;> rw [e] at this <;> simp only [w_left, w_waiting, w_woken, w_running, w_holding, w_allT, w_one] at this <;> omega
  | popNode _ t q' d ht hpc he =>
    rcases pop_cases H c.q t h.q (h.len ▸ ht) with ⟨hc, hh, hcnt, e⟩ | ⟨_, e⟩ | ⟨hc, d', r, l, hh, hp, _, _, e⟩ <;> rw [e] at he <;> simp at he
    obtain ⟨_, he⟩ := he
    subst he
    have := sum_update n c.pc t .holding ht
    have hl := hp.length_eq
    simp only [CState.pot, CLabel.budget, hh, List.length_cons, hl, Nat.mul_add]
    rcases hpc with e | e <;> rw [e] at this <;> simp only [w_left, w_waiting, w_woken, w_running, w_holding, w_allT, w_one] at this <;> omega
  | push _ t op q' ht hpc hk hl he =>
    obtain ⟨e1, e2, e3, e4, e5⟩ := push_effect hk he
    have := sum_update n c.pc t (pcAfterPush c.q op) ht
    rw [hpc] at this
    have h2 : (pcAfterPush c.q op).weight n ≤ 2 * n + 4 + 2 * pushCount op := by
      unfold pcAfterPush; split <;> simp [WPc.weight]
    have h3 : (2 * n + 4) * q'.heap.length ≤ (2 * n + 4) * c.q.heap.length + (2 * n + 4) * pushCount op := by
      rw [← Nat.mul_add]; exact Nat.mul_le_mul_left _ e4
    have h4 : (2 * n + 7) * pushCount op = (2 * n + 4) * pushCount op + 3 * pushCount op := by
      rw [← Nat.add_mul]
    simp only [CState.pot, CLabel.budget, h4]
    simp only [w_left, w_waiting, w_woken, w_running, w_holding, w_allT, w_one] at this
    omega
  | update _ t v q' ht hpc hl he =>
    simp only [QState.step, QState.updateCurrentLowerBound] at he
    obtain ⟨w0, hw0⟩ := own_some h ht (by rw [hpc]; rfl)
    rw [hw0] at he
    simp only at he
    split at he <;> simp at he
    subst he
    simp only [CState.pot, CLabel.budget]; omega
  | done _ t q' ht hpc he =>
    simp only [QState.notifyDone] at he
    obtain ⟨w0, hw0⟩ := own_some h ht (by rw [hpc]; rfl)
    rw [hw0] at he
    simp only at he
    simp at he
    have := sum_update n c.pc t (pcAfterDone q') ht
    rw [hpc] at this
    have h2 : (pcAfterDone q').weight n ≤ 2 * n + 3 := by
      unfold pcAfterDone; split <;> simp [WPc.weight]; omega
    have e2 : q'.heap = c.q.heap := by rw [← he]
    simp only [CState.pot, CLabel.budget, e2]
    simp only [w_left, w_waiting, w_woken, w_running, w_holding, w_allT, w_one] at this
    omega
  | clear _ t ht hpc =>
    have := sum_update n c.pc t (.notifyAll true) ht
    rw [hpc] at this
    simp only [CState.pot, CLabel.budget, QState.clearAll]
    simp only [w_left, w_waiting, w_woken, w_running, w_holding, w_allT, w_one] at this
    omega
  | wakeOne _ t w k ht hw hpc hpw =>
    have htw : w ≠ t := by rintro rfl; rw [hpc] at hpw; simp at hpw
    have h1 := sum_update n c.pc w .woken hw
    have h2 := sum_update n (Function.update c.pc w .woken) t (pcAfterWakeOne k) ht
    rw [upd_ne _ _ (Ne.symm htw), hpc] at h2
    rw [hpw] at h1
    have h3 : (pcAfterWakeOne k).weight n ≤ 2 * n + 4 + 2 * k := by
      unfold pcAfterWakeOne; split <;> simp [WPc.weight]
    simp only [CState.pot, CLabel.budget]
    simp only [w_left, w_waiting, w_woken, w_running, w_holding, w_allT, w_one] at h1 h2
    omega
  | wakeNone _ t k ht hpc hnone =>
    have h2 := sum_update n c.pc t (pcAfterWakeOne k) ht
    rw [hpc] at h2
    have h3 : (pcAfterWakeOne k).weight n ≤ 2 * n + 4 + 2 * k := by
      unfold pcAfterWakeOne; split <;> simp [WPc.weight]
    simp only [CState.pot, CLabel.budget]
    simp only [w_left, w_waiting, w_woken, w_running, w_holding, w_allT, w_one] at h2
    omega
  | wakeAll _ t b ht hpc =>
    have h1 := sum_wake n c.pc
    have h2 := sum_update n (fun w => if c.pc w = .waiting then .woken else c.pc w) t (if b then .left else .running) ht
    simp only [hpc] at h2
    simp only [CState.pot, CLabel.budget]
    cases b <;> simp [WPc.weight] at h2 ⊢ <;> omega
  | spurious _ w hw hpw =>
    have h1 := sum_update n c.pc w .woken hw
    rw [hpw] at h1
    simp only [CState.pot, CLabel.budget]
    simp only [w_left, w_waiting, w_woken, w_running, w_holding, w_allT, w_one] at h1
    omega

theorem crun_pot {H : HeapImpl} {n : Nat} {ls : List CLabel} {c : CState} (h : CRun H n ls c) :
    ls.length + c.pot n ≤ n * (n + 2) + (2 * n + 4) + (ls.map (CLabel.budget n)).sum := by
  induction h with
  | init q q1 h h1 =>
    have := (cinit_inv h h1).2
    have h3 : (2 * n + 4) * q1.heap.length ≤ (2 * n + 4) * 1 := Nat.mul_le_mul_left _ this
    simp only [CState.pot, pcSum, WPc.weight, Finset.sum_const, Finset.card_range, List.length_nil, List.map_nil, List.sum_nil, smul_eq_mul]
    omega
  | step ls c c' l hr hs ih =>
    have := cstep_pot (crun_inv hr) hs
    simp only [List.length_append, List.length_singleton, List.map_append, List.map_cons, List.map_nil,
      List.sum_append, List.sum_cons, List.sum_nil]
    omega

end Mtsp
