import Verif.Model.QueueOnce
import Verif.Props.QueueWake

/-! C81 for three workers, and its refutation for four with at most one push for each node. -/

namespace Mtsp

theorem OnceRun.run {H : HeapImpl} {n : Nat} {c : CState} {p : Nat → Bool} (h : OnceRun H n c p) : ∃ ls, CRun H n ls c := by
  induction h with
  | init q q1 h h1 => exact ⟨_, .init q q1 h h1⟩
  | step c c' p p' _ hs ih =>
    obtain ⟨ls, hr⟩ := ih
    cases hs with
    | push _ t op q' ht hpc hp hk hl he => exact ⟨_, .step _ _ _ _ hr (.push c t op q' ht hpc hk hl he)⟩
    | other _ _ l hl hs => exact ⟨_, .step _ _ _ _ hr hs⟩

/-- the worker will look into the queue before it pushes anything -/
def WPc.onWay (p : WPc) (pushed : Bool) : Prop := p = .running ∨ p = .woken ∨ p = .notifyAll false ∨ (p = .holding ∧ pushed = true)

/-- no notification is due -/
def CState.quiet (n : Nat) (c : CState) : Prop := ∀ t k, t < n → c.pc t ≠ .notifyOne (k + 1)

structure ThreeInv (n : Nat) (c : CState) (p : Nat → Bool) : Prop where
  mark : ∀ t k, t < n → c.pc t = .notifyOne k → p t = true
  alone : c.q.cleared = false → ∀ t k, t < n → c.pc t = .notifyOne k → (∃ x, x < n ∧ x ≠ t) →
    (∀ x, x < n → x ≠ t → c.pc x = .waiting) → c.q.heap.length ≤ k
  quiet : c.q.cleared = false → c.quiet n → ∀ w, w < n → c.pc w = .waiting → c.q.heap ≠ [] →
    c.q.heap.length = 1 ∧ ∀ t, t < n → t ≠ w → (c.pc t).onWay (p t)

theorem hasNode_of_mark {n : Nat} {c c' : CState} {p : Nat → Bool} (hm : ∀ t k, t < n → c.pc t = .notifyOne k → p t = true) {t k : Nat}
    (ht : t < n) (h : c'.pc t = .notifyOne k) (h0 : c.pc t = .notifyOne k) : (p t && (c'.pc t).hasNode) = true := by
  rw [hm t k ht h0, h]; rfl

theorem three_inv {H : HeapImpl} {n : Nat} (hn : n ≤ 3) {c : CState} {p : Nat → Bool} (h : OnceRun H n c p) : ThreeInv n c p := by
  induction h with
  | init q q1 h h1 => exact ⟨by simp, by simp, by simp⟩
  | step c c' p p' hr hs ih =>
    obtain ⟨ls, hrun⟩ := hr.run
    have hi := crun_inv hrun
    cases hs with
    | push _ t op q' ht hpc hp hk hl he =>
      obtain ⟨e1, e2, e3, e4, e5⟩ := push_effect hk he
      have hne : pcAfterPush c.q op ≠ .waiting := by unfold pcAfterPush; split <;> simp
      have hpos := owner_count_pos hi ht (by rw [hpc]; rfl)
      refine ⟨?_, ?_, ?_⟩
      · intro x k hx hxp
        dsimp only at hxp
        by_cases e : x = t
        · subst e; simp
        · rw [upd_ne _ _ e] at hxp ⊢
          exact ih.mark x k hx hxp
      · intro hc x k hx hxp ⟨y, hy, hyx⟩ hall
        dsimp only at *
        rw [e3] at hc
        by_cases e : x = t
        · subst e
          rw [Function.update_self] at hxp
          unfold pcAfterPush at hxp
          split at hxp
          · next hh =>
            simp only [Bool.and_eq_true, List.isEmpty_iff] at hh
            have := e5 hc
            rw [hh.1.2] at this
            simp at hxp
            simp at this
            omega
          · simp at hxp
        · have := hall t ht (Ne.symm e)
          rw [Function.update_self] at this
          exact absurd this hne
      · intro hc hq w hw hpw hh
        dsimp only at *
        rw [e3] at hc
        exfalso
        have hwt : w ≠ t := by rintro rfl; rw [Function.update_self] at hpw; exact hne hpw
        rw [upd_ne _ _ hwt] at hpw
        by_cases h0 : c.q.heap = []
        · obtain ⟨k, hk'⟩ := Nat.exists_eq_succ_of_ne_zero (Nat.pos_iff_ne_zero.1 hk)
          apply hq t k ht
          simp [pcAfterPush, hc, h0, hpos, hk']
        · have hq0 : c.quiet n := by
            intro x k hx hxp
            by_cases e : x = t
            · subst e; rw [hpc] at hxp; simp at hxp
            · exact hq x k hx (by dsimp only; rw [upd_ne _ _ e]; exact hxp)
          have := (ih.quiet hc hq0 w hw hpw h0).2 t ht (Ne.symm hwt)
          rcases this with e | e | e | ⟨_, e⟩
          · rw [hpc] at e; simp at e
          · rw [hpc] at e; simp at e
          · rw [hpc] at e; simp at e
          · rw [hp] at e; simp at e
    | other _ _ l hl hs =>
      -- a worker that changes its state to `np`, which is neither waiting nor a notification, keeps everything in order
      have upd : ∀ (q' : QState) (t : Nat) (np : WPc), t < n → np ≠ .waiting → (∀ k, np ≠ .notifyOne k) →
          c.pc t ≠ .waiting → (∀ k, c.pc t ≠ .notifyOne k) → q'.cleared = c.q.cleared → q'.heap.length ≤ c.q.heap.length →
          (c.q.heap.length = 1 → q'.heap ≠ [] → (c.pc t).onWay (p t) → np.onWay (p t && np.hasNode)) →
          ThreeInv n ⟨q', Function.update c.pc t np⟩ (fun x => p x && (Function.update c.pc t np x).hasNode) := by
        intro q' t np ht h1 h2 h3 h4 hcl hlen hway
        refine ⟨?_, ?_, ?_⟩
        · intro x k hx hxp
          dsimp only at hxp ⊢
          by_cases e : x = t
          · subst e; rw [Function.update_self] at hxp; exact absurd hxp (h2 k)
          · rw [upd_ne _ _ e] at hxp ⊢
            rw [ih.mark x k hx hxp, hxp]; rfl
        · intro hc x k hx hxp hex hall
          dsimp only at *
          exfalso
          by_cases e : x = t
          · subst e; rw [Function.update_self] at hxp; exact absurd hxp (h2 k)
          · have := hall t ht (Ne.symm e)
            rw [Function.update_self] at this
            exact h1 this
        · intro hc hq w hw hpw hh
          dsimp only at *
          have hwt : w ≠ t := by rintro rfl; rw [Function.update_self] at hpw; exact h1 hpw
          rw [upd_ne _ _ hwt] at hpw
          have hq0 : c.quiet n := by
            intro x k hx hxp
            by_cases e : x = t
            · subst e; exact h4 _ hxp
            · exact hq x k hx (by dsimp only; rw [upd_ne _ _ e]; exact hxp)
          have h0 : c.q.heap ≠ [] := by
            intro e; rw [e] at hlen; simp at hlen; exact hh hlen
          obtain ⟨i1, i2⟩ := ih.quiet (hcl ▸ hc) hq0 w hw hpw h0
          refine ⟨?_, ?_⟩
          · have : 0 < q'.heap.length := List.length_pos_iff.2 hh
            omega
          · intro x hx hxw
            by_cases e : x = t
            · subst e
              rw [Function.update_self]
              exact hway i1 hh (i2 x hx hxw)
            · rw [upd_ne _ _ e]
              rcases i2 x hx hxw with e | e | e | ⟨e, e'⟩
              · exact Or.inl e
              · exact Or.inr (Or.inl e)
              · exact Or.inr (Or.inr (Or.inl e))
              · exact Or.inr (Or.inr (Or.inr ⟨e, by rw [e, e']; rfl⟩))
      have free3 : ∀ {x : Nat}, c.pc x = .running ∨ c.pc x = .woken → c.pc x ≠ .waiting ∧ ∀ k, c.pc x ≠ .notifyOne k := by
        intro x hx
        rcases hx with e | e <;> rw [e] <;> simp
      have hold3 : ∀ {x : Nat}, c.pc x = .holding → c.pc x ≠ .waiting ∧ ∀ k, c.pc x ≠ .notifyOne k := by
        intro x hx
        rw [hx]; simp
      cases hs with
      | popWait _ t q' ht hpc he =>
        rcases pop_cases H c.q t hi.q (hi.len ▸ ht) with ⟨_, hh, _, e⟩ | ⟨_, e⟩ | ⟨_, d, r, l, _, _, _, _, e⟩ <;> rw [e] at he <;> simp at he
        subst he
        refine ⟨?_, ?_, ?_⟩
        · intro x k hx hxp
          dsimp only at hxp ⊢
          by_cases e : x = t
          · subst e; rw [Function.update_self] at hxp; simp at hxp
          · rw [upd_ne _ _ e] at hxp ⊢
            rw [ih.mark x k hx hxp, hxp]; rfl
        · intro hc x k hx hxp hex hall
          dsimp only at *
          rw [hh]; simp
        · intro hc hq w hw hpw hne
          exact absurd hh hne
      | popNothing _ t q' ht hpc he =>
        rcases pop_cases H c.q t hi.q (hi.len ▸ ht) with ⟨_, _, _, e⟩ | ⟨h', e⟩ | ⟨_, d, r, l, _, _, _, _, e⟩ <;> rw [e] at he <;> simp at he
        subst he
        rcases h' with h' | h'
        · refine ⟨?_, fun hc => ?_, fun hc => ?_⟩
          · intro x k hx hxp
            dsimp only at hxp ⊢
            by_cases e : x = t
            · subst e; rw [Function.update_self] at hxp; simp at hxp
            · rw [upd_ne _ _ e] at hxp ⊢
              rw [ih.mark x k hx hxp, hxp]; rfl
          · dsimp only at hc; rw [h'] at hc; simp at hc
          · dsimp only at hc; rw [h'] at hc; simp at hc
        · exact upd _ t .left ht (by simp) (by simp) (free3 hpc).1 (free3 hpc).2 rfl (le_refl _) (fun _ hne _ => absurd h'.1 hne)
      | popNode _ t q' d ht hpc he =>
        rcases pop_cases H c.q t hi.q (hi.len ▸ ht) with ⟨_, _, _, e⟩ | ⟨h', e⟩ | ⟨hcl, d', r, l, hh, hrl, _, _, e⟩ <;> rw [e] at he <;> simp at he
        obtain ⟨_, he⟩ := he
        subst he
        refine upd _ t .holding ht (by simp) (by simp) (free3 hpc).1 (free3 hpc).2 ?_ ?_ ?_
        · first | rfl | exact hcl.symm
        · have := hrl.length_eq
          rw [hh]; simp at this ⊢; omega
        · intro h1 hne _
          exfalso
          have := hrl.length_eq
          rw [hh] at h1
          apply hne
          rw [← List.length_eq_zero_iff]; simp at this h1 ⊢; simp [h1] at this; try simp [this]
      | push _ t op q' ht hpc hk hl' he => exact absurd rfl (hl _)
      | update _ t v q' ht hpc hl' he =>
        simp only [QState.step, QState.updateCurrentLowerBound] at he
        obtain ⟨w0, hw0⟩ := own_some hi ht (by rw [hpc]; rfl)
        rw [hw0] at he
        simp only at he
        split at he <;> simp at he
        subst he
        have := upd { c.q with workedOn := c.q.workedOn.set t (some v) } t .holding ht (by simp) (by simp) (hold3 hpc).1 (hold3 hpc).2 rfl (le_refl _)
          (fun _ _ hw => by
            rcases hw with e | e | e | ⟨_, e⟩
            · rw [hpc] at e; simp at e
            · rw [hpc] at e; simp at e
            · rw [hpc] at e; simp at e
            · exact Or.inr (Or.inr (Or.inr ⟨rfl, by rw [e]; rfl⟩)))
        have e : Function.update c.pc t .holding = c.pc := by rw [← hpc]; exact Function.update_eq_self t c.pc
        rw [e] at this
        exact this
      | done _ t q' ht hpc he =>
        simp only [QState.notifyDone] at he
        obtain ⟨w0, hw0⟩ := own_some hi ht (by rw [hpc]; rfl)
        rw [hw0] at he
        simp only at he
        simp at he
        refine upd _ t (pcAfterDone q') ht ?_ ?_ (hold3 hpc).1 (hold3 hpc).2 (by rw [← he]) (by rw [← he]) ?_
        · unfold pcAfterDone; split <;> simp
        · unfold pcAfterDone; split <;> simp
        · intro _ _ _
          unfold pcAfterDone
          split
          · exact Or.inr (Or.inr (Or.inl rfl))
          · exact Or.inl rfl
      | clear _ t ht hpc =>
        refine ⟨?_, fun hc => by simp [QState.clearAll] at hc, fun hc => by simp [QState.clearAll] at hc⟩
        intro x k hx hxp
        dsimp only at hxp ⊢
        by_cases e : x = t
        · subst e; rw [Function.update_self] at hxp; simp at hxp
        · rw [upd_ne _ _ e] at hxp ⊢
          rw [ih.mark x k hx hxp, hxp]; rfl
      | wakeOne _ t x k ht hx hpc hpx =>
        have hxt : x ≠ t := by rintro rfl; rw [hpc] at hpx; simp at hpx
        have hval : ∀ y, Function.update (Function.update c.pc x .woken) t (pcAfterWakeOne k) y =
            if y = t then pcAfterWakeOne k else if y = x then .woken else c.pc y := by
          intro y; unfold Function.update; simp
        have hnw : pcAfterWakeOne k ≠ .waiting := by unfold pcAfterWakeOne; split <;> simp
        refine ⟨?_, ?_, ?_⟩
        · intro y j hy hyp
          dsimp only at hyp ⊢
          rw [hval] at hyp ⊢
          by_cases e : y = t
          · subst e
            rw [if_pos rfl] at hyp ⊢
            rw [ih.mark y (k + 1) hy hpc, hyp]; rfl
          · rw [if_neg e] at hyp ⊢
            by_cases e' : y = x
            · rw [if_pos e'] at hyp; simp at hyp
            · rw [if_neg e'] at hyp ⊢
              rw [ih.mark y j hy hyp, hyp]; rfl
        · intro hc y j hy hyp hex hall
          dsimp only at *
          exfalso
          by_cases e : x = y
          · subst e; rw [hval, if_neg hxt, if_pos rfl] at hyp; simp at hyp
          · have := hall x hx e
            rw [hval, if_neg hxt, if_pos rfl] at this
            simp at this
        · intro hc hq w hw hpw hh
          dsimp only at *
          rw [hval] at hpw
          have hwt : w ≠ t := by rintro rfl; rw [if_pos rfl] at hpw; exact hnw hpw
          rw [if_neg hwt] at hpw
          have hwx : w ≠ x := by rintro rfl; rw [if_pos rfl] at hpw; simp at hpw
          rw [if_neg hwx] at hpw
          have hk0 : k = 0 := by
            rcases k with _ | k
            · rfl
            · exact absurd (by dsimp only; rw [hval, if_pos rfl]; rfl) (hq t k ht)
          subst hk0
          have h3 : ∀ y, y < n → y = t ∨ y = x ∨ y = w := by intro y hy; omega
          have hl1 := ih.alone hc t 1 ht hpc ⟨x, hx, hxt⟩ (by
            intro y hy hyt
            rcases h3 y hy with e | e | e
            · exact absurd e hyt
            · rw [e]; exact hpx
            · rw [e]; exact hpw)
          refine ⟨?_, ?_⟩
          · have : 0 < c.q.heap.length := List.length_pos_iff.2 hh
            omega
          · intro y hy hyw
            rw [hval]
            rcases h3 y hy with e | e | e
            · rw [if_pos e]
              refine Or.inr (Or.inr (Or.inr ⟨rfl, ?_⟩))
              rw [e, ih.mark t 1 ht hpc]; rfl
            · rw [e, if_neg hxt, if_pos rfl]
              exact Or.inr (Or.inl rfl)
            · exact absurd e hyw
      | wakeNone _ t k ht hpc hnone =>
        have hnw : pcAfterWakeOne k ≠ .waiting := by unfold pcAfterWakeOne; split <;> simp
        refine ⟨?_, ?_, ?_⟩
        · intro y j hy hyp
          dsimp only at hyp ⊢
          by_cases e : y = t
          · subst e
            rw [ih.mark y (k + 1) hy hpc, hyp]; rfl
          · rw [upd_ne _ _ e] at hyp ⊢
            rw [ih.mark y j hy hyp, hyp]; rfl
        · intro hc y j hy hyp ⟨z, hz, hzy⟩ hall
          dsimp only at *
          exfalso
          have := hall z hz hzy
          by_cases e : z = t
          · subst e; rw [Function.update_self] at this; exact hnw this
          · rw [upd_ne _ _ e] at this
            exact hnone z hz this
        · intro hc hq w hw hpw hh
          exfalso
          dsimp only at *
          by_cases e : w = t
          · subst e; rw [Function.update_self] at hpw; exact hnw hpw
          · rw [upd_ne _ _ e] at hpw
            exact hnone w hw hpw
      | wakeAll _ t b ht hpc =>
        have hno : ∀ y, Function.update (fun w => if c.pc w = .waiting then .woken else c.pc w) t (if b then WPc.left else .running) y ≠ .waiting := by
          intro y
          by_cases e : y = t
          · subst e; rw [Function.update_self]; cases b <;> simp
          · rw [upd_ne _ _ e]; split
            · simp
            · assumption
        refine ⟨?_, ?_, ?_⟩
        · intro y j hy hyp
          dsimp only at hyp ⊢
          by_cases e : y = t
          · subst e; rw [Function.update_self] at hyp; cases b <;> simp at hyp
          · rw [upd_ne _ _ e] at hyp ⊢
            split at hyp
            · simp at hyp
            · next hnw => rw [if_neg hnw, ih.mark y j hy hyp, hyp]; rfl
        · intro hc y j hy hyp ⟨z, hz, hzy⟩ hall
          exact absurd (hall z hz hzy) (hno z)
        · intro hc hq w hw hpw hh
          exact absurd hpw (hno w)
      | spurious _ x hx hpx =>
        refine ⟨?_, ?_, ?_⟩
        · intro y j hy hyp
          dsimp only at hyp ⊢
          by_cases e : y = x
          · subst e; rw [Function.update_self] at hyp; simp at hyp
          · rw [upd_ne _ _ e] at hyp ⊢
            rw [ih.mark y j hy hyp, hyp]; rfl
        · intro hc y j hy hyp hex hall
          exfalso
          dsimp only at *
          by_cases e : x = y
          · subst e; rw [Function.update_self] at hyp; simp at hyp
          · have := hall x hx e
            rw [Function.update_self] at this
            simp at this
        · intro hc hq w hw hpw hh
          exfalso
          dsimp only at *
          have hwx : w ≠ x := by rintro rfl; rw [Function.update_self] at hpw; simp at hpw
          rw [upd_ne _ _ hwx] at hpw
          have hq0 : c.quiet n := by
            intro y k hy hyp
            by_cases e : y = x
            · subst e; rw [hpx] at hyp; simp at hyp
            · exact hq y k hy (by dsimp only; rw [upd_ne _ _ e]; exact hyp)
          have := (ih.quiet hc hq0 w hw hpw hh).2 x hx (Ne.symm hwx)
          rcases this with e | e | e | ⟨e, _⟩ <;> rw [hpx] at e <;> simp at e

/-- **C81 (partial)**: at most three workers, each pushing at most once for each node it takes.  Whenever nodes are queued (and the queue is not
cleared) while a worker is blocked in `Pop`, then either a notification is due, or exactly one node is queued and every other worker comes to the
queue before it pushes anything: none of them is busy with a node of its own and the queued node does not need the blocked worker. -/
theorem C81_no_sleep_three_workers_partial (H : HeapImpl) (n : Nat) (hn : n ≤ 3) (c : CState) (pushed : Nat → Bool) (h : OnceRun H n c pushed)
    (w : Nat) (hw : w < n) (hp : c.pc w = .waiting) (hq : c.q.heap ≠ []) (hc : c.q.cleared = false) :
    (∃ t k, t < n ∧ c.pc t = .notifyOne (k + 1)) ∨
    (c.q.heap.length = 1 ∧ ∀ t, t < n → t ≠ w → c.pc t = .running ∨ c.pc t = .woken ∨ c.pc t = .notifyAll false ∨
      (c.pc t = .holding ∧ pushed t = true)) := by
  by_cases hd : ∃ t k, t < n ∧ c.pc t = .notifyOne (k + 1)
  · exact Or.inl hd
  · push Not at hd
    exact Or.inr ((three_inv hn h).quiet hc (fun t k ht => hd t k ht) w hw hp hq)

/-! ### False for four workers, also if each pushes at most once for each node -/

def c81p (l : List Bool) : Nat → Bool := fun t => l.getD t false

theorem once_other {H : HeapImpl} {n : Nat} {q q' : QState} {a a' : List WPc} {b b' : List Bool} {pc' : Nat → WPc} {l : CLabel}
    (r : OnceRun H n ⟨q, c81pc a⟩ (c81p b)) (hs : CStep H n l ⟨q, c81pc a⟩ ⟨q', pc'⟩) (hl : ∀ k, l ≠ .push k) (ha : pc' = c81pc a')
    (hb : b' = List.zipWith (fun x y => x && y.hasNode) b a') (hlen : b.length = a'.length) : OnceRun H n ⟨q', c81pc a'⟩ (c81p b') := by
  subst ha
  have := OnceRun.step _ _ _ _ r (.other _ _ _ l hl hs)
  convert this using 1
  funext t
  subst hb
  simp only [c81p, c81pc, List.getD_eq_getElem?_getD]
  by_cases ht : t < b.length
  · have h2 : t < a'.length := by omega
    simp [ht, h2]
  · have h2 : ¬ t < a'.length := by omega
    simp [ht, h2]

theorem once_push {H : HeapImpl} {n : Nat} {q q' : QState} {a a' : List WPc} {b b' : List Bool} {t : Nat} {op : QOp}
    (r : OnceRun H n ⟨q, c81pc a⟩ (c81p b)) (ht : t < n) (hpc : c81pc a t = .holding) (hp : c81p b t = false) (hk : 0 < pushCount op)
    (hl : q.Legal op) (he : q.step H op = (.ok .unit, q')) (hta : t < a.length) (htb : t < b.length)
    (ha : a' = a.set t (pcAfterPush q op)) (hb : b' = b.set t true) : OnceRun H n ⟨q', c81pc a'⟩ (c81p b') := by
  have := OnceRun.step _ _ _ _ r (.push ⟨q, c81pc a⟩ _ t op q' ht hpc hp hk hl he)
  rw [c81pc_set hta ha] at this
  convert this using 1
  funext x
  subst hb
  unfold c81p
  by_cases e : x = t
  · subst e; simp [List.getD_eq_getElem?_getD, htb]
  · simp [Function.update, e, List.getD_eq_getElem?_getD, Ne.symm e]

theorem once_root : OnceRun libstdcxx 4 ⟨{ heap := [c81n 0 [] []], workedOn := [none, none, none, none] }, c81pc [.running, .running, .running, .running]⟩
    (c81p [false, false, false, false]) := by
  have r0 : OnceRun libstdcxx 4 ⟨{ heap := [c81n 0 [] []], workedOn := [none, none, none, none] }, fun _ => .running⟩ (fun _ => false) :=
    .init { workedOn := [none, none, none, none] } _ (by decide +kernel) (by decide +kernel)
  have e0 : (fun _ => .running : Nat → WPc) = c81pc [.running, .running, .running, .running] := by
    funext x
    unfold c81pc
    rcases x with _ | _ | _ | _ | x <;> simp
  have e1 : (fun _ => false : Nat → Bool) = c81p [false, false, false, false] := by
    funext x
    unfold c81p
    rcases x with _ | _ | _ | _ | x <;> simp
  rw [e0, e1] at r0
  exact r0

/-- **C81 is false for four workers, each pushing at most once for each node**: the execution of `C81_refuted`.  Worker 2 has just taken its node. -/
theorem C81_refuted_one_push : ∃ c pushed, OnceRun libstdcxx 4 c pushed ∧ c.q.cleared = false ∧ c.q.heap.length = 1 ∧ c.pc 3 = .waiting ∧
    (∀ t, t < 3 → c.pc t = .holding) ∧ pushed 2 = false := by
  let R := WPc.running
  let Hd := WPc.holding
  let W := WPc.waiting
  have nw : ∀ (l : List WPc), l.length = 4 → (∀ p ∈ l, p ≠ WPc.waiting) → ∀ w, w < 4 → c81pc l w ≠ .waiting := by
    intro l hl h w hw
    have : w < l.length := by omega
    unfold c81pc
    rw [List.getD_eq_getElem?_getD, List.getElem?_eq_getElem this, Option.getD_some]
    exact h _ (List.getElem_mem this)
  have r1 := once_other (a' := [Hd, R, R, R]) (b' := [false, false, false, false]) once_root
    (.popNode _ 0 { heap := [], workedOn := [some 0, none, none, none], count := 1 } (c81n 0 [] []) (by decide) (Or.inl rfl) (by decide +kernel))
    (by simp) (c81pc_set (by decide) rfl) rfl rfl
  have r2 := once_push (t := 0) (op := .pushBranch 0 [] [] 5 []) (a' := [.notifyOne 2, R, R, R]) (b' := [true, false, false, false])
    (q' := { heap := branchNodes 0 [] [] 5 [], workedOn := [some 0, none, none, none], count := 1 }) r1
    (by decide) rfl rfl (by decide) (by simp only [QState.Legal]; decide +kernel) (by decide +kernel) (by decide) (by decide) (by decide) rfl
  have r3 := once_other (a' := [.notifyOne 1, R, R, R]) (b' := [true, false, false, false]) r2
    (.wakeNone _ 0 1 (by decide) rfl (nw _ rfl (by decide))) (by simp) (c81pc_set (by decide) (by decide)) rfl rfl
  have r4 := once_other (a' := [Hd, R, R, R]) (b' := [true, false, false, false]) r3
    (.wakeNone _ 0 0 (by decide) rfl (nw _ rfl (by decide))) (by simp) (c81pc_set (by decide) (by decide)) rfl rfl
  have r5 := once_other (a' := [Hd, Hd, R, R]) (b' := [true, false, false, false]) r4
    (.popNode _ 1 { heap := [c81n 0 [] [5]], workedOn := [some 0, some 0, none, none], count := 2 } (c81n 0 [5] []) (by decide) (Or.inl rfl) (by decide +kernel))
    (by simp) (c81pc_set (by decide) rfl) rfl rfl
  have r6 := once_other (a' := [R, Hd, R, R]) (b' := [false, false, false, false]) r5
    (.done _ 0 { heap := [c81n 0 [] [5]], workedOn := [none, some 0, none, none], count := 1 } (by decide) rfl (by decide +kernel))
    (by simp) (c81pc_set (by decide) (by decide)) rfl rfl
  have r7 := once_other (a' := [Hd, Hd, R, R]) (b' := [false, false, false, false]) r6
    (.popNode _ 0 { heap := [], workedOn := [some 0, some 0, none, none], count := 2 } (c81n 0 [] [5]) (by decide) (Or.inl rfl) (by decide +kernel))
    (by simp) (c81pc_set (by decide) rfl) rfl rfl
  have r8 := once_other (a' := [Hd, Hd, W, R]) (b' := [false, false, false, false]) r7
    (.popWait _ 2 { heap := [], workedOn := [some 0, some 0, none, none], count := 2 } (by decide) (Or.inl rfl) (by decide +kernel))
    (by simp) (c81pc_set (by decide) rfl) rfl rfl
  have r9 := once_other (a' := [Hd, Hd, W, W]) (b' := [false, false, false, false]) r8
    (.popWait _ 3 { heap := [], workedOn := [some 0, some 0, none, none], count := 2 } (by decide) (Or.inl rfl) (by decide +kernel))
    (by simp) (c81pc_set (by decide) rfl) rfl rfl
  have r10 := once_push (t := 0) (op := .push 0 [] [5]) (a' := [.notifyOne 1, Hd, W, W]) (b' := [true, false, false, false])
    (q' := { heap := [c81n 0 [] [5]], workedOn := [some 0, some 0, none, none], count := 2 }) r9
    (by decide) rfl rfl (by decide) (by simp only [QState.Legal]; decide +kernel) (by decide +kernel) (by decide) (by decide) (by decide) rfl
  have r11 := once_push (t := 1) (op := .push 0 [5] []) (a' := [.notifyOne 1, Hd, W, W]) (b' := [true, true, false, false])
    (q' := { heap := [c81n 0 [] [5], c81n 0 [5] []], workedOn := [some 0, some 0, none, none], count := 2 }) r10
    (by decide) rfl rfl (by decide) (by simp only [QState.Legal]; decide +kernel) (by decide +kernel) (by decide) (by decide) (by decide) rfl
  have r12 := once_other (a' := [Hd, Hd, .woken, W]) (b' := [true, true, false, false]) r11
    (.wakeOne _ 0 2 0 (by decide) (by decide) rfl rfl) (by simp)
    (by rw [c81pc_set (l := [.notifyOne 1, Hd, W, W]) (l' := [.notifyOne 1, Hd, .woken, W]) (by decide) rfl,
          c81pc_set (l' := [Hd, Hd, .woken, W]) (by decide) (by decide)]) rfl rfl
  have r13 := once_other (a' := [Hd, Hd, Hd, W]) (b' := [true, true, false, false]) r12
    (.popNode _ 2 { heap := [c81n 0 [5] []], workedOn := [some 0, some 0, some 0, none], count := 3 } (c81n 0 [] [5]) (by decide) (Or.inr rfl) (by decide +kernel))
    (by simp) (c81pc_set (by decide) rfl) rfl rfl
  refine ⟨_, _, r13, rfl, rfl, rfl, ?_, rfl⟩
  intro t ht
  have : t = 0 ∨ t = 1 ∨ t = 2 := by omega
  rcases this with rfl | rfl | rfl <;> rfl

/-- The hypotheses of the three-worker theorem are met in both cases: worker 0 takes the root, workers 1 and 2 block, worker 0 pushes one node
(a notification is due) and notifies worker 1 (none is due, worker 2 is blocked). -/
example : (∃ c p, OnceRun libstdcxx 3 c p ∧ c.pc 2 = .waiting ∧ c.q.heap.length = 1 ∧ c.q.cleared = false ∧ c.pc 0 = .notifyOne 1) ∧
    ∃ c p, OnceRun libstdcxx 3 c p ∧ c.pc 2 = .waiting ∧ c.q.heap.length = 1 ∧ c.q.cleared = false ∧ c.pc 0 = .holding ∧ p 0 = true ∧
      c.pc 1 = .woken := by
  let R := WPc.running
  let Hd := WPc.holding
  let W := WPc.waiting
  have r0 : OnceRun libstdcxx 3 ⟨{ heap := [c81n 0 [] []], workedOn := [none, none, none] }, c81pc [R, R, R]⟩ (c81p [false, false, false]) := by
    have r0 : OnceRun libstdcxx 3 ⟨{ heap := [c81n 0 [] []], workedOn := [none, none, none] }, fun _ => .running⟩ (fun _ => false) :=
      .init { workedOn := [none, none, none] } _ (by decide +kernel) (by decide +kernel)
    have e0 : (fun _ => .running : Nat → WPc) = c81pc [R, R, R] := by
      funext x
      unfold c81pc
      rcases x with _ | _ | _ | x <;> simp [R]
    have e1 : (fun _ => false : Nat → Bool) = c81p [false, false, false] := by
      funext x
      unfold c81p
      rcases x with _ | _ | _ | x <;> simp
    rw [e0, e1] at r0
    exact r0
  have r1 := once_other (a' := [Hd, R, R]) (b' := [false, false, false]) r0
    (.popNode _ 0 { heap := [], workedOn := [some 0, none, none], count := 1 } (c81n 0 [] []) (by decide) (Or.inl rfl) (by decide +kernel))
    (by simp) (c81pc_set (by decide) rfl) rfl rfl
  have r2 := once_other (a' := [Hd, W, R]) (b' := [false, false, false]) r1
    (.popWait _ 1 { heap := [], workedOn := [some 0, none, none], count := 1 } (by decide) (Or.inl rfl) (by decide +kernel))
    (by simp) (c81pc_set (by decide) rfl) rfl rfl
  have r3 := once_other (a' := [Hd, W, W]) (b' := [false, false, false]) r2
    (.popWait _ 2 { heap := [], workedOn := [some 0, none, none], count := 1 } (by decide) (Or.inl rfl) (by decide +kernel))
    (by simp) (c81pc_set (by decide) rfl) rfl rfl
  have r4 := once_push (t := 0) (op := .push 0 [] [5]) (a' := [.notifyOne 1, W, W]) (b' := [true, false, false])
    (q' := { heap := [c81n 0 [] [5]], workedOn := [some 0, none, none], count := 1 }) r3
    (by decide) rfl rfl (by decide) (by simp only [QState.Legal]; decide +kernel) (by decide +kernel) (by decide) (by decide) (by decide) rfl
  have r5 := once_other (a' := [Hd, .woken, W]) (b' := [true, false, false]) r4
    (.wakeOne _ 0 1 0 (by decide) (by decide) rfl rfl) (by simp)
    (by rw [c81pc_set (l := [.notifyOne 1, W, W]) (l' := [.notifyOne 1, .woken, W]) (by decide) rfl,
          c81pc_set (l' := [Hd, .woken, W]) (by decide) (by decide)]) rfl rfl
  exact ⟨⟨_, _, r4, rfl, rfl, rfl, rfl⟩, ⟨_, _, r5, rfl, rfl, rfl, rfl, rfl, rfl⟩⟩

end Mtsp
