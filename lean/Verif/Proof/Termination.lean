import Verif.Proof.TermStep
import Verif.Proof.BnBRes

/-! An execution in which the measure does not decrease any more leads to a contradiction, unless all workers have left. -/

namespace Mtsp

theorem mem_allBounds {q : QState} {b : ℚ} : b ∈ q.allBounds ↔ (∃ d ∈ q.heap, d.lb = b) ∨ ∃ u : Nat, q.workedOn[u]? = some (some b) := by
  unfold QState.allBounds
  rw [List.mem_append, List.mem_map, List.mem_filterMap]
  constructor
  · rintro (h | ⟨o, ho, rfl⟩)
    · exact Or.inl h
    · exact Or.inr (List.mem_iff_getElem?.1 ho)
  · rintro (h | ⟨u, hu⟩)
    · exact Or.inl h
    · exact Or.inr ⟨some b, List.mem_of_getElem? hu, rfl⟩

theorem workedOn_set_cases {w : List (Option ℚ)} {t u : Nat} {o : Option ℚ} {b : ℚ} (h : (w.set t o)[u]? = some (some b)) :
    (u = t ∧ o = some b) ∨ (u ≠ t ∧ w[u]? = some (some b)) := by
  by_cases hu : u = t
  · subst hu
    rw [List.getElem?_set] at h
    simp only [if_true] at h
    split at h
    · simp only [Option.some.injEq] at h; exact Or.inl ⟨rfl, h⟩
    · simp at h
  · rw [List.getElem?_set_ne (Ne.symm hu)] at h
    exact Or.inr ⟨hu, h⟩

namespace Spin

variable {e : BEnv} {s s' : BState} {t : Nat}

/-- the bounds in play become fewer -/
theorem bounds (h : Spin e s t s') {b : ℚ} (hb : b ∈ s'.q.allBounds) : b ∈ s.q.allBounds := by
  cases h with
  | pop d r l f hp hh hpm hmin =>
    rcases mem_allBounds.1 hb with ⟨d', hd', rfl⟩ | ⟨u, hu⟩
    · exact mem_allBounds.2 (Or.inl ⟨d', by rw [hh]; exact List.mem_cons_of_mem _ (hpm.mem_iff.1 hd'), rfl⟩)
    · rcases workedOn_set_cases hu with ⟨_, h2⟩ | ⟨_, h2⟩
      · simp only [Option.some.injEq] at h2
        exact mem_allBounds.2 (Or.inl ⟨d, by rw [hh]; exact List.mem_cons_self, h2⟩)
      · exact mem_allBounds.2 (Or.inr ⟨u, h2⟩)
  | push op nodes q v hp ho hn hw hheap =>
    rcases mem_allBounds.1 hb with ⟨d', hd', rfl⟩ | ⟨u, hu⟩
    · rcases hheap with hh | hh
      · exact mem_allBounds.2 (Or.inl ⟨d', hh ▸ hd', rfl⟩)
      · rcases List.mem_append.1 (hh.mem_iff.1 hd') with hd' | hd'
        · exact mem_allBounds.2 (Or.inl ⟨d', hd', rfl⟩)
        · exact mem_allBounds.2 (Or.inr ⟨t, by rw [hn d' hd']; exact ho⟩)
    · exact mem_allBounds.2 (Or.inr ⟨u, by rw [← hw]; exact hu⟩)
  | done c hp =>
    rcases mem_allBounds.1 hb with hd' | ⟨u, hu⟩
    · exact mem_allBounds.2 (Or.inl hd')
    · rcases workedOn_set_cases hu with ⟨_, h2⟩ | ⟨_, h2⟩
      · simp at h2
      · exact mem_allBounds.2 (Or.inr ⟨u, h2⟩)
  | _ => exact hb

/-- a smallest bound in the heap stays there until someone pops it -/
theorem heap (h : Spin e s t s') {b : ℚ} (hb : ∃ d ∈ s.q.heap, d.lb = b) :
    (∃ d ∈ s'.q.heap, d.lb = b) ∨ (s'.wk t).pc = .resRead b := by
  cases h with
  | pop d r l f hp hh hpm hmin =>
    obtain ⟨d', hd', rfl⟩ := hb
    rw [hh] at hd'
    rcases List.mem_cons.1 hd' with rfl | hd'
    · exact Or.inr (by simp [BState.setWk])
    · exact Or.inl ⟨d', hpm.mem_iff.2 hd', rfl⟩
  | push op nodes q v hp ho hn hw hheap =>
    obtain ⟨d', hd', rfl⟩ := hb
    rcases hheap with hh | hh
    · exact Or.inl ⟨d', by show d' ∈ q.heap; rw [hh]; exact hd', rfl⟩
    · exact Or.inl ⟨d', hh.mem_iff.2 (List.mem_append_left _ hd'), rfl⟩
  | _ => exact Or.inl hb

/-- a worker gets hold of a bound only by popping it -/
theorem gain (h : Spin e s t s') {b : ℚ} {u : Nat} (hu : s'.q.workedOn[u]? = some (some b)) :
    s.q.workedOn[u]? = some (some b) ∨ ∃ d ∈ s.q.heap, d.lb = b := by
  cases h with
  | pop d r l f hp hh hpm hmin =>
    rcases workedOn_set_cases hu with ⟨_, h2⟩ | ⟨_, h2⟩
    · simp only [Option.some.injEq] at h2
      exact Or.inr ⟨d, by rw [hh]; exact List.mem_cons_self, h2⟩
    · exact Or.inl h2
  | push op nodes q v hp ho hn hw hheap => exact Or.inl (by rw [← hw]; exact hu)
  | done c hp =>
    rcases workedOn_set_cases hu with ⟨_, h2⟩ | ⟨_, h2⟩
    · simp at h2
    · exact Or.inl h2
  | _ => exact Or.inl hu

end Spin

/-- steps of a worker until it comes to `Pop` -/
def dist : Pc → Nat
  | .pop => 0
  | .headUpd _ => 1
  | .head => 2
  | .done => 3
  | .push _ => 4
  | .resUpd .. => 5
  | .resRead _ => 6
  | _ => 7

/-- the worker is still going -/
def Going (pc : Pc) : Prop := pc ≠ .left ∧ ∀ er, pc ≠ .crashed er

theorem Spin.dist {e : BEnv} {s s' : BState} {t : Nat} (h : Spin e s t s') (hg : Going (s.wk t).pc) :
    Going (s'.wk t).pc ∧ ((s.wk t).pc = .pop ∨ Mtsp.dist (s'.wk t).pc < Mtsp.dist (s.wk t).pc) := by
  have hgo : ∀ pc : Pc, (s.goto t pc).wk t = { s.wk t with pc := pc } := fun pc => by simp [BState.goto, BState.setWk]
  cases h with
  | left hp => exact absurd hp hg.1
  | crashed er hp => exact absurd hp (hg.2 er)
  | blocked hp => exact ⟨hg, Or.inl hp⟩
  | pop d r l f hp => exact ⟨by simp [Going, BState.setWk], Or.inl hp⟩
  | head l hp => exact ⟨by simp [Going, BState.goto, BState.setWk], Or.inr (by rw [hp]; simp [Mtsp.dist, BState.goto, BState.setWk])⟩
  | headUpd l hp => exact ⟨by simp [Going, BState.goto, BState.setWk], Or.inr (by rw [hp]; simp [Mtsp.dist, BState.goto, BState.setWk])⟩
  | resRead lb l hp => exact ⟨by simp [Going, BState.goto, BState.setWk], Or.inr (by rw [hp]; simp [Mtsp.dist, BState.goto, BState.setWk])⟩
  | resUpd lb l hp => exact ⟨by simp [Going, BState.goto, BState.setWk], Or.inr (by rw [hp]; simp [Mtsp.dist, BState.goto, BState.setWk])⟩
  | push op nodes q v hp => exact ⟨by simp [Going, BState.goto, BState.setWk], Or.inr (by rw [hp]; simp [Mtsp.dist, BState.goto, BState.setWk])⟩
  | done c hp => exact ⟨by simp [Going, BState.goto, BState.setWk], Or.inr (by rw [hp]; simp [Mtsp.dist, BState.goto, BState.setWk])⟩

/-- nothing more to gain -/
def ResState.Closed (r : ResState) : Prop := r.upper ≤ r.lower

theorem closed_updLower {r : ResState} (h : r.Closed) (l : ℚ) : (r.updateLowerBound l).1.Closed := by
  unfold ResState.Closed at h ⊢
  unfold ResState.updateLowerBound
  dsimp only
  split
  · rename_i h1
    dsimp only
    rw [min_eq_right (le_trans h h1)]
  · exact h

theorem Spin.closed {e : BEnv} {s s' : BState} {t : Nat} (h : Spin e s t s') (hc : s.res.Closed) : s'.res.Closed := by
  cases h with
  | headUpd l => exact closed_updLower hc l
  | resUpd lb l => exact closed_updLower hc l
  | _ => exact hc

section
variable {e : BEnv} {rows : Nat} {w : Weights} {starts ends : List Nat} {r : ResState} {who : Nat → Nat} {inp : Nat → Inp} {st : Nat → BState}

/-- What is used about the tail of an execution.  `aw n t`: worker `t` is not asleep at time `n`. -/
structure Tail (e : BEnv) (who : Nat → Nat) (st : Nat → BState) (n0 : Nat) (aw : Nat → Nat → Prop) : Prop where
  spin : ∀ n, n0 ≤ n → Spin e (st n) (who n) (st (n + 1)) ∨ st (n + 1) = st n
  inv : ∀ n, ∃ bad all, GInv e bad (st n) all
  /-- a worker that is not asleep does its next step -/
  next : ∀ t < e.threads, ∀ n, n0 ≤ n → Going ((st n).wk t).pc → aw n t →
    ∃ k, n ≤ k ∧ (st k).wk t = (st n).wk t ∧ Spin e (st k) t (st (k + 1)) ∧ (((st n).wk t).pc ≠ .pop → aw (k + 1) t)
  /-- workers sleep in `Pop` only -/
  awake : ∀ t < e.threads, ∀ n, n0 ≤ n → Going ((st n).wk t).pc → ((st n).wk t).pc ≠ .pop → aw n t
  /-- not all of them sleep for ever -/
  someone : ∀ n, n0 ≤ n → (∃ t < e.threads, Going ((st n).wk t).pc) → ∃ m, n ≤ m ∧ ∃ u < e.threads, Going ((st m).wk u).pc ∧ aw m u

variable {aw : Nat → Nat → Prop}

theorem Tail.bounds {n0 : Nat} (T : Tail e who st n0 aw) {n m : Nat} (hn : n0 ≤ n) (hm : n ≤ m) {b : ℚ} (hb : b ∈ (st m).q.allBounds) :
    b ∈ (st n).q.allBounds := by
  induction m, hm using Nat.le_induction with
  | base => exact hb
  | succ m hm ih =>
    rcases T.spin m (le_trans hn hm) with h | h
    · exact ih (h.bounds hb)
    · exact ih (h ▸ hb)

theorem Tail.closed {n0 : Nat} (T : Tail e who st n0 aw) {n m : Nat} (hn : n0 ≤ n) (hm : n ≤ m) (hc : (st n).res.Closed) : (st m).res.Closed := by
  induction m, hm using Nat.le_induction with
  | base => exact hc
  | succ m hm ih =>
    rcases T.spin m (le_trans hn hm) with h | h
    · exact h.closed ih
    · rw [h]; exact ih

/-- outside of `Pop` -/
theorem Tail.step {n0 : Nat} (T : Tail e who st n0 aw) {t : Nat} (ht : t < e.threads) {n : Nat} (hn : n0 ≤ n) (hg : Going ((st n).wk t).pc)
    (hp : ((st n).wk t).pc ≠ .pop) :
    ∃ k, n ≤ k ∧ (st k).wk t = (st n).wk t ∧ Spin e (st k) t (st (k + 1)) ∧ aw (k + 1) t := by
  obtain ⟨k, h1, h2, h3, h4⟩ := T.next t ht n hn hg (T.awake t ht n hn hg hp)
  exact ⟨k, h1, h2, h3, h4 hp⟩

/-- a worker that is going comes to `Pop` -/
theorem Tail.toPop {n0 : Nat} (T : Tail e who st n0 aw) {t : Nat} (ht : t < e.threads) : ∀ (d n : Nat), n0 ≤ n → Going ((st n).wk t).pc →
    Mtsp.dist ((st n).wk t).pc ≤ d → ∃ m, n ≤ m ∧ ((st m).wk t).pc = .pop := by
  intro d
  induction d with
  | zero =>
    intro n hn hg hd
    by_cases hp : ((st n).wk t).pc = .pop
    · exact ⟨n, le_refl _, hp⟩
    obtain ⟨k, h1, h3, h4, _⟩ := T.step ht hn hg hp
    rcases (h4.dist (by rw [h3]; exact hg)).2 with h | h
    · exact ⟨k, h1, h⟩
    · rw [h3] at h; omega
  | succ d ih =>
    intro n hn hg hd
    by_cases hp : ((st n).wk t).pc = .pop
    · exact ⟨n, le_refl _, hp⟩
    obtain ⟨k, h1, h3, h4, _⟩ := T.step ht hn hg hp
    obtain ⟨h5, h | h⟩ := h4.dist (by rw [h3]; exact hg)
    · exact ⟨k, h1, h⟩
    · obtain ⟨m, h6, h7⟩ := ih (k + 1) (by omega) h5 (by rw [h3] at h; omega)
      exact ⟨m, by omega, h7⟩

/-- a worker that is not asleep tries `Pop` -/
theorem Tail.tries {n0 : Nat} (T : Tail e who st n0 aw) {t : Nat} (ht : t < e.threads) : ∀ (d n : Nat), n0 ≤ n → Going ((st n).wk t).pc →
    aw n t → Mtsp.dist ((st n).wk t).pc ≤ d → ∃ m, n ≤ m ∧ ((st m).wk t).pc = .pop ∧ Spin e (st m) t (st (m + 1)) := by
  intro d
  induction d with
  | zero =>
    intro n hn hg ha hd
    obtain ⟨k, h1, h3, h4, _⟩ := T.next t ht n hn hg ha
    rcases (h4.dist (by rw [h3]; exact hg)).2 with h | h
    · exact ⟨k, h1, h, h4⟩
    · rw [h3] at h; omega
  | succ d ih =>
    intro n hn hg ha hd
    obtain ⟨k, h1, h3, h4, h5⟩ := T.next t ht n hn hg ha
    obtain ⟨h6, h | h⟩ := h4.dist (by rw [h3]; exact hg)
    · exact ⟨k, h1, h, h4⟩
    · by_cases hp : ((st n).wk t).pc = .pop
      · exact ⟨k, h1, by rw [h3]; exact hp, h4⟩
      · obtain ⟨m, h7, h8⟩ := ih (k + 1) (by omega) h6 (h5 hp) (by rw [h3] at h; omega)
        exact ⟨m, by omega, h8⟩

/-- as long as some worker is going, one of them tries `Pop` -/
theorem Tail.attempt {n0 : Nat} (T : Tail e who st n0 aw) {t : Nat} (ht : t < e.threads) {n : Nat} (hn : n0 ≤ n) (hg : Going ((st n).wk t).pc) :
    ∃ m, n ≤ m ∧ ∃ u < e.threads, ((st m).wk u).pc = .pop ∧ Spin e (st m) u (st (m + 1)) := by
  obtain ⟨m, hm, u, hu, hgu, ha⟩ := T.someone n hn ⟨t, ht, hg⟩
  obtain ⟨k, hk, h⟩ := T.tries hu _ m (le_trans hn hm) hgu ha (le_refl _)
  exact ⟨k, le_trans hm hk, u, hu, h⟩

/-- once nothing can be gained, a worker on its way to the head of the loop would clear the queue -/
theorem Tail.notClosed {n0 : Nat} (T : Tail e who st n0 aw) {t : Nat} (ht : t < e.threads) : ∀ (d n : Nat), n0 ≤ n → Going ((st n).wk t).pc →
    Mtsp.dist ((st n).wk t).pc ≤ d → 1 ≤ Mtsp.dist ((st n).wk t).pc → (st n).res.Closed → False := by
  intro d
  induction d with
  | zero => intro n _ _ h1 h2; omega
  | succ d ih =>
    intro n hn hg hd h1 hc
    obtain ⟨k, hk, h3, h4, _⟩ := T.step ht hn hg (by intro h; rw [h] at h1; simp [Mtsp.dist] at h1)
    have hc' := T.closed hn hk hc
    obtain ⟨h5, h6⟩ := h4.dist (by rw [h3]; exact hg)
    have hgt : Mtsp.dist ((st (k + 1)).wk t).pc < Mtsp.dist ((st n).wk t).pc := by
      rcases h6 with h | h
      · rw [h3] at h; rw [h] at h1; simp [Mtsp.dist] at h1
      · rw [h3] at h; exact h
    by_cases h0 : 1 ≤ Mtsp.dist ((st (k + 1)).wk t).pc
    · exact ih (k + 1) (by omega) h5 (by omega) h0 (h4.closed hc')
    · -- only `headUpd` leads to `pop`
      have hl : ∃ l, ((st k).wk t).pc = .headUpd l ∧ ((st k).res.updateLowerBound l).2.Lower < ((st k).res.updateLowerBound l).2.Upper := by
        revert h0 h1 h3
        generalize st (k + 1) = s' at h4
        intro h1 h3 h0
        rw [← h3] at h1
        cases h4 with
        | headUpd l hp hlt => exact ⟨l, hp, hlt⟩
        | blocked hp => rw [hp] at h1; simp [Mtsp.dist] at h1
        | pop d r l f hp => rw [hp] at h1; simp [Mtsp.dist] at h1
        | left hp => rw [hp] at h0; simp [Mtsp.dist] at h0
        | crashed er hp => rw [hp] at h0; simp [Mtsp.dist] at h0
        | _ => exact absurd h0 (by simp [Mtsp.dist, BState.goto, BState.setWk])
      obtain ⟨l, _, hlt⟩ := hl
      exact absurd (closed_updLower hc' l) (not_le.2 hlt)

/-- a worker holding the smallest bound of all would drop it -/
theorem Tail.notLeast {n0 : Nat} (T : Tail e who st n0 aw) {t : Nat} (ht : t < e.threads) {n : Nat} (hn : n0 ≤ n) {b : ℚ}
    (hp : ((st n).wk t).pc = .resRead b) (hb : ∀ c ∈ (st n).q.allBounds, b ≤ c) : False := by
  obtain ⟨k, hk, h3, h4, _⟩ := T.step ht hn (by rw [hp]; simp [Going]) (by rw [hp]; simp)
  have hpk : ((st k).wk t).pc = .resRead b := by rw [h3]; exact hp
  have hbk : ∀ c ∈ (st k).q.allBounds, b ≤ c := fun c hc => hb c (T.bounds hn hk hc)
  obtain ⟨bad, all, hg⟩ := T.inv k
  obtain ⟨_, o, ho, hpc⟩ := hg.wk t ht
  simp only [PcOk, hpk] at hpc
  subst hpc
  obtain ⟨l, hl, hl2⟩ := calcLB_spec (st k).q hg.q
  have hmem : b ∈ (st k).q.allBounds := mem_allBounds.2 (Or.inr ⟨t, ho⟩)
  have hle : b ≤ l := by
    rcases hl2 with ⟨h, _⟩ | ⟨h, _⟩
    · rw [h] at hmem; simp at hmem
    · exact hbk l h
  have hnext : ((st (k + 1)).wk t).pc = .resUpd b l := by
    generalize st (k + 1) = s' at h4
    cases h4 with
    | resRead lb l' hp' hl' =>
      rw [hpk] at hp'
      simp only [Pc.resRead.injEq] at hp'
      rw [hl] at hl'
      simp only [Except.ok.injEq] at hl'
      simp [BState.goto, BState.setWk, hp', hl']
    | _ => rename_i h _; first | (rw [hpk] at h; simp at h) | skip
           all_goals simp_all
  obtain ⟨k2, hk2, h32, h42, _⟩ := T.step ht (n := k + 1) (by omega) (by rw [hnext]; simp [Going]) (by rw [hnext]; simp)
  have hp2 : ((st k2).wk t).pc = .resUpd b l := by rw [h32]; exact hnext
  have key : ((st (k2 + 1)).wk t).pc = .push (.pushResult b) ∧ (st (k2 + 1)).res.Closed := by
    generalize st (k2 + 1) = s' at h42
    cases h42 with
    | resUpd lb l' hp' hgt =>
      rw [hp2] at hp'
      simp only [Pc.resUpd.injEq] at hp'
      obtain ⟨rfl, rfl⟩ := hp'
      refine ⟨by simp [BState.goto, BState.setWk], ?_⟩
      show ((st k2).res.updateLowerBound l).1.Closed
      unfold ResState.Closed
      unfold ResState.updateLowerBound at hgt ⊢
      dsimp only [ResState.getBounds] at hgt ⊢
      by_cases hge : l ≥ (st k2).res.lower
      · rw [if_pos hge] at hgt ⊢
        dsimp only at hgt ⊢
        rw [le_min_iff]
        refine ⟨?_, le_refl _⟩
        by_contra hlt
        rw [min_eq_left (le_of_lt (not_le.1 hlt))] at hgt
        linarith
      · rw [if_neg hge] at hgt
        have := not_le.1 hge
        linarith
    | _ => simp_all
  exact T.notClosed ht 4 (k2 + 1) (by omega) (by rw [key.1]; simp [Going]) (by rw [key.1]; simp [Mtsp.dist]) (by rw [key.1]; simp [Mtsp.dist]) key.2

/-- the smallest bound of all is not in the heap -/
theorem Tail.notInHeap {n0 : Nat} (T : Tail e who st n0 aw) (hw : ∀ n, who n < e.threads) {t : Nat} (ht : t < e.threads) {n : Nat} (hn : n0 ≤ n)
    (hgo : Going ((st n).wk t).pc) {b : ℚ} (hb : ∀ c ∈ (st n).q.allBounds, b ≤ c) : ¬ ∃ d ∈ (st n).q.heap, d.lb = b := by
  intro hd
  have hall : ∀ m, n ≤ m → ∃ d ∈ (st m).q.heap, d.lb = b := by
    intro m hm
    induction m, hm using Nat.le_induction with
    | base => exact hd
    | succ m hm ih =>
      rcases T.spin m (le_trans hn hm) with hs | hs
      · rcases hs.heap ih with h | h
        · exact h
        · exact absurd (fun c hc => hb c (T.bounds hn (Nat.le_succ_of_le hm) hc)) (T.notLeast (hw m) (by omega) h)
      · rw [hs]; exact ih
  obtain ⟨m, hm, u, hu, hp, hs⟩ := T.attempt ht hn hgo
  obtain ⟨d, hd1, hd2⟩ := hall m hm
  have hpop : ((st (m + 1)).wk u).pc = .resRead b := by
    have hbm : ∀ c ∈ (st m).q.allBounds, b ≤ c := fun c hc => hb c (T.bounds hn hm hc)
    generalize st (m + 1) = s' at hs
    cases hs with
    | pop d' r l f _ hh hpm hmin =>
      have h1 : b ≤ d'.lb := hbm _ (mem_allBounds.2 (Or.inl ⟨d', by rw [hh]; exact List.mem_cons_self, rfl⟩))
      have h2 : d'.lb ≤ b := by
        rw [hh] at hd1
        rcases List.mem_cons.1 hd1 with rfl | hd1
        · exact hd2.le
        · rw [← hd2]; exact hmin d (hpm.mem_iff.2 hd1)
      have : d'.lb = b := le_antisymm h2 h1
      simp [BState.setWk, this]
    | blocked _ hh => rw [hh] at hd1; simp at hd1
    | _ => simp_all
  exact T.notLeast hu (n := m + 1) (by omega) hpop fun c hc => hb c (T.bounds hn (by omega) hc)

/-- the smallest bound of all disappears -/
theorem Tail.vanish {n0 : Nat} (T : Tail e who st n0 aw) (hw : ∀ n, who n < e.threads) {t : Nat} (ht : t < e.threads)
    (hgo : ∀ n, n0 ≤ n → Going ((st n).wk t).pc)
    (hend : ∀ u < e.threads, ∀ n, n0 ≤ n → ¬ Going ((st n).wk u).pc → ((st n).wk u).pc = .left) {n : Nat} (hn : n0 ≤ n) {b : ℚ}
    (hb : ∀ c ∈ (st n).q.allBounds, b ≤ c) : ∃ m, n ≤ m ∧ b ∉ (st m).q.allBounds := by
  have hnh : ∀ m, n ≤ m → ¬ ∃ d ∈ (st m).q.heap, d.lb = b := fun m hm =>
    T.notInHeap hw ht (le_trans hn hm) (hgo m (le_trans hn hm)) (fun c hc => hb c (T.bounds hn hm hc))
  -- once a worker does not hold it, it never will again
  have hkeep : ∀ (u m k : Nat), n ≤ m → m ≤ k → (st m).q.workedOn[u]? ≠ some (some b) → (st k).q.workedOn[u]? ≠ some (some b) := by
    intro u m k hm hk h
    induction k, hk using Nat.le_induction with
    | base => exact h
    | succ k hk ih =>
      intro hc
      rcases T.spin k (by omega) with hs | hs
      · rcases hs.gain hc with h1 | h1
        · exact ih h1
        · exact hnh k (by omega) h1
      · rw [hs] at hc; exact ih hc
  have hone : ∀ u < e.threads, ∃ m, n ≤ m ∧ ∀ k, m ≤ k → (st k).q.workedOn[u]? ≠ some (some b) := by
    intro u hu
    have : ∃ m, n ≤ m ∧ (st m).q.workedOn[u]? ≠ some (some b) := by
      by_cases hg : Going ((st n).wk u).pc
      · obtain ⟨m, hm, hp⟩ := T.toPop hu _ n hn hg (le_refl _)
        refine ⟨m, hm, ?_⟩
        obtain ⟨bad, all, hi⟩ := T.inv m
        obtain ⟨_, o, ho, hpc⟩ := hi.wk u hu
        simp only [PcOk, hp] at hpc
        rw [ho, hpc]; simp
      · refine ⟨n, le_refl _, ?_⟩
        obtain ⟨bad, all, hi⟩ := T.inv n
        obtain ⟨_, o, ho, hpc⟩ := hi.wk u hu
        simp only [PcOk, hend u hu n hn hg] at hpc
        rw [ho, hpc]; simp
    obtain ⟨m, hm, h⟩ := this
    exact ⟨m, hm, fun k hk => hkeep u m k hm hk h⟩
  have hmax : ∀ T', T' ≤ e.threads → ∃ m, n ≤ m ∧ ∀ u < T', (st m).q.workedOn[u]? ≠ some (some b) := by
    intro T'
    induction T' with
    | zero => intro _; exact ⟨n, le_refl _, by simp⟩
    | succ T' ih =>
      intro h
      obtain ⟨m1, h1, h2⟩ := ih (by omega)
      obtain ⟨m2, h3, h4⟩ := hone T' (by omega)
      refine ⟨max m1 m2, by omega, fun u hu => ?_⟩
      by_cases hu' : u = T'
      · subst hu'; exact h4 _ (le_max_right _ _)
      · exact hkeep u m1 _ h1 (le_max_left _ _) (h2 u (by omega))
  obtain ⟨m, hm, h⟩ := hmax e.threads (le_refl _)
  refine ⟨m, hm, fun hc => ?_⟩
  rcases mem_allBounds.1 hc with h1 | ⟨u, hu⟩
  · exact hnh m hm h1
  · obtain ⟨bad, all, hi⟩ := T.inv m
    have : u < e.threads := by rw [← hi.len]; exact lt_length_of_some hu
    exact h u this hu

/-- there is always a bound in play -/
theorem Tail.nonempty {n0 : Nat} (T : Tail e who st n0 aw) {t : Nat} (ht : t < e.threads) {n : Nat} (hn : n0 ≤ n)
    (hgo : Going ((st n).wk t).pc) : (st n).q.allBounds ≠ [] := by
  intro hb
  obtain ⟨m, hm, u, hu, hp, hs⟩ := T.attempt ht hn hgo
  have hbm : ∀ b, b ∉ (st m).q.allBounds := fun b h => by
    have := T.bounds hn hm h; rw [hb] at this; simp at this
  obtain ⟨bad, all, hi⟩ := T.inv m
  generalize st (m + 1) = s' at hs
  cases hs with
  | pop d' r l f _ hh hpm hmin => exact hbm d'.lb (mem_allBounds.2 (Or.inl ⟨d', by rw [hh]; exact List.mem_cons_self, rfl⟩))
  | blocked _ hh hc =>
    rw [hi.q.count] at hc
    obtain ⟨v, hv⟩ := activeCount_pos hc
    obtain ⟨u, hu⟩ := List.mem_iff_getElem?.1 hv
    exact hbm v (mem_allBounds.2 (Or.inr ⟨u, hu⟩))
  | _ => simp_all

/-- no worker is going in the tail -/
theorem Tail.contradiction {n0 : Nat} (T : Tail e who st n0 aw) (hw : ∀ n, who n < e.threads) {t : Nat} (ht : t < e.threads)
    (hgo : ∀ n, n0 ≤ n → Going ((st n).wk t).pc)
    (hend : ∀ u < e.threads, ∀ n, n0 ≤ n → ¬ Going ((st n).wk u).pc → ((st n).wk u).pc = .left) : False := by
  have : ∀ (k n : Nat), n0 ≤ n → (st n).q.allBounds.toFinset.card ≤ k → False := by
    intro k
    induction k with
    | zero =>
      intro n hn hk
      have := T.nonempty ht hn (hgo n hn)
      rw [Nat.le_zero, Finset.card_eq_zero, List.toFinset_eq_empty_iff] at hk
      exact this hk
    | succ k ih =>
      intro n hn hk
      have hne := T.nonempty ht hn (hgo n hn)
      obtain ⟨b, hb1, hb2⟩ := Finset.exists_min_image (st n).q.allBounds.toFinset id (by
        rw [Finset.nonempty_iff_ne_empty]; intro h; exact hne (List.toFinset_eq_empty_iff _ |>.1 h))
      obtain ⟨m, hm, hnot⟩ := T.vanish hw ht hgo hend hn (b := b) (fun c hc => hb2 c (List.mem_toFinset.2 hc))
      refine ih m (le_trans hn hm) ?_
      have : (st m).q.allBounds.toFinset.card < (st n).q.allBounds.toFinset.card := by
        refine Finset.card_lt_card ⟨fun c hc => List.mem_toFinset.2 (T.bounds hn hm (List.mem_toFinset.1 hc)), fun h => ?_⟩
        exact hnot (List.mem_toFinset.1 (h hb1))
      omega
  exact this _ n0 (le_refl _) (le_refl _)

/-- An execution that goes on for ever, in which a step may also leave the search as it is (a worker sleeps, or notifies others). -/
structure LazyRun (e : BEnv) (r : ResState) (who : Nat → Nat) (inp : Nat → Inp) (st : Nat → BState) : Prop where
  start : BState.start e r = .ok (st 0)
  step : ∀ n, st (n + 1) = (st n).step e (who n) (inp n) ∨ st (n + 1) = st n
  worker : ∀ n, who n < e.threads
  ok : ∀ n, (inp n).Ok e (st n) (who n)

theorem FairRun.lazy (f : FairRun e r who inp st) : LazyRun e r who inp st := ⟨f.start, fun n => Or.inl (f.step n), f.worker, f.ok⟩

theorem LazyRun.ginv (g : e.Good rows w starts ends) (hst : e.Started) (f : LazyRun e r who inp st) (n : Nat) :
    0 < e.threads ∧ ∃ all, GInv e (∃ k < n, (inp k).ans = .error) (st n) all := by
  induction n with
  | zero =>
    obtain ⟨h1, _, _, _, h2, h3⟩ := start_inv g f.start
    exact ⟨h2, [], h1.bad_mono False.elim⟩
  | succ n ih =>
    obtain ⟨h0, all, h1⟩ := ih
    rcases f.step n with hs | hs
    · obtain ⟨all', h3⟩ := step_ginv g hst h1 h0 (f.worker n) (f.ok n)
      rw [← hs] at h3
      refine ⟨h0, all', h3.bad_mono ?_⟩
      rintro (⟨k, hk, he⟩ | he)
      · exact ⟨k, by omega, he⟩
      · exact ⟨n, by omega, he⟩
    · rw [hs]
      exact ⟨h0, all, h1.bad_mono fun ⟨k, hk, he⟩ => ⟨k, by omega, he⟩⟩

theorem LazyRun.inv (g : e.Good rows w starts ends) (hst : e.Started) (hcp : e.CombsProgress) {S : Finset LinCon}
    (hS : ∀ y, ∀ c ∈ separate e y, c ∈ S) (f : LazyRun e r who inp st)
    (hrow : ∀ n, (inp n).OnRows e (st n) (who n)) (n : Nat) :
    0 < e.threads ∧ (∃ all, GInv e (∃ k < n, (inp k).ans = .error) (st n) all) ∧ ∀ u < e.threads, Novel e S ((st n).wk u) := by
  obtain ⟨h0, hg⟩ := f.ginv g hst n
  refine ⟨h0, hg, ?_⟩
  induction n with
  | zero =>
    obtain ⟨h1, _, _, _, h2, h3⟩ := start_inv g f.start
    exact fun u _ => ⟨fun cs op hp => by rw [h3 u] at hp; simp at hp, by simp only [PcRows, h3 u]⟩
  | succ n ih =>
    obtain ⟨all, h1⟩ := (f.ginv g hst n).2
    have h2 := ih ⟨all, h1⟩
    rcases f.step n with hs | hs
    · obtain ⟨h4, _⟩ := step_mu g hst hcp hS h1 h0 h2 (f.worker n) (f.ok n) (hrow n)
      rw [← hs] at h4
      exact h4
    · rw [hs]; exact h2

theorem LazyRun.mu_le (g : e.Good rows w starts ends) (hst : e.Started) (hcp : e.CombsProgress) {S : Finset LinCon}
    (hS : ∀ y, ∀ c ∈ separate e y, c ∈ S) (f : LazyRun e r who inp st)
    (hrow : ∀ n, (inp n).OnRows e (st n) (who n)) (n : Nat) :
    (st (n + 1)).mu S e.B e.threads < (st n).mu S e.B e.threads ∨
      ((st (n + 1)).mu S e.B e.threads ≤ (st n).mu S e.B e.threads ∧ (st (n + 1) = (st n).step e (who n) (inp n) → Spin e (st n) (who n) (st (n + 1)))) := by
  obtain ⟨h0, ⟨all, h1⟩, h2⟩ := f.inv g hst hcp hS hrow n
  by_cases hs : st (n + 1) = (st n).step e (who n) (inp n)
  · have := (step_mu g hst hcp hS h1 h0 h2 (f.worker n) (f.ok n) (hrow n)).2
    rw [← hs] at this
    rcases this with h | ⟨h, h'⟩
    · exact Or.inl h
    · exact Or.inr ⟨h, fun _ => h'⟩
  · exact Or.inr ⟨by rw [(f.step n).resolve_left hs], fun h => absurd h hs⟩

/-- from some time on all steps spin -/
theorem LazyRun.spins (g : e.Good rows w starts ends) (hst : e.Started) (hcp : e.CombsProgress) (f : LazyRun e r who inp st)
    (hrow : ∀ n, (inp n).OnRows e (st n) (who n)) :
    ∃ n0, ∀ n, n0 ≤ n → st (n + 1) = (st n).step e (who n) (inp n) → Spin e (st n) (who n) (st (n + 1)) := by
  set S : Finset LinCon := (cuts_finite g).toFinset with hSdef
  have hS : ∀ y, ∀ c ∈ separate e y, c ∈ S := fun y c hc => (Set.Finite.mem_toFinset _).2 ⟨y, hc⟩
  have key : ∀ (k n : Nat), (st n).mu S e.B e.threads ≤ k → ∃ n0, ∀ n, n0 ≤ n → st (n + 1) = (st n).step e (who n) (inp n) →
      Spin e (st n) (who n) (st (n + 1)) := by
    intro k
    induction k with
    | zero =>
      intro n hk
      refine ⟨n, fun m hm => ?_⟩
      have hz : (st m).mu S e.B e.threads = 0 := by
        induction m, hm using Nat.le_induction with
        | base => omega
        | succ m hm ih => rcases f.mu_le g hst hcp hS hrow m with h | ⟨h, _⟩ <;> omega
      rcases f.mu_le g hst hcp hS hrow m with h | ⟨_, h⟩
      · omega
      · exact h
    | succ k ih =>
      intro n hk
      by_cases hall : ∀ m, n ≤ m → st (m + 1) = (st m).step e (who m) (inp m) → Spin e (st m) (who m) (st (m + 1))
      · exact ⟨n, hall⟩
      · push Not at hall
        obtain ⟨m, hm, hms, hns⟩ := hall
        have hle : (st m).mu S e.B e.threads ≤ (st n).mu S e.B e.threads := by
          clear hms hns
          induction m, hm using Nat.le_induction with
          | base => exact le_refl _
          | succ m hm ih' => rcases f.mu_le g hst hcp hS hrow m with h | ⟨h, _⟩ <;> omega
        rcases f.mu_le g hst hcp hS hrow m with h | ⟨_, h⟩
        · exact ih (m + 1) (by omega)
        · exact absurd (h hms) hns
  exact key _ 0 (le_refl _)

/-- the next step of a worker -/
theorem FairRun.next (f : FairRun e r who inp st) {t : Nat} (ht : t < e.threads) (n : Nat) :
    ∃ k, n ≤ k ∧ who k = t ∧ (st k).wk t = (st n).wk t := by
  obtain ⟨k, hk, hw⟩ := f.fair t ht n
  classical
  have hex : ∃ k, n ≤ k ∧ who k = t := ⟨k, hk, hw⟩
  refine ⟨Nat.find hex, (Nat.find_spec hex).1, (Nat.find_spec hex).2, ?_⟩
  have hmin : ∀ j, n ≤ j → j < Nat.find hex → who j ≠ t := fun j h1 h2 h3 => Nat.find_min hex h2 ⟨h1, h3⟩
  have : ∀ d, n + d ≤ Nat.find hex → (st (n + d)).wk t = (st n).wk t := by
    intro d
    induction d with
    | zero => intro _; rfl
    | succ d ih =>
      intro h
      rw [← ih (by omega), ← Nat.add_assoc, f.step, step_other _ _ (Ne.symm (hmin (n + d) (by omega) (by omega)))]
  have h1 := (Nat.find_spec hex).1
  have := this (Nat.find hex - n) (by omega)
  rwa [Nat.add_sub_cancel' h1] at this

/-- the tail of a fair execution in which nobody sleeps -/
theorem FairRun.tail (g : e.Good rows w starts ends) (hst : e.Started) (hcp : e.CombsProgress) (f : FairRun e r who inp st)
    (hrow : ∀ n, (inp n).OnRows e (st n) (who n)) : ∃ n0, Tail e who st n0 fun _ _ => True := by
  obtain ⟨n0, h⟩ := f.lazy.spins g hst hcp hrow
  have hspin : ∀ n, n0 ≤ n → Spin e (st n) (who n) (st (n + 1)) := fun n hn => h n hn (f.step n)
  refine ⟨n0, fun n hn => Or.inl (hspin n hn), fun n => ?_, fun t ht n hn _ _ => ?_, fun _ _ _ _ _ _ => trivial,
    fun n hn ⟨t, ht, hg⟩ => ⟨n, le_refl _, t, ht, hg, trivial⟩⟩
  · obtain ⟨_, all, h1⟩ := f.lazy.ginv g hst n
    exact ⟨_, all, h1⟩
  · obtain ⟨k, h1, h2, h3⟩ := f.next ht n
    exact ⟨k, h1, h3, h2 ▸ hspin k (le_trans hn h1), fun _ => trivial⟩

/-- every fair execution ends -/
theorem FairRun.terminates (g : e.Good rows w starts ends) (hst : e.Started) (hcp : e.CombsProgress) (f : FairRun e r who inp st)
    (hrow : ∀ n, (inp n).OnRows e (st n) (who n)) :
    ∃ n, (∀ t < e.threads, ((st n).wk t).pc = .left) ∨
      ∃ t < e.threads, ((st n).wk t).pc = .crashed (.logic "Unexpected error happened while solving LP") ∧ ∃ k < n, (inp k).ans = .error := by
  obtain ⟨n0, T⟩ := f.tail g hst hcp hrow
  by_contra hno
  push Not at hno
  obtain ⟨⟨t, ht, hleft⟩, hcr⟩ := hno n0
  -- nobody crashes
  have hnc : ∀ n, ∀ u < e.threads, ∀ er, ((st n).wk u).pc ≠ .crashed er := by
    intro n u hu er hp
    obtain ⟨_, all, h1⟩ := f.lazy.ginv g hst n
    obtain ⟨_, o, _, hpc⟩ := h1.wk u hu
    simp only [PcOk, hp] at hpc
    obtain ⟨rfl, k, hk, hke⟩ := hpc
    exact (hno n).2 u hu hp k hk hke
  refine T.contradiction f.worker ht (fun n hn => ?_) (fun u hu n _ hg => ?_)
  · induction n, hn using Nat.le_induction with
    | base => exact ⟨hleft, hnc n0 t ht⟩
    | succ n hn ih =>
      by_cases hwt : who n = t
      · exact ((T.spin n hn).elim (fun h => ((hwt ▸ h).dist ih).1) fun h => by rw [h]; exact ih)
      · rw [f.step, step_other _ _ (Ne.symm hwt)]; exact ih
  · by_contra hc
    exact hg ⟨hc, hnc n u hu⟩

end
end Mtsp
