import Verif.Spec.Blocking
import Verif.Proof.Deadline
import Verif.Proof.Termination

/-! Invariants of the search with sleeping workers, and its tail. -/

namespace Mtsp

section
variable {e : BEnv} {rows : Nat} {w : Weights} {starts ends : List Nat} {r : ResState} {who : Nat → Nat} {inp : Nat → Inp} {st : Nat → KState}

/-- invariant of sleeping and notifying -/
structure SleepInv (e : BEnv) (k : KState) : Prop where
  asleep : ∀ t < e.threads, k.sl t = .asleep → (k.s.wk t).pc = .pop
  notify : ∀ t < e.threads, ∀ j, k.sl t = .notify j → j ≠ 0 ∧ (k.s.wk t).pc = .done
  notifyAll : ∀ t < e.threads, k.sl t = .notifyAll → (k.s.wk t).pc = .left ∨ (k.s.wk t).pc = .head
  /-- when there will be no more work, the sleeping workers are going to be told -/
  wake : (∃ u < e.threads, k.sl u = .asleep) → (k.s.q.cleared = true ∨ (k.s.q.heap = [] ∧ k.s.q.count = 0)) →
    ∃ t < e.threads, k.sl t = .notifyAll
  /-- not all workers sleep -/
  act : (∃ u < e.threads, k.sl u = .asleep) → ∃ t < e.threads, k.sl t ≠ .asleep ∧ ((k.s.wk t).pc ≠ .left ∨ k.sl t = .notifyAll)

/-- a step of a worker in `Pop` that has to wait changes nothing -/
theorem waits_step {s : BState} {t : Nat} (h : s.waits e t) (i : Inp) : s.step e t i = s := by
  obtain ⟨h1, h2⟩ := h
  simp only [BState.step, h1]
  rcases hq : s.q.pop e.H t with ⟨o, q⟩
  rw [hq] at h2
  dsimp only at h2
  subst h2
  rfl

/-- the search does what it did without sleeping, or nothing -/
theorem KStep.lazy {k k' : KState} {t : Nat} {i : Inp} (h : KStep e t i k k') : k'.s = k.s.step e t i ∨ k'.s = k.s := by
  cases h with
  | work => exact Or.inl rfl
  | _ => exact Or.inr rfl

/-- the state of another worker changes only if it is woken up -/
theorem KStep.other {k k' : KState} {t u : Nat} {i : Inp} (h : KStep e t i k k') (hu : u ≠ t) (ha : k.sl u ≠ .asleep) :
    k'.sl u = k.sl u := by
  cases h with
  | dream => rfl
  | wakeOne w j h1 h2 h3 =>
    dsimp only
    rw [Function.update_of_ne hu, Function.update_of_ne]
    rintro rfl
    exact ha h3
  | wakeAll => dsimp only; rw [Function.update_of_ne hu, if_neg ha]
  | _ => dsimp only; rw [Function.update_of_ne hu]

theorem KStep.wk_other {k k' : KState} {t u : Nat} {i : Inp} (h : KStep e t i k k') (hu : u ≠ t) : k'.s.wk u = k.s.wk u := by
  rcases h.lazy with h | h
  · rw [h, step_other _ _ hu]
  · rw [h]

/-- what the steps of the search do to the queue, as far as sleeping workers are concerned -/
theorem step_queue {bad : Prop} {s : BState} {all : List LinCon} (h : GInv e bad s all) {t : Nat} (ht : t < e.threads) (i : Inp)
    (hw : ¬ s.waits e t) :
    ((s.step e t i).q.cleared = true → s.q.cleared = true ∨ slpAfter e s t = .notifyAll) ∧
    ((s.step e t i).q.heap = [] → (s.step e t i).q.count = 0 →
      (s.q.cleared = true ∨ (s.q.heap = [] ∧ s.q.count = 0)) ∨ slpAfter e s t = .notifyAll) ∧
    (((s.step e t i).wk t).pc = .left → (s.wk t).pc = .left ∨
      (s.q.cleared = true ∨ (s.q.heap = [] ∧ s.q.count = 0)) ∨ slpAfter e s t = .notifyAll) := by
  have hset : ∀ (s : BState) (w' : Worker), (s.setWk t w').wk t = w' := fun s w' => by simp [BState.setWk]
  have hgo : ∀ (s : BState) (pc : Pc), ((s.goto t pc).wk t).pc = pc := fun s pc => by simp [BState.goto, BState.setWk]
  have hqs : ∀ (s : BState) (w' : Worker), (s.setWk t w').q = s.q := fun s w' => rfl
  have hqg : ∀ (s : BState) (pc : Pc), (s.goto t pc).q = s.q := fun s pc => rfl
  obtain ⟨_, o, ho, hpc⟩ := h.wk t ht
  have owner : ∀ v, o = some v → 0 < s.q.count := by
    rintro v rfl
    rw [h.q.count]
    unfold activeCount
    rw [List.countP_pos_iff]
    exact ⟨_, List.mem_of_getElem? ho, rfl⟩
  have same : ∀ {P : Prop}, (s.step e t i).q = s.q → ((s.step e t i).wk t).pc ≠ .left → ((s.step e t i).q.cleared = true → s.q.cleared = true ∨ slpAfter e s t = .notifyAll) ∧
    ((s.step e t i).q.heap = [] → (s.step e t i).q.count = 0 →
      (s.q.cleared = true ∨ (s.q.heap = [] ∧ s.q.count = 0)) ∨ slpAfter e s t = .notifyAll) ∧
    (((s.step e t i).wk t).pc = .left → P ∨
      (s.q.cleared = true ∨ (s.q.heap = [] ∧ s.q.count = 0)) ∨ slpAfter e s t = .notifyAll) := by
    intro P h1 h2
    rw [h1]
    exact ⟨Or.inl, fun h3 h4 => Or.inl (Or.inr ⟨h3, h4⟩), fun h3 => absurd h3 h2⟩
  have heval : ∀ (wk : Worker) (lb ub : ℚ) (y rc : Nat → ℚ), (wk.evaluate e lb ub y rc).pc ≠ .left := by
    intro wk lb ub y rc
    unfold Worker.evaluate
    split
    · simp
    · split
      · simp
      · dsimp only
        split
        · simp
        · split
          · simp
          · split <;> simp
  cases hp : (s.wk t).pc with
  | head => apply same <;> (simp only [BState.step, hp]; split) <;> simp [hqg, hgo]
  | headUpd l =>
    apply same <;> (simp only [BState.step, hp]; repeat' split) <;> simp [hqg, hgo]
  | clear =>
    have : slpAfter e s t = .notifyAll := by simp only [slpAfter, hp]
    exact ⟨fun _ => Or.inr this, fun _ _ => Or.inr this, fun _ => Or.inr (Or.inr this)⟩
  | pop =>
    simp only [BState.step, hp]
    rcases pop_cases e.H s.q t h.q (by rw [h.len]; exact ht) with ⟨_, _, _, ep⟩ | ⟨hc, ep⟩ | ⟨hc, d, r, l, _, _, _, _, ep⟩
    · exact absurd ⟨hp, by rw [ep]⟩ hw
    · rw [ep]
      exact ⟨Or.inl, fun _ _ => Or.inl hc, fun _ => Or.inr (Or.inl hc)⟩
    · rw [ep]
      dsimp only
      split
      · split
        · rw [hgo, hqg]; exact ⟨fun h => Or.inl h, fun _ h => by simp at h, by simp⟩
        · rw [hset, hqs]; exact ⟨fun h => Or.inl h, fun _ h => by simp at h, by simp⟩
      · split
        · rw [hgo, hqg]; exact ⟨fun h => Or.inl h, fun _ h => by simp at h, by simp⟩
        · rw [hset, hqs]; exact ⟨fun h => Or.inl h, fun _ h => by simp at h, by simp⟩
  | resRead lb => apply same <;> (simp only [BState.step, hp]; split) <;> simp [hqg, hgo]
  | resUpd lb l => apply same <;> (simp only [BState.step, hp]; repeat' split) <;> simp [hqg, hgo]
  | read lb =>
    apply same <;> (simp only [BState.step, hp]; repeat' split) <;> (try simp [hqg, hgo, hqs, hset])
    all_goals (split <;> simp)
  | compact lb => apply same <;> (simp only [BState.step, hp]; repeat' split) <;> simp [hqg, hgo]
  | solve lb => apply same <;> (simp only [BState.step, hp]; split) <;> simp [hqg, hgo]
  | raise lb y rc =>
    have hu : ∀ o q, s.q.updateCurrentLowerBound t lb = (o, q) → q.cleared = s.q.cleared ∧ q.heap = s.q.heap ∧ q.count = s.q.count := by
      intro o q hq
      unfold QState.updateCurrentLowerBound at hq
      split at hq
      · simp only [Prod.mk.injEq] at hq; obtain ⟨_, rfl⟩ := hq; exact ⟨rfl, rfl, rfl⟩
      · simp only [Prod.mk.injEq] at hq; obtain ⟨_, rfl⟩ := hq; exact ⟨rfl, rfl, rfl⟩
      · split at hq <;> (simp only [Prod.mk.injEq] at hq; obtain ⟨_, rfl⟩ := hq; exact ⟨rfl, rfl, rfl⟩)
    simp only [BState.step, hp]
    split
    · rename_i hq
      obtain ⟨h1, h2, h3⟩ := hu _ _ hq
      rw [hgo, hqg]; dsimp only; rw [h1, h2, h3]
      exact ⟨Or.inl, fun h3 h4 => Or.inl (Or.inr ⟨h3, h4⟩), by simp⟩
    · rename_i hq
      obtain ⟨h1, h2, h3⟩ := hu _ _ hq
      rw [hgo, hqg]; dsimp only; rw [h1, h2, h3]
      exact ⟨Or.inl, fun h3 h4 => Or.inl (Or.inr ⟨h3, h4⟩), by simp⟩
  | getLB lb y rc => apply same <;> (simp only [BState.step, hp]; split) <;> simp [hqg, hgo]
  | updLB lb l y rc => apply same <;> (simp only [BState.step, hp]; split) <;> simp [hqg, hgo, hqs, hset, heval]
  | exploit lb y rc => apply same <;> (simp only [BState.step, hp]; split) <;> simp [hqg, hgo, hqs, hset, heval]
  | pushCuts cs op => apply same <;> (simp only [BState.step, hp]; split) <;> simp [hqg, hgo]
  | push op =>
    simp only [PcOk, hp] at hpc
    have hov : ∃ v, o = some v := by
      cases op <;> simp only [OpOk] at hpc
      · exact ⟨_, hpc⟩
      · exact ⟨_, hpc.1⟩
      · exact ⟨_, hpc.1⟩
    obtain ⟨v, hv⟩ := hov
    obtain ⟨nodes, q', hq, _, _, hcl, hct, _⟩ := op_step (H := e.H) h.q ho hpc
    simp only [BState.step, hp, hq]
    rw [hgo, hqg]
    dsimp only
    rw [hcl, hct]
    have := owner v hv
    exact ⟨Or.inl, fun _ h => by omega, by simp⟩
  | getUpper lb y => apply same <;> (simp only [BState.step, hp]; split) <;> simp [hqg, hgo]
  | setUpper lb y => apply same <;> (simp only [BState.step, hp]; split) <;> simp [hqg, hgo]
  | done =>
    simp only [PcOk, hp] at hpc
    obtain ⟨v, rfl⟩ := hpc
    have hd : s.q.notifyDone t = (.ok .unit, { s.q with workedOn := s.q.workedOn.set t none, count := s.q.count - 1 }) := by
      unfold QState.notifyDone
      rw [ho]
    have hsl : slpAfter e s t = if decide (s.q.count - 1 = 0) && !s.q.cleared && s.q.heap.isEmpty then .notifyAll else .awake := by
      simp only [slpAfter, hp, hd]
    simp only [BState.step, hp, hd]
    rw [hgo, hqg]
    dsimp only
    refine ⟨Or.inl, fun h1 h2 => ?_, by simp⟩
    by_cases hcl : s.q.cleared = true
    · exact Or.inl (Or.inl hcl)
    · right
      rw [hsl]
      simp [h1, h2, hcl]
  | left =>
    have : s.step e t i = s := by simp only [BState.step, hp]
    rw [this]
    exact ⟨Or.inl, fun h1 h2 => Or.inl (Or.inr ⟨h1, h2⟩), fun _ => Or.inl rfl⟩
  | crashed er =>
    have : s.step e t i = s := by simp only [BState.step, hp]
    rw [this]
    exact ⟨Or.inl, fun h1 h2 => Or.inl (Or.inr ⟨h1, h2⟩), fun h => by rw [hp] at h; simp at h⟩

/-- what a worker owes fits its next position -/
theorem slpAfter_spec {bad : Prop} {s : BState} {all : List LinCon} (h : GInv e bad s all) {t : Nat} (ht : t < e.threads) (i : Inp) :
    slpAfter e s t = .awake ∨ (∃ j, j ≠ 0 ∧ slpAfter e s t = .notify j ∧ ((s.step e t i).wk t).pc = .done) ∨
      (slpAfter e s t = .notifyAll ∧ (((s.step e t i).wk t).pc = .left ∨ ((s.step e t i).wk t).pc = .head)) := by
  have hgo : ∀ (s : BState) (pc : Pc), ((s.goto t pc).wk t).pc = pc := fun s pc => by simp [BState.goto, BState.setWk]
  obtain ⟨_, o, ho, hpc⟩ := h.wk t ht
  cases hp : (s.wk t).pc with
  | clear =>
    right; right
    simp only [slpAfter, BState.step, hp, hgo]
    simp
  | push op =>
    simp only [PcOk, hp] at hpc
    obtain ⟨nodes, q', hq, _⟩ := op_step (H := e.H) h.q ho hpc
    have hk : pushCount op ≠ 0 := by cases op <;> simp_all [pushCount, OpOk]
    by_cases hc : (!s.q.cleared && s.q.heap.isEmpty && decide (s.q.count > 0)) = true
    · right; left
      refine ⟨pushCount op, hk, ?_, ?_⟩
      · simp only [slpAfter, hp, hq, hc, if_true]
        simp [slpNotify, hk]
      · simp only [BState.step, hp, hq, hgo]
    · left
      simp only [slpAfter, hp, hq]
      rw [if_neg hc]
  | done =>
    simp only [PcOk, hp] at hpc
    obtain ⟨v, rfl⟩ := hpc
    have hd : s.q.notifyDone t = (.ok .unit, { s.q with workedOn := s.q.workedOn.set t none, count := s.q.count - 1 }) := by
      unfold QState.notifyDone
      rw [ho]
    by_cases hc : (decide (s.q.count - 1 = 0) && !s.q.cleared && s.q.heap.isEmpty) = true
    · right; right
      refine ⟨?_, Or.inr ?_⟩
      · simp only [slpAfter, hp, hd]; rw [if_pos hc]
      · simp only [BState.step, hp, hd, hgo]
    · left
      simp only [slpAfter, hp, hd]
      rw [if_neg hc]
  | _ => left; simp only [slpAfter, hp]

theorem SleepInv.start (s : BState) : SleepInv e ⟨s, fun _ => .awake⟩ :=
  ⟨fun _ _ h => by simp at h, fun _ _ _ h => by simp at h, fun _ _ h => by simp at h, fun ⟨_, _, h⟩ => by simp at h, fun ⟨_, _, h⟩ => by simp at h⟩

theorem SleepInv.step {bad : Prop} {all : List LinCon} {k k' : KState} (h : GInv e bad k.s all) (hk : SleepInv e k) {t : Nat} (ht : t < e.threads)
    {i : Inp} (hs : KStep e t i k k') : SleepInv e k' := by
  cases hs with
  | sleep ha hw =>
    have hq : k.s.q.cleared = false ∧ k.s.q.heap = [] ∧ 0 < k.s.q.count := by
      rcases pop_cases e.H k.s.q t h.q (by rw [h.len]; exact ht) with ⟨h1, h2, h3, _⟩ | ⟨_, ep⟩ | ⟨_, d, r, l, _, _, _, _, ep⟩
      · exact ⟨h1, h2, h3⟩
      · have := hw.2; rw [ep] at this; simp at this
      · have := hw.2; rw [ep] at this; simp at this
    refine ⟨fun u hu h1 => ?_, fun u hu j h1 => ?_, fun u hu h1 => ?_, fun _ h1 => ?_, fun _ => ?_⟩
    · by_cases hut : u = t
      · subst hut; exact hw.1
      · dsimp only at h1; rw [Function.update_of_ne hut] at h1; exact hk.asleep u hu h1
    · by_cases hut : u = t
      · subst hut; simp at h1
      · dsimp only at h1; rw [Function.update_of_ne hut] at h1; exact hk.notify u hu j h1
    · by_cases hut : u = t
      · subst hut; simp at h1
      · dsimp only at h1; rw [Function.update_of_ne hut] at h1; exact hk.notifyAll u hu h1
    · dsimp only at h1
      rw [hq.1] at h1
      rcases h1 with h1 | ⟨_, h1⟩
      · simp at h1
      · omega
    · -- somebody owns a node
      have hc := hq.2.2
      rw [h.q.count] at hc
      obtain ⟨v, hv⟩ := activeCount_pos hc
      obtain ⟨u, hu⟩ := List.mem_iff_getElem?.1 hv
      have hut : u < e.threads := by rw [← h.len]; exact lt_length_of_some hu
      obtain ⟨_, o, ho, hpc⟩ := h.wk u hut
      rw [hu] at ho
      simp only [Option.some.injEq] at ho
      subst ho
      have hnp : (k.s.wk u).pc ≠ .pop := fun hp => by simp [PcOk, hp] at hpc
      have hnt : u ≠ t := by rintro rfl; exact hnp hw.1
      have hnl : (k.s.wk u).pc ≠ .left := fun hp => by simp [PcOk, hp] at hpc
      refine ⟨u, hut, ?_, Or.inl hnl⟩
      dsimp only
      rw [Function.update_of_ne hnt]
      exact fun hs => hnp (hk.asleep u hut hs)
  | work ha hw =>
    obtain ⟨q1, q2, q3⟩ := step_queue h ht i hw
    have hsl := slpAfter_spec h ht i
    have hnas : slpAfter e k.s t ≠ .asleep := by
      rcases hsl with h | ⟨j, _, h, _⟩ | ⟨h, _⟩ <;> rw [h] <;> simp
    have hold : (∃ u < e.threads, Function.update k.sl t (slpAfter e k.s t) u = .asleep) → ∃ u < e.threads, k.sl u = .asleep := by
      rintro ⟨u, hu, h1⟩
      by_cases hut : u = t
      · subst hut; rw [Function.update_self] at h1; exact absurd h1 hnas
      · rw [Function.update_of_ne hut] at h1; exact ⟨u, hu, h1⟩
    have hkeep : (∃ u < e.threads, k.sl u = .notifyAll) → ∃ u < e.threads, Function.update k.sl t (slpAfter e k.s t) u = .notifyAll := by
      rintro ⟨u, hu, h1⟩
      have hut : u ≠ t := by rintro rfl; rw [ha] at h1; simp at h1
      exact ⟨u, hu, by rw [Function.update_of_ne hut]; exact h1⟩
    have hself : slpAfter e k.s t = .notifyAll → ∃ u < e.threads, Function.update k.sl t (slpAfter e k.s t) u = .notifyAll :=
      fun h1 => ⟨t, ht, by rw [Function.update_self]; exact h1⟩
    refine ⟨fun u hu h1 => ?_, fun u hu j h1 => ?_, fun u hu h1 => ?_, fun h0 h1 => ?_, fun h0 => ?_⟩
    · by_cases hut : u = t
      · subst hut; dsimp only at h1; rw [Function.update_self] at h1; exact absurd h1 hnas
      · dsimp only at h1 ⊢; rw [Function.update_of_ne hut] at h1; rw [step_other _ _ hut]; exact hk.asleep u hu h1
    · by_cases hut : u = t
      · subst hut; dsimp only at h1 ⊢; rw [Function.update_self] at h1
        rcases hsl with h2 | ⟨j', h3, h2, h4⟩ | ⟨h2, _⟩
        · rw [h2] at h1; simp at h1
        · rw [h2] at h1; simp only [Slp.notify.injEq] at h1; exact ⟨h1 ▸ h3, h4⟩
        · rw [h2] at h1; simp at h1
      · dsimp only at h1 ⊢; rw [Function.update_of_ne hut] at h1; rw [step_other _ _ hut]; exact hk.notify u hu j h1
    · by_cases hut : u = t
      · subst hut; dsimp only at h1 ⊢; rw [Function.update_self] at h1
        rcases hsl with h2 | ⟨j', h3, h2, h4⟩ | ⟨_, h2⟩
        · rw [h2] at h1; simp at h1
        · rw [h2] at h1; simp at h1
        · exact h2
      · dsimp only at h1 ⊢; rw [Function.update_of_ne hut] at h1; rw [step_other _ _ hut]; exact hk.notifyAll u hu h1
    · dsimp only at h1 h0 ⊢
      rcases h1 with h1 | ⟨h1, h2⟩
      · rcases q1 h1 with h3 | h3
        · exact hkeep (hk.wake (hold h0) (Or.inl h3))
        · exact hself h3
      · rcases q2 h1 h2 with h3 | h3
        · exact hkeep (hk.wake (hold h0) h3)
        · exact hself h3
    · dsimp only at h0 ⊢
      have hall : (∃ u < e.threads, Function.update k.sl t (slpAfter e k.s t) u = .notifyAll) →
          ∃ u < e.threads, Function.update k.sl t (slpAfter e k.s t) u ≠ .asleep ∧ (((k.s.step e t i).wk u).pc ≠ .left ∨ Function.update k.sl t (slpAfter e k.s t) u = .notifyAll) := by
        rintro ⟨u, hu, h1⟩
        exact ⟨u, hu, by rw [h1]; simp, Or.inr h1⟩
      by_cases hl : ((k.s.step e t i).wk t).pc = .left
      · rcases q3 hl with h3 | h3 | h3
        · -- a worker that had left before
          obtain ⟨u, hu, h4, h5⟩ := hk.act (hold h0)
          have hut : u ≠ t := by
            rintro rfl
            rcases h5 with h5 | h5
            · exact h5 h3
            · rw [ha] at h5; simp at h5
          refine ⟨u, hu, ?_⟩
          rw [Function.update_of_ne hut, step_other _ _ hut]
          exact ⟨h4, h5⟩
        · exact hall (hkeep (hk.wake (hold h0) h3))
        · exact hall (hself h3)
      · exact ⟨t, ht, by rw [Function.update_self]; exact hnas, Or.inl hl⟩
  | dream => exact hk
  | spurious ha =>
    refine ⟨fun u hu h1 => ?_, fun u hu j h1 => ?_, fun u hu h1 => ?_, fun h0 h1 => ?_, fun h0 => ?_⟩
    · by_cases hut : u = t
      · subst hut; exact hk.asleep u hu ha
      · dsimp only at h1; rw [Function.update_of_ne hut] at h1; exact hk.asleep u hu h1
    · by_cases hut : u = t
      · subst hut; simp at h1
      · dsimp only at h1; rw [Function.update_of_ne hut] at h1; exact hk.notify u hu j h1
    · by_cases hut : u = t
      · subst hut; simp at h1
      · dsimp only at h1; rw [Function.update_of_ne hut] at h1; exact hk.notifyAll u hu h1
    · obtain ⟨u, hu, h2⟩ := hk.wake ⟨t, ht, ha⟩ h1
      have hut : u ≠ t := by rintro rfl; rw [ha] at h2; simp at h2
      exact ⟨u, hu, by dsimp only; rw [Function.update_of_ne hut]; exact h2⟩
    · exact ⟨t, ht, by simp, Or.inl (by dsimp only; rw [hk.asleep t ht ha]; simp)⟩
  | wakeOne v j hn hv hva =>
    obtain ⟨_, hd⟩ := hk.notify t ht _ hn
    have hvt : v ≠ t := by rintro rfl; rw [hn] at hva; simp at hva
    have hsj : slpNotify j = .awake ∨ (j ≠ 0 ∧ slpNotify j = .notify j) := by
      unfold slpNotify; by_cases h0 : j = 0 <;> simp [h0]
    refine ⟨fun u hu h1 => ?_, fun u hu j' h1 => ?_, fun u hu h1 => ?_, fun h0 h1 => ?_, fun h0 => ?_⟩
    · by_cases hut : u = t
      · subst hut; dsimp only at h1; rw [Function.update_self] at h1; rcases hsj with h2 | ⟨_, h2⟩ <;> (rw [h2] at h1; simp at h1)
      · by_cases huv : u = v
        · subst huv; exact hk.asleep u hu hva
        · dsimp only at h1; rw [Function.update_of_ne hut, Function.update_of_ne huv] at h1; exact hk.asleep u hu h1
    · by_cases hut : u = t
      · subst hut; dsimp only at h1; rw [Function.update_self] at h1
        rcases hsj with h2 | ⟨h3, h2⟩
        · rw [h2] at h1; simp at h1
        · rw [h2] at h1; simp only [Slp.notify.injEq] at h1; exact ⟨h1 ▸ h3, hd⟩
      · by_cases huv : u = v
        · subst huv; dsimp only at h1; rw [Function.update_of_ne hut, Function.update_self] at h1; simp at h1
        · dsimp only at h1; rw [Function.update_of_ne hut, Function.update_of_ne huv] at h1; exact hk.notify u hu j' h1
    · by_cases hut : u = t
      · subst hut; dsimp only at h1; rw [Function.update_self] at h1; rcases hsj with h2 | ⟨_, h2⟩ <;> (rw [h2] at h1; simp at h1)
      · by_cases huv : u = v
        · subst huv; dsimp only at h1; rw [Function.update_of_ne hut, Function.update_self] at h1; simp at h1
        · dsimp only at h1; rw [Function.update_of_ne hut, Function.update_of_ne huv] at h1; exact hk.notifyAll u hu h1
    · obtain ⟨u, hu, h2⟩ := hk.wake ⟨v, hv, hva⟩ h1
      have hut : u ≠ t := by rintro rfl; rw [hn] at h2; simp at h2
      have huv : u ≠ v := by rintro rfl; rw [hva] at h2; simp at h2
      exact ⟨u, hu, by dsimp only; rw [Function.update_of_ne hut, Function.update_of_ne huv]; exact h2⟩
    · refine ⟨v, hv, ?_, Or.inl (by dsimp only; rw [hk.asleep v hv hva]; simp)⟩
      dsimp only
      rw [Function.update_of_ne hvt, Function.update_self]; simp
  | wakeNone j hn hno =>
    obtain ⟨_, hd⟩ := hk.notify t ht _ hn
    have hsj : slpNotify j = .awake ∨ (j ≠ 0 ∧ slpNotify j = .notify j) := by
      unfold slpNotify; by_cases h0 : j = 0 <;> simp [h0]
    have hno' : ¬ ∃ u < e.threads, Function.update k.sl t (slpNotify j) u = .asleep := by
      rintro ⟨u, hu, h1⟩
      by_cases hut : u = t
      · subst hut; rw [Function.update_self] at h1; rcases hsj with h2 | ⟨_, h2⟩ <;> (rw [h2] at h1; simp at h1)
      · rw [Function.update_of_ne hut] at h1; exact hno u hu h1
    refine ⟨fun u hu h1 => absurd ⟨u, hu, h1⟩ hno', fun u hu j' h1 => ?_, fun u hu h1 => ?_, fun h0 => absurd h0 hno', fun h0 => absurd h0 hno'⟩
    · by_cases hut : u = t
      · subst hut; dsimp only at h1; rw [Function.update_self] at h1
        rcases hsj with h2 | ⟨h3, h2⟩
        · rw [h2] at h1; simp at h1
        · rw [h2] at h1; simp only [Slp.notify.injEq] at h1; exact ⟨h1 ▸ h3, hd⟩
      · dsimp only at h1; rw [Function.update_of_ne hut] at h1; exact hk.notify u hu j' h1
    · by_cases hut : u = t
      · subst hut; dsimp only at h1; rw [Function.update_self] at h1; rcases hsj with h2 | ⟨_, h2⟩ <;> (rw [h2] at h1; simp at h1)
      · dsimp only at h1; rw [Function.update_of_ne hut] at h1; exact hk.notifyAll u hu h1
  | wakeAll hn =>
    have hno' : ¬ ∃ u < e.threads, Function.update (fun w => if k.sl w = .asleep then .awake else k.sl w) t Slp.awake u = .asleep := by
      rintro ⟨u, hu, h1⟩
      by_cases hut : u = t
      · subst hut; simp at h1
      · rw [Function.update_of_ne hut] at h1; split at h1
        · simp at h1
        · contradiction
    refine ⟨fun u hu h1 => absurd ⟨u, hu, h1⟩ hno', fun u hu j' h1 => ?_, fun u hu h1 => ?_, fun h0 => absurd h0 hno', fun h0 => absurd h0 hno'⟩
    · by_cases hut : u = t
      · subst hut; simp at h1
      · dsimp only at h1; rw [Function.update_of_ne hut] at h1
        split at h1
        · simp at h1
        · exact hk.notify u hu j' h1
    · by_cases hut : u = t
      · subst hut; simp at h1
      · dsimp only at h1; rw [Function.update_of_ne hut] at h1
        split at h1
        · simp at h1
        · exact hk.notifyAll u hu h1

/-! ### endless executions -/

theorem BlockRun.lazy (f : BlockRun e r who inp st) : LazyRun e r who inp fun n => (st n).s :=
  ⟨f.start, fun n => (f.step n).lazy, f.worker, f.ok⟩

theorem BlockRun.kinv (g : e.Good rows w starts ends) (hst : e.Started) (f : BlockRun e r who inp st) (n : Nat) : SleepInv e (st n) := by
  induction n with
  | zero =>
    have : st 0 = ⟨(st 0).s, fun _ => .awake⟩ := by
      rcases h : st 0 with ⟨s, sl⟩
      congr 1
      funext t
      have := f.awake t
      rw [h] at this
      exact this
    rw [this]
    exact SleepInv.start _
  | succ n ih =>
    obtain ⟨_, all, h1⟩ := f.lazy.ginv g hst n
    exact ih.step h1 (f.worker n) (f.step n)

/-- the next turn of a worker that does not sleep -/
theorem BlockRun.turn (f : BlockRun e r who inp st) {t : Nat} (ht : t < e.threads) {n : Nat} (ha : (st n).sl t ≠ .asleep) :
    ∃ k, n ≤ k ∧ who k = t ∧ (st k).sl t = (st n).sl t ∧ (st k).s.wk t = (st n).s.wk t := by
  obtain ⟨k, hk, hw⟩ := f.fair t ht n
  classical
  have hex : ∃ k, n ≤ k ∧ who k = t := ⟨k, hk, hw⟩
  have hmin : ∀ j, n ≤ j → j < Nat.find hex → who j ≠ t := fun j h1 h2 h3 => Nat.find_min hex h2 ⟨h1, h3⟩
  have : ∀ d, n + d ≤ Nat.find hex → (st (n + d)).sl t = (st n).sl t ∧ (st (n + d)).s.wk t = (st n).s.wk t := by
    intro d
    induction d with
    | zero => intro _; exact ⟨rfl, rfl⟩
    | succ d ih =>
      intro h
      obtain ⟨h1, h2⟩ := ih (by omega)
      have hne := Ne.symm (hmin (n + d) (by omega) (by omega))
      exact ⟨((f.step (n + d)).other hne (by rw [h1]; exact ha)).trans h1, ((f.step (n + d)).wk_other hne).trans h2⟩
  have h1 := (Nat.find_spec hex).1
  have h2 := this (Nat.find hex - n) (by omega)
  rw [Nat.add_sub_cancel' h1] at h2
  exact ⟨Nat.find hex, h1, (Nat.find_spec hex).2, h2.1, h2.2⟩

/-- calls of `notify_one` end -/
theorem BlockRun.notified (f : BlockRun e r who inp st) {t : Nat} (ht : t < e.threads) : ∀ (j n : Nat), (st n).sl t = slpNotify j →
    ∃ k, n ≤ k ∧ who k = t ∧ (st k).sl t = .awake ∧ (st k).s.wk t = (st n).s.wk t := by
  intro j
  induction j with
  | zero =>
    intro n h
    have h : (st n).sl t = .awake := by rw [h]; rfl
    obtain ⟨k, h1, h2, h3, h4⟩ := f.turn ht (n := n) (by rw [h]; simp)
    exact ⟨k, h1, h2, by rw [h3]; exact h, h4⟩
  | succ j ih =>
    intro n h
    have h : (st n).sl t = .notify (j + 1) := by rw [h]; simp [slpNotify]
    obtain ⟨k, h1, h2, h3, h4⟩ := f.turn ht (n := n) (by rw [h]; simp)
    have hs := f.step k
    rw [h2] at hs
    rw [h] at h3
    have key : (st (k + 1)).sl t = slpNotify j ∧ (st (k + 1)).s = (st k).s := by
      generalize st (k + 1) = k' at hs
      cases hs with
      | wakeOne v j' hn => rw [h3] at hn; simp only [Slp.notify.injEq, Nat.add_right_cancel_iff] at hn; subst hn; simp
      | wakeNone j' hn => rw [h3] at hn; simp only [Slp.notify.injEq, Nat.add_right_cancel_iff] at hn; subst hn; simp
      | sleep hn => rw [h3] at hn; simp at hn
      | work hn => rw [h3] at hn; simp at hn
      | dream hn => rw [h3] at hn; simp at hn
      | spurious hn => rw [h3] at hn; simp at hn
      | wakeAll hn => rw [h3] at hn; simp at hn
    obtain ⟨k2, h5, h6, h7, h8⟩ := ih (k + 1) key.1
    exact ⟨k2, by omega, h6, h7, by rw [h8, key.2, h4]⟩

/-- the step of a worker that calls `notify_all` -/
theorem BlockRun.all {t : Nat} {k : Nat} (f : BlockRun e r who inp st) (hw : who k = t) (h : (st k).sl t = .notifyAll) :
    (st (k + 1)).s = (st k).s ∧ (st (k + 1)).sl t = .awake ∧ ∀ u, (st (k + 1)).sl u ≠ .asleep := by
  have hs := f.step k
  rw [hw] at hs
  generalize st (k + 1) = k' at hs
  cases hs with
  | wakeAll hn =>
    refine ⟨rfl, by simp, fun u hu => ?_⟩
    dsimp only at hu
    by_cases hut : u = t
    · subst hut; simp at hu
    · rw [Function.update_of_ne hut] at hu
      split at hu
      · simp at hu
      · contradiction
  | wakeOne v j' hn => rw [h] at hn; simp at hn
  | wakeNone j' hn => rw [h] at hn; simp at hn
  | sleep hn => rw [h] at hn; simp at hn
  | work hn => rw [h] at hn; simp at hn
  | dream hn => rw [h] at hn; simp at hn
  | spurious hn => rw [h] at hn; simp at hn

/-- a worker that does not sleep comes to the next step of its program -/
theorem BlockRun.awakes (g : e.Good rows w starts ends) (hst : e.Started) (f : BlockRun e r who inp st) {t : Nat} (ht : t < e.threads)
    {n : Nat} (ha : (st n).sl t ≠ .asleep) :
    ∃ k, n ≤ k ∧ who k = t ∧ (st k).sl t = .awake ∧ (st k).s.wk t = (st n).s.wk t := by
  cases hsl : (st n).sl t with
  | asleep => exact absurd hsl ha
  | awake => exact f.notified ht 0 n (by rw [hsl]; rfl)
  | notify j =>
    have := ((f.kinv g hst n).notify t ht j hsl).1
    exact f.notified ht j n (by rw [hsl]; simp [slpNotify, this])
  | notifyAll =>
    obtain ⟨k, h1, h2, h3, h4⟩ := f.turn ht ha
    rw [hsl] at h3
    obtain ⟨h5, h6, _⟩ := f.all h2 h3
    obtain ⟨k2, h7, h8, h9, h10⟩ := f.notified ht 0 (k + 1) (by rw [h6]; rfl)
    exact ⟨k2, by omega, h8, h9, by rw [h10, h5, h4]⟩

/-- and does it -/
theorem BlockRun.next (g : e.Good rows w starts ends) (hst : e.Started) (f : BlockRun e r who inp st) {t : Nat} (ht : t < e.threads)
    {n : Nat} (ha : (st n).sl t ≠ .asleep) :
    ∃ k, n ≤ k ∧ who k = t ∧ (st k).s.wk t = (st n).s.wk t ∧ (st (k + 1)).s = (st k).s.step e t (inp k) ∧
      (((st n).s.wk t).pc ≠ .pop → (st (k + 1)).sl t ≠ .asleep) := by
  obtain ⟨k, h1, h2, h3, h4⟩ := f.awakes g hst ht ha
  obtain ⟨_, all, hg⟩ := f.lazy.ginv g hst k
  have hs := f.step k
  refine ⟨k, h1, h2, h4, ?_⟩
  rw [h2] at hs
  generalize st (k + 1) = k' at hs
  rw [← h4]
  cases hs with
  | sleep _ hw => exact ⟨(waits_step hw _).symm, fun hp => absurd hw.1 hp⟩
  | work _ hw =>
    refine ⟨rfl, fun _ => ?_⟩
    dsimp only
    rw [Function.update_self]
    rcases slpAfter_spec hg ht (inp k) with h | ⟨j, _, h, _⟩ | ⟨h, _⟩ <;> rw [h] <;> simp
  | wakeOne v j' hn => rw [h3] at hn; simp at hn
  | wakeNone j' hn => rw [h3] at hn; simp at hn
  | dream hn => rw [h3] at hn; simp at hn
  | spurious hn => rw [h3] at hn; simp at hn
  | wakeAll hn => rw [h3] at hn; simp at hn

/-- not all workers that are going sleep for ever -/
theorem BlockRun.someone (g : e.Good rows w starts ends) (hst : e.Started) (f : BlockRun e r who inp st) {n0 : Nat}
    (hcr : ∀ n, n0 ≤ n → ∀ u < e.threads, ∀ er, ((st n).s.wk u).pc ≠ .crashed er)
    (hgo : ∀ n, n0 ≤ n → ∀ u < e.threads, Going ((st n).s.wk u).pc → Going ((st (n + 1)).s.wk u).pc)
    {n t : Nat} (hn : n0 ≤ n) (ht : t < e.threads) (hg : Going ((st n).s.wk t).pc) :
    ∃ m, n ≤ m ∧ ∃ u < e.threads, Going ((st m).s.wk u).pc ∧ (st m).sl u ≠ .asleep := by
  by_cases ha : (st n).sl t = .asleep
  · obtain ⟨u, hu, h1, h2⟩ := (f.kinv g hst n).act ⟨t, ht, ha⟩
    rcases h2 with h2 | h2
    · exact ⟨n, le_refl _, u, hu, ⟨h2, hcr n hn u hu⟩, h1⟩
    · obtain ⟨k, h3, h4, h5, _⟩ := f.turn hu h1
      rw [h2] at h5
      obtain ⟨_, _, h6⟩ := f.all h4 h5
      have : ∀ m, n ≤ m → Going ((st m).s.wk t).pc := by
        intro m hm
        induction m, hm using Nat.le_induction with
        | base => exact hg
        | succ m hm ih => exact hgo m (le_trans hn hm) t ht ih
      exact ⟨k + 1, by omega, t, ht, this _ (by omega), h6 t⟩
  · exact ⟨n, le_refl _, t, ht, hg, ha⟩

/-- every fair execution with sleeping workers ends -/
theorem BlockRun.terminates (g : e.Good rows w starts ends) (hst : e.Started) (hcp : e.CombsProgress) (f : BlockRun e r who inp st)
    (hrow : ∀ n, (inp n).OnRows e (st n).s (who n)) :
    ∃ n, (∀ t < e.threads, ((st n).s.wk t).pc = .left) ∨
      ∃ t < e.threads, ((st n).s.wk t).pc = .crashed (.logic "Unexpected error happened while solving LP") ∧ ∃ k < n, (inp k).ans = .error := by
  by_contra hno
  push Not at hno
  -- nobody crashes
  have hnc : ∀ n, ∀ u < e.threads, ∀ er, ((st n).s.wk u).pc ≠ .crashed er := by
    intro n u hu er hp
    obtain ⟨_, all, h1⟩ := f.lazy.ginv g hst n
    obtain ⟨_, o, _, hpc⟩ := h1.wk u hu
    simp only [PcOk, hp] at hpc
    obtain ⟨rfl, k, hk, hke⟩ := hpc
    exact (hno n).2 u hu hp k hk hke
  obtain ⟨n0, hsp⟩ := f.lazy.spins g hst hcp hrow
  have hspin : ∀ n, n0 ≤ n → Spin e (st n).s (who n) (st (n + 1)).s ∨ (st (n + 1)).s = (st n).s := fun n hn =>
    (f.step n).lazy.imp (hsp n hn) id
  have hgo : ∀ n, n0 ≤ n → ∀ u < e.threads, Going ((st n).s.wk u).pc → Going ((st (n + 1)).s.wk u).pc := by
    intro n hn u hu hg
    by_cases hwt : who n = u
    · rcases hspin n hn with h | h
      · exact ((hwt ▸ h).dist hg).1
      · rw [h]; exact hg
    · rw [(f.step n).wk_other (Ne.symm hwt)]; exact hg
  have T : Tail e who (fun n => (st n).s) n0 fun n t => (st n).sl t ≠ .asleep := by
    refine ⟨hspin, fun n => ?_, fun t ht n hn _ ha => ?_, fun t ht n _ _ hp ha => hp ((f.kinv g hst n).asleep t ht ha),
      fun n hn ⟨t, ht, hg⟩ => f.someone g hst (fun n _ => hnc n) hgo hn ht hg⟩
    · obtain ⟨_, all, h1⟩ := f.lazy.ginv g hst n
      exact ⟨_, all, h1⟩
    · obtain ⟨k, h1, h2, h3, h4, h5⟩ := f.next g hst ht ha
      exact ⟨k, h1, h3, h2 ▸ hsp k (le_trans hn h1) (by rw [h2]; exact h4), h5⟩
  obtain ⟨⟨t, ht, hleft⟩, _⟩ := hno n0
  refine T.contradiction f.worker ht (fun n hn => ?_) (fun u hu n _ hg => ?_)
  · induction n, hn using Nat.le_induction with
    | base => exact ⟨hleft, hnc n0 t ht⟩
    | succ n hn ih => exact hgo n hn t ht ih
  · by_contra hc
    exact hg ⟨hc, hnc n u hu⟩

/-- after the deadline the search ends, sleeping workers included -/
theorem BlockRun.deadline (g : e.Good rows w starts ends) (hst : e.Started) (f : BlockRun e r who inp st) {n1 : Nat}
    (hlate : ∀ n, n1 ≤ n → (inp n).late = true) :
    ∃ n, (∀ t < e.threads, ((st n).s.wk t).pc = .left) ∨
      ∃ t < e.threads, ((st n).s.wk t).pc = .crashed (.logic "Unexpected error happened while solving LP") ∧ ∃ k < n, (inp k).ans = .error := by
  by_contra hno
  push Not at hno
  have hnc : ∀ n, ∀ u < e.threads, ∀ er, ((st n).s.wk u).pc ≠ .crashed er := by
    intro n u hu er hp
    obtain ⟨_, all, h1⟩ := f.lazy.ginv g hst n
    obtain ⟨_, o, _, hpc⟩ := h1.wk u hu
    simp only [PcOk, hp] at hpc
    obtain ⟨rfl, k, hk, hke⟩ := hpc
    exact (hno n).2 u hu hp k hk hke
  have hstep : ∀ n, n1 ≤ n → ∑ u ∈ Finset.range e.threads, rest ((st (n + 1)).s.wk u).pc < ∑ u ∈ Finset.range e.threads, rest ((st n).s.wk u).pc ∨
      (st (n + 1)).s = (st n).s := by
    intro n hn
    rcases (f.step n).lazy with hs | hs
    · obtain ⟨_, all, h1⟩ := f.lazy.ginv g hst n
      have := step_rest h1 (f.worker n) (hlate n hn)
      rw [← hs] at this
      rcases this with h | h
      · left
        rw [← Finset.add_sum_erase _ _ (Finset.mem_range.2 (f.worker n)), ← Finset.add_sum_erase _ (fun u => rest ((st n).s.wk u).pc) (Finset.mem_range.2 (f.worker n))]
        have : ∑ u ∈ (Finset.range e.threads).erase (who n), rest ((st (n + 1)).s.wk u).pc = ∑ u ∈ (Finset.range e.threads).erase (who n), rest ((st n).s.wk u).pc :=
          Finset.sum_congr rfl fun u hu => by rw [(f.step n).wk_other (Finset.ne_of_mem_erase hu)]
        omega
      · exact Or.inr h.1
    · exact Or.inr hs
  have key : ∀ (k n : Nat), n1 ≤ n → ∑ u ∈ Finset.range e.threads, rest ((st n).s.wk u).pc ≤ k → ∃ n0, n1 ≤ n0 ∧ ∀ n, n0 ≤ n → (st (n + 1)).s = (st n).s := by
    intro k
    induction k with
    | zero =>
      intro n hn hk
      have hz : ∀ m, n ≤ m → ∑ u ∈ Finset.range e.threads, rest ((st m).s.wk u).pc = 0 := by
        intro m hm
        induction m, hm using Nat.le_induction with
        | base => omega
        | succ m hm ih =>
          rcases hstep m (le_trans hn hm) with h | h
          · omega
          · rw [h]; exact ih
      refine ⟨n, hn, fun m hm => ?_⟩
      rcases hstep m (le_trans hn hm) with h | h
      · rw [hz m hm] at h; omega
      · exact h
    | succ k ih =>
      intro n hn hk
      by_cases hall : ∀ m, n ≤ m → ¬ ∑ u ∈ Finset.range e.threads, rest ((st (m + 1)).s.wk u).pc < ∑ u ∈ Finset.range e.threads, rest ((st m).s.wk u).pc
      · exact ⟨n, hn, fun m hm => (hstep m (le_trans hn hm)).resolve_left (hall m hm)⟩
      · push Not at hall
        obtain ⟨m, hm, hlt⟩ := hall
        have hle : ∑ u ∈ Finset.range e.threads, rest ((st m).s.wk u).pc ≤ ∑ u ∈ Finset.range e.threads, rest ((st n).s.wk u).pc := by
          clear hlt
          induction m, hm using Nat.le_induction with
          | base => exact le_refl _
          | succ m hm ih' =>
            rcases hstep m (le_trans hn hm) with h | h
            · omega
            · rw [h]; exact ih'
        exact ih (m + 1) (by omega) (by omega)
  obtain ⟨n0, hn0, hs⟩ := key _ n1 (le_refl _) (le_refl _)
  have hconst : ∀ n, n0 ≤ n → (st n).s = (st n0).s := by
    intro n hn
    induction n, hn using Nat.le_induction with
    | base => rfl
    | succ n hn ih => rw [hs n hn, ih]
  -- a worker that does not sleep has left, or stands in `Pop` while somebody owns a node
  have hstuck : ∀ n, n0 ≤ n → ∀ u < e.threads, Going ((st n0).s.wk u).pc → (st n).sl u ≠ .asleep → ((st n0).s.wk u).pc = .pop ∧ 0 < (st n0).s.q.count := by
    intro n hn u hu hg ha
    obtain ⟨k, h1, h2, h3, h4, _⟩ := f.next g hst hu ha
    obtain ⟨_, all, hi⟩ := f.lazy.ginv g hst k
    have hr := step_rest hi hu (hlate k (by omega))
    rw [← h4, hs k (by omega), hconst k (by omega)] at hr
    rcases hr with h | ⟨_, h | h | ⟨er, h⟩⟩
    · omega
    · exact h
    · exact absurd h hg.1
    · exact absurd h (hg.2 er)
  obtain ⟨⟨t, ht, hleft⟩, _⟩ := hno n0
  have hgt : Going ((st n0).s.wk t).pc := ⟨hleft, hnc n0 t ht⟩
  obtain ⟨m, hm, u, hu, hgu, hau⟩ := f.someone g hst (n0 := n0) (fun n _ => hnc n) (fun n hn u hu hg => by rw [hs n hn]; exact hg) (le_refl _) ht hgt
  rw [hconst m hm] at hgu
  obtain ⟨_, hc⟩ := hstuck m hm u hu hgu hau
  obtain ⟨_, all, hi⟩ := f.lazy.ginv g hst n0
  rw [hi.q.count] at hc
  obtain ⟨v, hv⟩ := activeCount_pos hc
  obtain ⟨x, hx⟩ := List.mem_iff_getElem?.1 hv
  have hxt : x < e.threads := by rw [← hi.len]; exact lt_length_of_some hx
  obtain ⟨_, o, ho, hpc⟩ := hi.wk x hxt
  rw [hx] at ho
  simp only [Option.some.injEq] at ho
  subst ho
  have hgx : Going ((st n0).s.wk x).pc := ⟨fun h => by simp [PcOk, h] at hpc, hnc n0 x hxt⟩
  have hnp : ((st n0).s.wk x).pc ≠ .pop := fun h => by simp [PcOk, h] at hpc
  exact hnp (hstuck n0 (le_refl _) x hxt hgx fun ha => hnp ((f.kinv g hst n0).asleep x hxt ha)).1

end
end Mtsp
