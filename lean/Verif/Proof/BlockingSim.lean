import Verif.Proof.Blocking
import Verif.Props.QueueWakeThree

/-! The search with sleeping workers follows the protocol of Model/QueueOnce.lean. -/

namespace Mtsp

section
variable {e : BEnv} {rows : Nat} {w : Weights} {starts ends : List Nat} {r : ResState}

/-- the search does what it did without sleeping -/
theorem KRun.brun {tr : List (Nat × Inp)} {k : KState} (h : KRun e r tr k) : ∃ tr', tr'.Sublist tr ∧ BRun e r tr' k.s := by
  induction h with
  | start s hs => exact ⟨[], List.Sublist.refl _, .start s hs⟩
  | step tr k k' t i _ ht hok hs ih =>
    obtain ⟨tr', h1, h2⟩ := ih
    rcases hs.lazy with h | h
    · rw [h]; exact ⟨_, h1.append_right _, .step _ _ _ _ h2 ht hok⟩
    · rw [h]; exact ⟨tr', h1.trans (List.sublist_append_left _ _), h2⟩

theorem KRun.kinv (g : e.Good rows w starts ends) (hst : e.Started) {tr : List (Nat × Inp)} {k : KState} (h : KRun e r tr k) : SleepInv e k := by
  induction h with
  | start s hs => exact SleepInv.start s
  | step tr k k' t i hr ht _ hs ih =>
    obtain ⟨tr', _, hb⟩ := hr.brun
    obtain ⟨_, all, hg⟩ := run_ginv g hst hb
    exact ih.step hg ht hs

/-- the protocol state that belongs to a state of the search -/
structure Sim (e : BEnv) (k : KState) (c : CState) (p : Nat → Bool) : Prop where
  run : OnceRun e.H e.threads c p
  q : c.q = k.s.q
  pc : ∀ t < e.threads, Shows (k.sl t) (k.s.wk t).pc (c.pc t)
  mark : ∀ t < e.threads, p t = true → (k.s.wk t).pc = .done

/-- a step of the protocol for a step of the search -/
theorem Sim.next {k k' : KState} {c c' : CState} {p : Nat → Bool} (S : Sim e k c p) (l : CLabel) (hl : ∀ j, l ≠ .push j)
    (hs : CStep e.H e.threads l c c') (hq : c'.q = k'.s.q) (hpc : ∀ u < e.threads, Shows (k'.sl u) (k'.s.wk u).pc (c'.pc u))
    (hm : ∀ u < e.threads, p u = true → (c'.pc u).hasNode = true → (k'.s.wk u).pc = .done) : ∃ p', Sim e k' c' p' :=
  ⟨_, .step _ _ _ _ S.run (.other _ _ _ l hl hs), hq, hpc, fun u hu h => by
    simp only [Bool.and_eq_true] at h
    exact hm u hu h.1 h.2⟩

/-- a worker that changed only locally -/
theorem Sim.local {k k' : KState} {c : CState} {p : Nat → Bool} (S : Sim e k c p) {t : Nat} (hq : k.s.q = k'.s.q)
    (hsl : ∀ u, u ≠ t → k'.sl u = k.sl u) (hwk : ∀ u, u ≠ t → k'.s.wk u = k.s.wk u) (ht : t < e.threads)
    (hpc : Shows (k'.sl t) (k'.s.wk t).pc (c.pc t)) (hm : p t = true → (k'.s.wk t).pc = .done) : Sim e k' c p := by
  refine ⟨S.run, S.q.trans hq, fun u hu => ?_, fun u hu h => ?_⟩
  · by_cases hut : u = t
    · subst hut; exact hpc
    · rw [hsl u hut, hwk u hut]; exact S.pc u hu
  · by_cases hut : u = t
    · subst hut; exact hm h
    · rw [hwk u hut]; exact S.mark u hu h

/-- a worker whose protocol state changed -/
theorem Sim.changed {k k' : KState} {c : CState} {p : Nat → Bool} (S : Sim e k c p) {t : Nat} (l : CLabel) (hl : ∀ j, l ≠ .push j) {x : WPc}
    (hs : CStep e.H e.threads l c ⟨k'.s.q, Function.update c.pc t x⟩)
    (hsl : ∀ u, u ≠ t → k'.sl u = k.sl u) (hwk : ∀ u, u ≠ t → k'.s.wk u = k.s.wk u)
    (hpc : Shows (k'.sl t) (k'.s.wk t).pc x) (hm : p t = true → x.hasNode = true → (k'.s.wk t).pc = .done) : ∃ c' p', Sim e k' c' p' := by
  refine ⟨_, S.next l hl hs rfl (fun u hu => ?_) fun u hu h1 h2 => ?_⟩
  · dsimp only
    by_cases hut : u = t
    · subst hut; rw [Function.update_self]; exact hpc
    · rw [upd_ne _ _ hut, hsl u hut, hwk u hut]; exact S.pc u hu
  · dsimp only at h2
    by_cases hut : u = t
    · subst hut; rw [Function.update_self] at h2; exact hm h1 h2
    · rw [hwk u hut]; exact S.mark u hu h1

theorem Sim.step (g : e.Good rows w starts ends) {bad : Prop} {all : List LinCon} {k k' : KState} {c : CState} {p : Nat → Bool}
    (h : GInv e bad k.s all) (hk : SleepInv e k) (S : Sim e k c p) {t : Nat} (ht : t < e.threads) {i : Inp} (hs : KStep e t i k k') :
    ∃ c' p', Sim e k' c' p' := by
  have hgo : ∀ (s : BState) (pc : Pc), ((s.goto t pc).wk t).pc = pc := fun s pc => by simp [BState.goto, BState.setWk]
  have hset : ∀ (s : BState) (w' : Worker), (s.setWk t w').wk t = w' := fun s w' => by simp [BState.setWk]
  have hqs : ∀ (s : BState) (w' : Worker), (s.setWk t w').q = s.q := fun s w' => rfl
  have hqg : ∀ (s : BState) (pc : Pc), (s.goto t pc).q = s.q := fun s pc => rfl
  have St := S.pc t ht
  cases hs with
  | sleep ha hw =>
    rw [ha] at St
    simp only [Shows, hw.1] at St
    have hp : k.s.q.pop e.H t = (.ok .blocked, k.s.q) := by
      rcases pop_cases e.H k.s.q t h.q (by rw [h.len]; exact ht) with ⟨_, _, _, ep⟩ | ⟨_, ep⟩ | ⟨_, d, r, l, _, _, _, _, ep⟩
      · exact ep
      · have := hw.2; rw [ep] at this; simp at this
      · have := hw.2; rw [ep] at this; simp at this
    refine S.changed .pop (by simp) (.popWait c t k.s.q ht St (by rw [S.q]; exact hp)) (fun u hu => ?_) (fun _ _ => rfl) ?_ ?_
    · dsimp only; rw [upd_ne _ _ hu]
    · simp [Shows]
    · simp [WPc.hasNode]
  | work ha hw =>
    rw [ha] at St
    have hsl' : ∀ u, u ≠ t → Function.update k.sl t (slpAfter e k.s t) u = k.sl u := fun u hu => upd_ne _ _ hu
    have hwk' : ∀ u, u ≠ t → (k.s.step e t i).wk u = k.s.wk u := fun u hu => step_other _ _ hu
    obtain ⟨hfix, o, ho, hpc⟩ := h.wk t ht
    -- steps that the protocol does not see
    have loc : (k.s.step e t i).q = k.s.q → slpAfter e k.s t = .awake → (k.s.wk t).pc ≠ .done →
        Shows .awake ((k.s.step e t i).wk t).pc (c.pc t) → ∃ c' p', Sim e ⟨k.s.step e t i, Function.update k.sl t (slpAfter e k.s t)⟩ c' p' := by
      intro h1 h2 h3 h4
      refine ⟨c, p, S.local (t := t) h1.symm hsl' hwk' ht ?_ fun hm => absurd (S.mark t ht hm) h3⟩
      dsimp only
      rw [Function.update_self, h2]
      exact h4
    have heval : ∀ (wk : Worker) (lb ub : ℚ) (y rc : Nat → ℚ), Shows .awake (wk.evaluate e lb ub y rc).pc .holding := by
      intro wk lb ub y rc
      unfold Worker.evaluate
      split
      · simp [Shows]
      · split
        · simp [Shows]
        · dsimp only
          split
          · simp [Shows]
          · split
            · simp [Shows]
            · split <;> simp [Shows]
    cases hp : (k.s.wk t).pc with
    | head =>
      simp only [Shows, hp] at St
      obtain ⟨l, hl, _⟩ := calcLB_spec k.s.q h.q
      refine loc ?_ (by simp only [slpAfter, hp]) (by rw [hp]; simp) ?_ <;> simp only [BState.step, hp, hl]
      · rfl
      · rw [hgo]; exact St
    | headUpd l =>
      simp only [Shows, hp] at St
      refine loc ?_ (by simp only [slpAfter, hp]) (by rw [hp]; simp) ?_ <;> simp only [BState.step, hp]
      · repeat' split
        all_goals rfl
      · repeat' split
        all_goals (rw [hgo]; simp [Shows, St])
    | clear =>
      simp only [Shows, hp] at St
      have h1 := CStep.clear (H := e.H) c t ht St
      refine S.changed (t := t) .clear (by simp) (x := .notifyAll true) ?_ hsl' hwk' ?_ ?_
      · simp only [BState.step, hp, hqg]; rw [← S.q]; exact h1
      · dsimp only
        rw [Function.update_self]
        simp only [BState.step, hp, hgo, slpAfter]
        simp [Shows]
      · simp [WPc.hasNode]
    | pop =>
      simp only [Shows, hp] at St
      have hsa : slpAfter e k.s t = .awake := by simp only [slpAfter, hp]
      rcases pop_cases e.H k.s.q t h.q (by rw [h.len]; exact ht) with ⟨_, _, _, ep⟩ | ⟨hc, ep⟩ | ⟨hc, d, r, l, _, _, _, _, ep⟩
      · exact absurd ⟨hp, by rw [ep]⟩ hw
      · refine S.changed (t := t) .pop (by simp) (x := .left) (.popNothing c t _ ht St ?_) hsl' hwk' ?_ (by simp [WPc.hasNode])
        · rw [S.q, ep]; simp only [BState.step, hp, ep, hqg]
        · dsimp only
          rw [Function.update_self, hsa]
          simp only [BState.step, hp, ep, hgo]
          simp [Shows]
      · refine S.changed (t := t) .pop (by simp) (x := .holding) (.popNode c t _ d ht St ?_) hsl' hwk' ?_ ?_
        · rw [S.q, ep]
          simp only [BState.step, hp, ep]
          split
          · split <;> rfl
          · split <;> rfl
        · dsimp only
          rw [Function.update_self, hsa]
          simp only [BState.step, hp, ep]
          split
          · split
            · rw [hgo]; simp [Shows]
            · rw [hset]; simp [Shows]
          · split
            · rw [hgo]; simp [Shows]
            · rw [hset]; simp [Shows]
        · intro hm
          have := S.mark t ht hm
          rw [hp] at this; simp at this
    | resRead lb =>
      simp only [Shows, hp] at St
      refine loc ?_ (by simp only [slpAfter, hp]) (by rw [hp]; simp) ?_ <;> simp only [BState.step, hp]
      · repeat' split
        all_goals rfl
      · repeat' split
        all_goals (rw [hgo]; simp [Shows, St])
    | resUpd lb l =>
      simp only [Shows, hp] at St
      refine loc ?_ (by simp only [slpAfter, hp]) (by rw [hp]; simp) ?_ <;> simp only [BState.step, hp]
      · repeat' split
        all_goals rfl
      · repeat' split
        all_goals (rw [hgo]; simp [Shows, St])
    | read lb =>
      simp only [Shows, hp] at St
      refine loc ?_ (by simp only [slpAfter, hp]) (by rw [hp]; simp) ?_ <;> simp only [BState.step, hp]
      · split <;> rfl
      · split
        · rw [hgo]; simp [Shows, St]
        · rw [hset]; dsimp only; split <;> simp [Shows, St]
    | compact lb =>
      simp only [Shows, hp] at St
      refine loc ?_ (by simp only [slpAfter, hp]) (by rw [hp]; simp) ?_ <;> simp only [BState.step, hp]
      · split <;> rfl
      · split <;> (rw [hgo]; simp [Shows, St])
    | solve lb =>
      simp only [Shows, hp] at St
      refine loc ?_ (by simp only [slpAfter, hp]) (by rw [hp]; simp) ?_ <;> simp only [BState.step, hp]
      · split <;> rfl
      · split <;> (rw [hgo]; simp [Shows, St])
    | raise lb y rc =>
      simp only [Shows, hp] at St
      simp only [PcOk, hp] at hpc
      obtain ⟨hs, hlb, v, ho', hv⟩ := hpc
      subst ho'
      have hsub := h.sub ht
      have hrange := hs.range g hfix (fun c hc => ((h.cuts c (hsub c hc))).1.local)
      rw [← hlb] at hrange
      have hq : k.s.q.updateCurrentLowerBound t lb = (.ok .unit, { k.s.q with workedOn := k.s.q.workedOn.set t (some lb) }) := by
        unfold QState.updateCurrentLowerBound
        rw [ho]; dsimp only; rw [if_neg (not_lt.2 hv)]
      have h1 := CStep.update (H := e.H) (n := e.threads) c t lb { k.s.q with workedOn := k.s.q.workedOn.set t (some lb) } ht St hrange
        (by rw [S.q]; exact hq)
      have hpt : c.pc = Function.update c.pc t .holding := by rw [← St, Function.update_eq_self]
      rw [hpt] at h1
      refine S.changed (t := t) .update (by simp) (x := .holding) ?_ hsl' hwk' ?_ ?_
      · simp only [BState.step, hp, hq, hqg]
        have : (⟨c.q, c.pc⟩ : CState) = c := rfl
        rw [← hpt] at h1 ⊢
        exact h1
      · dsimp only
        rw [Function.update_self]
        simp only [BState.step, hp, hq, hgo, slpAfter]
        simp [Shows]
      · intro hm
        have := S.mark t ht hm
        rw [hp] at this; simp at this
    | getLB lb y rc =>
      simp only [Shows, hp] at St
      refine loc ?_ (by simp only [slpAfter, hp]) (by rw [hp]; simp) ?_ <;> simp only [BState.step, hp]
      · split <;> rfl
      · split <;> (rw [hgo]; simp [Shows, St])
    | updLB lb l y rc =>
      simp only [Shows, hp] at St
      refine loc ?_ (by simp only [slpAfter, hp]) (by rw [hp]; simp) ?_ <;> simp only [BState.step, hp]
      · split <;> rfl
      · split
        · rw [hgo]; simp [Shows, St]
        · rw [hset, St]; exact heval _ _ _ _ _
    | exploit lb y rc =>
      simp only [Shows, hp] at St
      refine loc ?_ (by simp only [slpAfter, hp]) (by rw [hp]; simp) ?_ <;> simp only [BState.step, hp]
      · split <;> rfl
      · split
        · rw [hgo]; simp [Shows, St]
        · rw [hset, St]; exact heval _ _ _ _ _
        · rw [hset, St]; exact heval _ _ _ _ _
    | pushCuts cs op =>
      simp only [Shows, hp] at St
      refine loc ?_ (by simp only [slpAfter, hp]) (by rw [hp]; simp) ?_ <;> simp only [BState.step, hp]
      · split <;> rfl
      · split <;> (rw [hgo]; simp [Shows, St])
    | push op =>
      simp only [Shows, hp] at St
      simp only [PcOk, hp] at hpc
      obtain ⟨nodes, q', hq, _⟩ := op_step (H := e.H) h.q ho hpc
      have hkk : 0 < pushCount op := by cases op <;> simp_all [pushCount, OpOk]
      have hleg : k.s.q.Legal op := by
        have hr : ∀ v, o = some v → -dblMax ≤ v ∧ v < dblMax := by
          rintro v rfl
          exact h.q.rangeW v (List.mem_of_getElem? ho)
        cases op <;> simp only [OpOk] at hpc <;> simp only [QState.Legal]
        · exact hr _ hpc
        · exact hr _ hpc.1
        · exact hr _ hpc.1
      have hpf : p t = false := by
        cases hpt : p t with
        | false => rfl
        | true => have := S.mark t ht hpt; rw [hp] at this; simp at this
      have hr := OnceRun.step _ _ _ _ S.run (OnceStep.push c p t op q' ht St hpf hkk (by rw [S.q]; exact hleg) (by rw [S.q]; exact hq))
      refine ⟨_, _, hr, ?_, fun u hu => ?_, fun u hu hm => ?_⟩
      · simp only [BState.step, hp, hq, hqg]
      · dsimp only
        by_cases hut : u = t
        · subst hut
          rw [Function.update_self, Function.update_self]
          simp only [BState.step, hp, hq, hgo, slpAfter, pcAfterPush, S.q]
          split
          · have : pushCount op ≠ 0 := by omega
            simp [slpNotify, this, Shows]
          · simp [Shows]
        · rw [upd_ne _ _ hut, upd_ne _ _ hut, hwk' u hut]; exact S.pc u hu
      · dsimp only at hm ⊢
        by_cases hut : u = t
        · subst hut; simp only [BState.step, hp, hq, hgo]
        · rw [upd_ne _ _ hut] at hm; rw [hwk' u hut]; exact S.mark u hu hm
    | getUpper lb y =>
      simp only [Shows, hp] at St
      refine loc ?_ (by simp only [slpAfter, hp]) (by rw [hp]; simp) ?_ <;> simp only [BState.step, hp]
      · split <;> rfl
      · split <;> (rw [hgo]; simp [Shows, St])
    | setUpper lb y =>
      simp only [Shows, hp] at St
      refine loc ?_ (by simp only [slpAfter, hp]) (by rw [hp]; simp) ?_ <;> simp only [BState.step, hp]
      · split <;> rfl
      · split <;> (rw [hgo]; simp [Shows, St])
    | done =>
      simp only [Shows, hp] at St
      simp only [PcOk, hp] at hpc
      obtain ⟨v, rfl⟩ := hpc
      have hd : k.s.q.notifyDone t = (.ok .unit, { k.s.q with workedOn := k.s.q.workedOn.set t none, count := k.s.q.count - 1 }) := by
        unfold QState.notifyDone
        rw [ho]
      have h1 := CStep.done (H := e.H) (n := e.threads) c t _ ht St (by rw [S.q]; exact hd)
      refine S.changed (t := t) .done (by simp) (x := pcAfterDone { k.s.q with workedOn := k.s.q.workedOn.set t none, count := k.s.q.count - 1 }) ?_ hsl' hwk' ?_ ?_
      · simp only [BState.step, hp, hd, hqg]; exact h1
      · dsimp only
        rw [Function.update_self]
        simp only [BState.step, hp, hd, hgo, slpAfter, pcAfterDone]
        split <;> simp [Shows]
      · unfold pcAfterDone
        split <;> simp [WPc.hasNode]
    | left =>
      simp only [Shows, hp] at St
      refine loc ?_ (by simp only [slpAfter, hp]) (by rw [hp]; simp) ?_ <;> simp only [BState.step, hp]
      simp [Shows, St]
    | crashed er =>
      simp only [Shows, hp] at St
      refine loc ?_ (by simp only [slpAfter, hp]) (by rw [hp]; simp) ?_ <;> simp only [BState.step, hp]
      simp [Shows, St]
  | dream => exact ⟨c, p, S⟩
  | spurious ha =>
    rw [ha] at St
    simp only [Shows] at St
    have h1 := CStep.spurious (H := e.H) c t ht St
    rw [S.q] at h1
    refine S.changed (t := t) .spurious (by simp) (x := .woken) h1 (fun u hu => ?_) (fun _ _ => rfl) ?_ (by simp [WPc.hasNode])
    · dsimp only; rw [upd_ne _ _ hu]
    · dsimp only
      rw [Function.update_self, hk.asleep t ht ha]
      simp [Shows]
  | wakeOne v j hn hv hva =>
    rw [hn] at St
    simp only [Shows] at St
    have Sv := S.pc v hv
    rw [hva] at Sv
    simp only [Shows] at Sv
    obtain ⟨_, hd⟩ := hk.notify t ht _ hn
    have hvt : v ≠ t := by rintro rfl; rw [hn] at hva; simp at hva
    refine ⟨_, S.next .wakeOne (by simp) (CStep.wakeOne (H := e.H) c t v j ht hv St Sv) S.q (fun u hu => ?_) fun u hu h1 _ => S.mark u hu h1⟩
    dsimp only
    by_cases hut : u = t
    · subst hut
      rw [Function.update_self, Function.update_self, hd]
      unfold slpNotify pcAfterWakeOne
      split <;> simp [Shows]
    · rw [upd_ne _ _ hut, upd_ne _ _ hut]
      by_cases huv : u = v
      · subst huv
        rw [Function.update_self, Function.update_self, hk.asleep u hu hva]
        simp [Shows]
      · rw [upd_ne _ _ huv, upd_ne _ _ huv]; exact S.pc u hu
  | wakeNone j hn hno =>
    rw [hn] at St
    simp only [Shows] at St
    obtain ⟨_, hd⟩ := hk.notify t ht _ hn
    have hnw : ∀ v, v < e.threads → c.pc v ≠ .waiting := by
      intro v hv hw
      have := S.pc v hv
      have hna := hno v hv
      rw [hw] at this
      unfold Shows at this
      split at this
      · exact hna (by assumption)
      · simp at this
      · simp at this
      · split at this <;> simp at this
    have h1 := CStep.wakeNone (H := e.H) c t j ht St hnw
    rw [S.q] at h1
    refine S.changed (t := t) .wakeOne (by simp) h1 (fun u hu => ?_) (fun _ _ => rfl) ?_ fun _ _ => hd
    · dsimp only; rw [upd_ne _ _ hu]
    · dsimp only
      rw [Function.update_self, hd]
      unfold slpNotify pcAfterWakeOne
      split <;> simp [Shows]
  | wakeAll hn =>
    rw [hn] at St
    simp only [Shows] at St
    have hb : ∃ b, c.pc t = .notifyAll b ∧ Shows .awake (k.s.wk t).pc (if b then .left else .running) := by
      rcases St with ⟨h1, h2⟩ | ⟨h1, h2⟩
      · exact ⟨true, h2, by rw [h1]; simp [Shows]⟩
      · exact ⟨false, h2, by rw [h1]; simp [Shows]⟩
    obtain ⟨b, hb1, hb2⟩ := hb
    refine ⟨_, S.next .wakeAll (by simp) (CStep.wakeAll (H := e.H) c t b ht hb1) S.q (fun u hu => ?_) fun u hu h1 _ => S.mark u hu h1⟩
    dsimp only
    by_cases hut : u = t
    · subst hut
      rw [Function.update_self, Function.update_self]
      exact hb2
    · rw [upd_ne _ _ hut, upd_ne _ _ hut]
      have Su := S.pc u hu
      by_cases hua : k.sl u = .asleep
      · rw [hua] at Su
        simp only [Shows] at Su
        rw [if_pos hua, if_pos Su, hk.asleep u hu hua]
        simp [Shows]
      · have hnw : c.pc u ≠ .waiting := by
          intro hw
          rw [hw] at Su
          unfold Shows at Su
          split at Su
          · exact hua (by assumption)
          · simp at Su
          · simp at Su
          · split at Su <;> simp at Su
        rw [if_neg hua, if_neg hnw]
        exact Su

theorem KRun.sim (g : e.Good rows w starts ends) (hst : e.Started) {tr : List (Nat × Inp)} {k : KState} (h : KRun e r tr k) :
    ∃ c p, Sim e k c p := by
  induction h with
  | start s hs =>
    obtain ⟨_, _, _, _, _, hwk⟩ := start_inv g hs
    unfold BState.start at hs
    cases hq : QState.new e.threads with
    | error er => rw [hq] at hs; simp at hs
    | ok q =>
      rw [hq] at hs
      dsimp only at hs
      rcases hq1 : q.step e.H (.push 0 [] []) with ⟨o, q1⟩
      rw [hq1] at hs
      cases o with
      | error er => simp at hs
      | ok x =>
        simp only [Except.ok.injEq] at hs
        have hx : x = .unit := by
          simp only [QState.step, QState.push, QState.pushNodes] at hq1
          split at hq1
          · simp only [Prod.mk.injEq, Except.ok.injEq] at hq1; exact hq1.1.symm
          · split at hq1
            · simp at hq1
            · split at hq1
              · simp at hq1
              · simp only [Prod.mk.injEq, Except.ok.injEq] at hq1; exact hq1.1.symm
        subst hx
        refine ⟨_, _, .init q q1 hq hq1, by rw [← hs], fun t _ => ?_, by simp⟩
        dsimp only
        rw [hwk t]
        simp [Shows]
  | step tr k k' t i hr ht _ hs ih =>
    obtain ⟨tr', _, hb⟩ := hr.brun
    obtain ⟨_, all, hg⟩ := run_ginv g hst hb
    obtain ⟨c, p, S⟩ := ih
    exact S.step g hg (hr.kinv g hst) ht hs

end
end Mtsp
