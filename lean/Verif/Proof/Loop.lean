import Verif.Proof.Play
import Verif.Spec.Termination

/-! Executions of a single worker that repeat themselves, except that its LP collects rows which the solution satisfies. -/

namespace Mtsp

def Worker.addCuts (l : List LinCon) (w : Worker) : Worker := { w with cuts := l ++ w.cuts }

/-- further rows in the LP of worker 0 -/
def BState.addCuts (l : List LinCon) (s : BState) : BState := { s with wk := fun u => if u = 0 then (s.wk 0).addCuts l else s.wk u }

theorem addCuts_wk (l : List LinCon) (s : BState) : (s.addCuts l).wk 0 = (s.wk 0).addCuts l := by simp [BState.addCuts]

theorem addCuts_setWk (l : List LinCon) (s : BState) (w : Worker) : (s.addCuts l).setWk 0 (w.addCuts l) = (s.setWk 0 w).addCuts l := by
  simp only [BState.addCuts, BState.setWk, if_true, BState.mk.injEq, true_and]
  funext u
  by_cases h : u = 0 <;> simp [h]

theorem addCuts_setWk' (l : List LinCon) (q : QState) (r : ResState) (d : CDeque LinCon) (f : Nat → Worker) (w : Worker) :
    BState.setWk ⟨q, r, d, fun u => if u = 0 then (f 0).addCuts l else f u⟩ 0 (w.addCuts l) = (BState.setWk ⟨q, r, d, f⟩ 0 w).addCuts l :=
  addCuts_setWk l ⟨q, r, d, f⟩ w

theorem evaluate_addCuts (e : BEnv) (l : List LinCon) (w : Worker) (lb ub : ℚ) (y rc : Nat → ℚ) :
    (w.addCuts l).evaluate e lb ub y rc = (w.evaluate e lb ub y rc).addCuts l := by
  unfold Worker.evaluate
  have h1 : (w.addCuts l).fix = w.fix := rfl
  rw [h1]
  split
  · rfl
  · split
    · rfl
    · dsimp only
      split
      · rfl
      · split
        · rfl
        · split <;> rfl

theorem step_addCuts (e : BEnv) (l : List LinCon) (s : BState) (i : Inp) : (s.addCuts l).step e 0 i = (s.step e 0 i).addCuts l := by
  have h1 : ((s.addCuts l).wk 0).pc = (s.wk 0).pc := by rw [addCuts_wk]; rfl
  have h2 : ((s.addCuts l).wk 0).fix = (s.wk 0).fix := by rw [addCuts_wk]; rfl
  have hw := addCuts_wk l s
  have hg : ∀ (s' : BState) (pc : Pc), (s'.addCuts l).goto 0 pc = (s'.goto 0 pc).addCuts l := by
    intro s' pc
    unfold BState.goto
    rw [addCuts_wk, ← addCuts_setWk]
    rfl
  have hq : ∀ (s' : BState) (q : QState), { s'.addCuts l with q := q } = ({ s' with q := q } : BState).addCuts l := fun _ _ => rfl
  have hr : ∀ (s' : BState) (r : ResState), { s'.addCuts l with res := r } = ({ s' with res := r } : BState).addCuts l := fun _ _ => rfl
  have hd : ∀ (s' : BState) (d : CDeque LinCon), { s'.addCuts l with deque := d } = ({ s' with deque := d } : BState).addCuts l := fun _ _ => rfl
  have e1 : (s.addCuts l).q = s.q := rfl
  have e2 : (s.addCuts l).res = s.res := rfl
  have e3 : (s.addCuts l).deque = s.deque := rfl
  unfold BState.step
  rw [h1]
  split
  · rw [e1]; split <;> rw [hg]
  · rw [e2]; dsimp only; rw [hr]; split
    · rw [hg]
    · split <;> rw [hg]
  · rw [e1, hq, hg]
  · rw [e1, h2]
    split
    · rw [hq, hg]
    · rw [hq, hg]
    · split
      · split
        · rw [hq, hg]
        · rw [hq, hw, ← addCuts_setWk]; rfl
      · split
        · rw [hq, hg]
        · rw [hq, hw, ← addCuts_setWk]; rfl
    · rfl
  · rw [e1]; split <;> rw [hg]
  · rw [e2]; dsimp only; rw [hr]; split <;> rw [hg]
  · rw [e3]
    split
    · rw [hd, hg]
    · rw [hd, hw, ← addCuts_setWk]
      congr 1
      simp [Worker.addCuts]
  · rw [e3]; split <;> rw [hd, hg]
  · split <;> rw [hg]
  · rw [e1]; split <;> rw [hq, hg]
  · rw [e1]; split <;> rw [hg]
  · rw [e2]; dsimp only; rw [hr]; split
    · rw [hg]
    · rw [hw, evaluate_addCuts, addCuts_setWk]
  · split
    · rw [hg]
    · rw [hw, e2, evaluate_addCuts, addCuts_setWk]
    · dsimp only; rw [e2, hr, hw, evaluate_addCuts, addCuts_setWk]
  · rw [e3]; split <;> rw [hd, hg]
  · rw [e1]; split <;> rw [hq, hg]
  · rw [e2]; split <;> rw [hg]
  · split
    · rw [hg]
    · rw [e2, hr, hg]
  · rw [e1]; split <;> rw [hq, hg]
  · rfl
  · rfl

/-- rows that the optimum satisfies do not make it less optimal -/
theorem exact_addCuts {e : BEnv} {l : List LinCon} {w : Worker} {y rc : Nat → ℚ} (h : (e.prob w).Exact y rc)
    (hl : ∀ c ∈ l, c.Sat y) : (e.prob (w.addCuts l)).Exact y rc := by
  obtain ⟨h0, h1, h2, h3, h4⟩ := h
  have hsub : ∀ c ∈ (e.prob w).rows, c ∈ (e.prob (w.addCuts l)).rows := by
    intro c hc
    simp only [BEnv.prob, Worker.addCuts, List.mem_append] at hc ⊢
    tauto
  refine ⟨h0, ⟨?_, h1.bounds⟩, fun z hz => h2 z fun c hc => hz c (hsub c hc), h3, h4⟩
  intro c hc
  simp only [BEnv.prob, Worker.addCuts, List.mem_append] at hc
  rcases hc with hc | hc | hc
  · exact h1.rows c (List.mem_append_left _ hc)
  · exact hl c hc
  · exact h1.rows c (List.mem_append_right _ hc)

/-- the answer is an optimum that satisfies the rows -/
def optSatB (l : List LinCon) : LPAnswer → Bool
  | .optimal y _ => l.all fun c => satB y c
  | _ => false

def Pc.isEnd : Pc → Bool
  | .left => true
  | .crashed _ => true
  | _ => false

section
variable {e : BEnv} {s0 : BState} (I : Nat → Inp)

/-- worker 0 runs alone with inputs `I` -/
def runBy (e : BEnv) (s0 : BState) (I : Nat → Inp) : Nat → BState
  | 0 => s0
  | n + 1 => (runBy e s0 I n).step e 0 (I n)

/-- an execution that repeats itself goes on forever -/
theorem loop_forever {r : ResState} (hthr : e.threads = 1) (hs : BState.start e r = .ok s0) {l : List LinCon} {p k : Nat} (hk : 0 < k)
    (hI : ∀ n, p ≤ n → I (n + k) = I n)
    (hok : ∀ n < p + k, (I n).Ok e (runBy e s0 I n) 0)
    (hend : ∀ n < p + k, ((runBy e s0 I n).wk 0).pc.isEnd = false)
    (hsat : ∀ n < k, ((runBy e s0 I (p + n)).wk 0).pc.isSolve = true → optSatB l (I (p + n)).ans = true ∧
      ∀ y rc, (I (p + n)).ans = .optimal y rc → (e.prob ((runBy e s0 I (p + n)).wk 0)).Exact y rc)
    (hper : runBy e s0 I (p + k) = (runBy e s0 I p).addCuts l) :
    FairRun e r (fun _ => 0) I (runBy e s0 I) ∧ ∀ n, ∀ u < e.threads, ((runBy e s0 I n).wk u).pc.isEnd = false := by
  have hshift : ∀ n, p ≤ n → runBy e s0 I (n + k) = (runBy e s0 I n).addCuts l := by
    intro n hn
    induction n, hn using Nat.le_induction with
    | base => exact hper
    | succ n hn ih =>
      rw [show n + 1 + k = (n + k) + 1 by omega]
      show (runBy e s0 I (n + k)).step e 0 (I (n + k)) = _
      rw [ih, hI n hn, step_addCuts]
      rfl
  have hpc : ∀ n, p ≤ n → ((runBy e s0 I (n + k)).wk 0).pc = ((runBy e s0 I n).wk 0).pc := by
    intro n hn
    rw [hshift n hn, addCuts_wk]; rfl
  have hall : ∀ n, (I n).Ok e (runBy e s0 I n) 0 ∧ ((runBy e s0 I n).wk 0).pc.isEnd = false ∧
      (p ≤ n → ((runBy e s0 I n).wk 0).pc.isSolve = true → optSatB l (I n).ans = true ∧
        ∀ y rc, (I n).ans = .optimal y rc → (e.prob ((runBy e s0 I n).wk 0)).Exact y rc) := by
    intro n
    induction n using Nat.strong_induction_on with
    | _ n ih =>
      by_cases hn : n < p + k
      · refine ⟨hok n hn, hend n hn, fun hp => ?_⟩
        have := hsat (n - p) (by omega)
        rwa [show p + (n - p) = n by omega] at this
      · obtain ⟨m, rfl⟩ : ∃ m, n = m + k := ⟨n - k, by omega⟩
        have hm : p ≤ m := by omega
        obtain ⟨i1, i2, i3⟩ := ih m (by omega)
        rw [hpc m hm, hI m hm]
        have hx : ((runBy e s0 I m).wk 0).pc.isSolve = true → ∀ y rc, (I m).ans = .optimal y rc →
            (e.prob ((runBy e s0 I (m + k)).wk 0)).Exact y rc := by
          intro hsv y rc ha
          obtain ⟨h1, h2⟩ := i3 hm hsv
          rw [hshift m hm, addCuts_wk]
          rw [ha] at h1
          exact exact_addCuts (h2 y rc ha) fun c hc => (satB_iff _ _).1 (List.all_eq_true.1 h1 c hc)
        refine ⟨?_, i2, fun _ hsv => ⟨(i3 hm hsv).1, hx hsv⟩⟩
        unfold Inp.Ok
        rw [hpc m hm]
        split
        · rename_i lb hp
          have hsv : ((runBy e s0 I m).wk 0).pc.isSolve = true := by rw [hp]; rfl
          have h1 := (i3 hm hsv).1
          cases ha : (I m).ans with
          | optimal y rc => exact (hx hsv y rc ha).correct
          | _ => rw [ha] at h1; simp [optSatB] at h1
        · trivial
  refine ⟨⟨hs, fun _ => rfl, fun _ => by omega, fun n => (hall n).1, fun t ht n => ⟨n, le_refl _, by omega⟩⟩, ?_⟩
  intro n u hu
  have : u = 0 := by omega
  subst this
  exact (hall n).2.1
end

/-! ### scripts -/

theorem play_append (e : BEnv) : ∀ (l l' : List (Nat × Cue)) (s : BState), play e s (l ++ l') = play e (play e s l) l'
  | [], _, _ => rfl
  | x :: l, l', s => play_append e l l' _

/-- a script for worker 0 -/
def solo (cs : List Cue) : List (Nat × Cue) := cs.map fun c => (0, c)

/-- the worker has not ended before any of the steps -/
def aliveB (e : BEnv) : BState → List Cue → Bool
  | _, [] => true
  | s, c :: cs => !(s.wk 0).pc.isEnd && aliveB e (s.step e 0 (c.inp e s 0)) cs

theorem aliveB_get {e : BEnv} : ∀ (cs : List Cue) (s : BState), aliveB e s cs = true → ∀ n < cs.length,
    ((play e s (solo (cs.take n))).wk 0).pc.isEnd = false
  | [], _, _, n, hn => by simp at hn
  | c :: cs, s, h, n, hn => by
    simp only [aliveB, Bool.and_eq_true, Bool.not_eq_true'] at h
    cases n with
    | zero => exact h.1
    | succ n => exact aliveB_get cs _ h.2 n (by simpa using hn)

theorem playB_get {e : BEnv} : ∀ (cs : List Cue) (s : BState), playB e s (solo cs) = true → ∀ n (hn : n < cs.length),
    cs[n].okB e (play e s (solo (cs.take n))) 0 = true
  | [], _, _, n, hn => by simp at hn
  | c :: cs, s, h, n, hn => by
    simp only [solo, List.map_cons, playB, Bool.and_eq_true] at h
    cases n with
    | zero => exact h.1.2
    | succ n => exact playB_get cs _ h.2 n (by simpa using hn)

/-- what the cue gives to the worker at that point of the script -/
def scriptInp (e : BEnv) (s0 : BState) (cs : List Cue) (n : Nat) : Inp :=
  (cs.getD n (.go false)).inp e (play e s0 (solo (cs.take n))) 0

theorem runBy_script {e : BEnv} {s0 : BState} {cs : List Cue} {I : Nat → Inp} (hI : ∀ n < cs.length, I n = scriptInp e s0 cs n) :
    ∀ n ≤ cs.length, runBy e s0 I n = play e s0 (solo (cs.take n)) := by
  intro n
  induction n with
  | zero => intro _; simp [runBy, solo, play]
  | succ n ih =>
    intro hn
    show (runBy e s0 I n).step e 0 (I n) = _
    rw [ih (by omega), hI n (by omega), List.take_succ_eq_append_getElem (by omega)]
    unfold solo
    rw [List.map_append, play_append]
    simp only [List.map_cons, List.map_nil, play, scriptInp]
    rw [List.getD_eq_getElem?_getD, List.getElem?_eq_getElem (by omega)]
    rfl

/-- the cue is a step without an LP, or an optimum that satisfies the rows -/
def Cue.satB (l : List LinCon) : Cue → Bool
  | .go late => !late
  | .opt y _ => l.all fun c => Mtsp.satB y c
  | _ => false

/-- a script that ends where its second part began, except for rows that the solutions satisfy, can be repeated forever -/
theorem loop_of_script {e : BEnv} {r : ResState} {s0 : BState} (hthr : e.threads = 1) (hs : BState.start e r = .ok s0)
    {pre cyc : List Cue} (hne : 0 < cyc.length) {l : List LinCon}
    (hp : playB e s0 (solo (pre ++ cyc)) = true) (ha : aliveB e s0 (pre ++ cyc) = true)
    (hearly : pre.all Cue.early = true) (hsat : cyc.all (Cue.satB l) = true)
    (hper : play e s0 (solo (pre ++ cyc)) = (play e s0 (solo pre)).addCuts l) :
    ∃ who inp st, FairRun e r who inp st ∧ (∀ n, (inp n).late = false ∧ (inp n).ans ≠ .timeout ∧ (inp n).ans ≠ .error) ∧
      ∀ n, ∀ u < e.threads, ((st n).wk u).pc.isEnd = false := by
  have hlen : (pre ++ cyc).length = pre.length + cyc.length := List.length_append
  let J : Nat → Nat := fun n => if n < pre.length then n else pre.length + (n - pre.length) % cyc.length
  have hJ : ∀ n, J n < (pre ++ cyc).length := by
    intro n
    have := Nat.mod_lt (n - pre.length) hne
    simp only [J]
    split <;> omega
  have hJ2 : ∀ n < (pre ++ cyc).length, J n = n := by
    intro n hn
    simp only [J]
    split
    · rfl
    · rw [Nat.mod_eq_of_lt (by omega)]; omega
  let I : Nat → Inp := fun n => scriptInp e s0 (pre ++ cyc) (J n)
  have hI : ∀ n < (pre ++ cyc).length, I n = scriptInp e s0 (pre ++ cyc) n := fun n hn => by simp only [I, hJ2 n hn]
  have hrun := runBy_script hI
  have hget : ∀ n (hn : n < (pre ++ cyc).length), scriptInp e s0 (pre ++ cyc) n = (pre ++ cyc)[n].inp e (play e s0 (solo ((pre ++ cyc).take n))) 0 := by
    intro n hn
    unfold scriptInp
    rw [List.getD_eq_getElem?_getD, List.getElem?_eq_getElem hn]
    rfl
  have hcyc : ∀ n < cyc.length, ∀ (h : pre.length + n < (pre ++ cyc).length), (pre ++ cyc)[pre.length + n].satB l = true := by
    intro n hn h
    rw [List.getElem_append_right (by omega)]
    simp only [Nat.add_sub_cancel_left]
    exact List.all_eq_true.1 hsat _ (List.getElem_mem _)
  refine ⟨fun _ => 0, I, runBy e s0 I, ?_⟩
  have key : FairRun e r (fun _ => 0) I (runBy e s0 I) ∧ ∀ n, ∀ u < e.threads, ((runBy e s0 I n).wk u).pc.isEnd = false := by
    refine loop_forever (I := I) (l := l) (p := pre.length) (k := cyc.length) hthr hs hne ?_ ?_ ?_ ?_ ?_
    · intro n hn
      have : J (n + cyc.length) = J n := by
        simp only [J]
        rw [if_neg (by omega), if_neg (by omega), show n + cyc.length - pre.length = n - pre.length + cyc.length by omega, Nat.add_mod_right]
      simp only [I, this]
    · intro n hn
      rw [← hlen] at hn
      rw [hI n hn, hrun n (by omega), hget n hn]
      exact Cue.ok (playB_get _ _ hp n hn)
    · intro n hn
      rw [← hlen] at hn
      rw [hrun n (by omega)]
      exact aliveB_get _ _ ha n hn
    · intro n hn hsolve
      have hn' : pre.length + n < (pre ++ cyc).length := by omega
      rw [hI _ hn', hget _ hn']
      rw [hrun _ (by omega)] at hsolve
      have h1 := playB_get _ _ hp _ hn'
      have h2 := hcyc n hn hn'
      generalize (pre ++ cyc)[pre.length + n] = c at h1 h2
      cases c with
      | go b => simp [Cue.okB, hsolve] at h1
      | opt y m =>
        refine ⟨h2, fun y' rc' ha => ?_⟩
        rw [hrun _ (by omega)]
        simp only [Cue.inp, LPAnswer.optimal.injEq] at ha
        rw [← ha.1, ← ha.2]
        exact certB_exact h1
      | inf m => simp [Cue.satB] at h2
      | timeout => simp [Cue.satB] at h2
    · rw [hrun _ (by omega), hrun _ (by omega), ← hlen, List.take_length, hper, List.take_left]
  obtain ⟨f, h⟩ := key
  refine ⟨f, ?_, h⟩
  intro n
  simp only [I]
  rw [hget _ (hJ n)]
  have hmem : (pre ++ cyc)[J n]'(hJ n) ∈ pre ++ cyc := List.getElem_mem _
  generalize (pre ++ cyc)[J n]'(hJ n) = c at hmem
  have : c.early = true := by
    rcases List.mem_append.1 hmem with hm | hm
    · exact List.all_eq_true.1 hearly _ hm
    · have := List.all_eq_true.1 hsat _ hm
      cases c <;> simp_all [Cue.early, Cue.satB]
  cases c <;> simp_all [Cue.early, Cue.inp]

/-- a test for `hper` -/
def sameB (l : List LinCon) (s s' : BState) : Bool :=
  decide (s'.q = s.q) && decide (s'.res = s.res) && decide (s'.deque.deque = s.deque.deque) && decide (s'.deque.readPos = s.deque.readPos) &&
  decide ((s'.wk 0).cuts = l ++ (s.wk 0).cuts) && decide ((s'.wk 0).fix = (s.wk 0).fix) &&
  (match (s.wk 0).pc, (s'.wk 0).pc with | .head, .head => true | _, _ => false)

theorem play_other {e : BEnv} : ∀ (cs : List Cue) (s : BState) {u : Nat}, u ≠ 0 → (play e s (solo cs)).wk u = s.wk u
  | [], _, _, _ => rfl
  | c :: cs, s, u, hu => by
    show (play e (s.step e 0 (c.inp e s 0)) (solo cs)).wk u = _
    rw [play_other cs _ hu, step_other _ _ hu]

theorem sameB_sound {e : BEnv} {s0 : BState} {pre cyc : List Cue} {l : List LinCon}
    (h : sameB l (play e s0 (solo pre)) (play e s0 (solo (pre ++ cyc))) = true) :
    play e s0 (solo (pre ++ cyc)) = (play e s0 (solo pre)).addCuts l := by
  have ho : ∀ u, u ≠ 0 → (play e s0 (solo (pre ++ cyc))).wk u = (play e s0 (solo pre)).wk u := fun u hu => by
    rw [play_other _ _ hu, play_other _ _ hu]
  generalize play e s0 (solo (pre ++ cyc)) = s' at *
  generalize play e s0 (solo pre) = s at *
  simp only [sameB, Bool.and_eq_true, decide_eq_true_eq] at h
  obtain ⟨⟨⟨⟨⟨⟨h1, h2⟩, h3⟩, h4⟩, h5⟩, h6⟩, h7⟩ := h
  have h8 : (s'.wk 0).pc = (s.wk 0).pc := by
    split at h7
    · rename_i a b; rw [a, b]
    · simp at h7
  obtain ⟨q, r, d, f⟩ := s
  obtain ⟨q', r', d', f'⟩ := s'
  simp only at h1 h2 h3 h4 h5 h6 h8 ho
  simp only [BState.addCuts, BState.mk.injEq]
  refine ⟨h1, h2, ?_, ?_⟩
  · cases d; cases d'; simp only at h3 h4; rw [h3, h4]
  · funext u
    by_cases hu : u = 0
    · subst hu
      simp only [if_true, Worker.addCuts]
      rw [← h5, ← h6, ← h8]
    · simp only [hu, if_false]; exact ho u hu

end Mtsp
