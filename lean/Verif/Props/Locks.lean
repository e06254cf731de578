import Verif.Proof.LocksComplete
import Verif.Proof.Solver
import Verif.Proof.Play
import Verif.Props.Noise

/-!
C87: the mutexes make the member functions of the shared objects indivisible.  The search, executed statement by statement with any
interleaving, has no data race and no deadlock and behaves like the search of Model/BranchAndCut.lean, in which every critical section
is one step; what another thread is told about the bounds while the search is running are bounds the search had.  `GetPaths` is the
exception.
-/

namespace Mtsp

variable {e : BEnv} {obs : Call → Prop} {r : ResState} {f : FState}

theorem FSim.accesses {r0 : ResState} {s : BState} (h : FSim e r0 f s) {t : Nat} {o : Obj} (ha : f.Accesses t o) : f.own o = some t := by
  obtain ⟨c, l, r, i, rfl, ha⟩ := ha
  have hx : ∃ a : Instr c.obj.St, f.fr t = some ⟨c, a :: l, r, i⟩ ∧ ((∃ g, a = .act g) ∨ ∃ p, a = .wait p) := by
    rcases ha with ⟨g, hg⟩ | ⟨p, hp⟩
    · exact ⟨_, hg, .inl ⟨g, rfl⟩⟩
    · exact ⟨_, hp, .inr ⟨p, rfl⟩⟩
  obtain ⟨a, hf, ha⟩ := hx
  cases h.thr t with
  | idle a1 => rw [hf] at a1; simp at a1
  | before c' l' r' i' a1 a2 a3 a4 a5 =>
    rw [hf] at a1; cases a1
    rcases ha with ⟨g, rfl⟩ | ⟨p, rfl⟩ <;> simp [Instr.fits] at a5
  | clean c' l' r' i' a1 a2 a3 => rw [hf] at a1; cases a1; exact (a3 _).2 rfl
  | dirty c' l' r' i' a1 a2 a3 => rw [hf] at a1; cases a1; exact (a3 _).2 rfl
  | after c' r' i' a1 => rw [hf] at a1; cases a1

/-- a thread that has a mutex is inside a function of that object, and can go on -/
theorem FSim.owner {r0 : ResState} {s : BState} (h : FSim e r0 f s) {u : Nat} {o : Obj} (hu : f.own o = some u) :
    ∃ (c : Call) (a : Instr c.obj.St) (l : List (Instr c.obj.St)) (r : Reg) (i : Inp), c.obj = o ∧ f.fr u = some ⟨c, a :: l, r, i⟩ ∧
      ((∃ g, a = .act g ∧ l ≠ []) ∨ (∃ p, a = .wait p) ∨ a = .unlock) ∧ ∀ o', f.own o' = some u → o' = o := by
  have key : ∀ (c : Call) (st : Stage) (l : List (Instr c.obj.St)), st ≠ .before → Instr.fits st l = true →
      ∃ a l', l = a :: l' ∧ ((∃ g, a = .act g ∧ l' ≠ []) ∨ (∃ p, a = .wait p) ∨ a = .unlock) := by
    intro c st l hst hl
    cases l with
    | nil => cases st <;> simp [Instr.fits] at hl
    | cons a l' =>
      refine ⟨a, l', rfl, ?_⟩
      cases a with
      | loc g => cases st <;> simp [Instr.fits] at hl hst
      | lock => cases st <;> simp [Instr.fits] at hl hst
      | wait p => exact .inr (.inl ⟨p, rfl⟩)
      | act g =>
        refine .inl ⟨g, rfl, ?_⟩
        rintro rfl
        cases st <;> simp [Instr.fits] at hl
      | unlock => exact .inr (.inr rfl)
  cases h.thr u with
  | idle a1 a2 => exact (a2 o hu).elim
  | before c' l' r' i' a1 a2 a3 => exact (a3 o hu).elim
  | clean c' l' r' i' a1 a2 a3 a4 a5 =>
    obtain ⟨a, l'', rfl, ha⟩ := key c' .clean l' (by simp) a5
    obtain rfl := (a3 o).1 hu
    exact ⟨c', a, l'', r', i', rfl, a1, ha, fun o' ho' => (a3 o').1 ho'⟩
  | dirty c' l' r' i' a1 a2 a3 a4 a5 =>
    obtain ⟨a, l'', rfl, ha⟩ := key c' .dirty l' (by simp) a5
    obtain rfl := (a3 o).1 hu
    exact ⟨c', a, l'', r', i', rfl, a1, ha, fun o' ho' => (a3 o').1 ho'⟩
  | after c' r' i' a1 a2 => exact (a2 o hu).elim

/-- **C87** (no data race): at no time are two threads about to access the same object. -/
theorem C87_no_race (hw : Watching obs) (h : FRun e obs r f) {t u : Nat} (htu : t ≠ u) (o : Obj) : ¬ (f.Accesses t o ∧ f.Accesses u o) := by
  obtain ⟨tr, s, _, hs⟩ := h.sim hw
  rintro ⟨h1, h2⟩
  have := (hs.accesses h1).symm.trans (hs.accesses h2)
  exact htu (Option.some.inj this)

/-- **C87** (atomicity): at any time there is an execution of Model/BranchAndCut.lean, in which every critical section is one step,
with the same contents of all objects whose mutex is free and the same workers, as far as they are not inside a function. -/
theorem C87_atomic (hw : Watching obs) (h : FRun e obs r f) :
    ∃ tr s, BRun e r tr s ∧ (∀ o, f.own o = none → f.sh o = s.sh o) ∧ ∀ t, f.fr t = none → f.wk t = s.wk t := by
  obtain ⟨tr, s, hr, hs⟩ := h.sim hw
  refine ⟨tr, s, hr, hs.free, ?_⟩
  intro t ht
  cases hs.thr t with
  | idle _ _ a => exact a
  | before c l r i a1 => rw [ht] at a1; simp at a1
  | clean c l r i a1 => rw [ht] at a1; simp at a1
  | dirty c l r i a1 => rw [ht] at a1; simp at a1
  | after c r i a1 => rw [ht] at a1; simp at a1

/-- **C87** (same states): when nobody is inside a function, e.g. when all workers have left the loop, the state is one that
Model/BranchAndCut.lean reaches; so everything proved about the results of the search holds for any interleaving of statements. -/
theorem C87_same_states (hw : Watching obs) (h : FRun e obs r f) (hq : ∀ t, f.fr t = none) : ∃ tr, BRun e r tr f.core := by
  obtain ⟨tr, s, hr, hs⟩ := h.sim hw
  have hown : ∀ o, f.own o = none := by
    intro o
    cases ho : f.own o with
    | none => rfl
    | some u =>
      obtain ⟨c, a, l, r', i, _, h1, _⟩ := hs.owner ho
      rw [hq u] at h1
      simp at h1
  have hwk : f.wk = s.wk := by
    funext t
    cases hs.thr t with
    | idle _ _ a => exact a
    | before c l r i a1 => rw [hq t] at a1; simp at a1
    | clean c l r i a1 => rw [hq t] at a1; simp at a1
    | dirty c l r i a1 => rw [hq t] at a1; simp at a1
    | after c r i a1 => rw [hq t] at a1; simp at a1
  have : f.core = s := BState.ext' (by funext o; cases o <;> exact hs.free _ (hown _)) hwk
  exact ⟨tr, this ▸ hr⟩

/-- **C87** (nothing lost): every execution of Model/BranchAndCut.lean can happen statement by statement. -/
theorem C87_every_search (obs : Call → Prop) {tr : List (Nat × Inp)} {s : BState} (h : BRun e r tr s) : FRun e obs r (FState.of s) := h.fine

/-- **C87** (observers): what another thread is told about the bounds during the search are the bounds of one state of the search; the
lower bound is never above the upper bound. -/
theorem C87_observer (hw : Watching obs) (h : FRun e obs r f) {x : Ret} (hx : x ∈ f.seen) :
    ∃ tr s, BRun e r tr s ∧ x = .b (some ⟨s.res.lower, s.res.upper⟩) ∧ (r.lower ≤ r.upper → s.res.lower ≤ s.res.upper) := by
  obtain ⟨tr, s, hr, hs⟩ := h.sim hw
  obtain ⟨tr', s', h1, h2⟩ := hs.told x hx
  exact ⟨tr', s', h1, h2, (run_res h1).1⟩

/-- **C87** (no deadlock): a thread inside a function can go on, unless it needs a mutex that another thread has; that thread can go
on. -/
theorem C87_no_deadlock (hw : Watching obs) (h : FRun e obs r f) {t : Nat} (ht : f.fr t ≠ none) :
    (∃ f', FStep e obs t f f') ∨ ∃ o u, f.WantsLock t o ∧ u ≠ t ∧ f.own o = some u ∧ ∃ f', FMicro u f f' := by
  obtain ⟨tr, s, hr, hs⟩ := h.sim hw
  obtain ⟨⟨c, l, rg, i⟩, hf⟩ := Option.ne_none_iff_exists'.1 ht
  cases l with
  | nil =>
    by_cases hlt : t < e.threads
    · exact .inl ⟨_, .ret c rg i hlt hf⟩
    · exact .inl ⟨_, .told c rg i hlt hf⟩
  | cons a l =>
    cases a with
    | loc g => exact .inl ⟨_, .micro _ (.loc c g l rg i hf)⟩
    | wait p =>
      cases hp : p (f.sh c.obj) with
      | true => exact .inl ⟨_, .micro _ (.block c p l rg i hf hp)⟩
      | false => exact .inl ⟨_, .micro _ (.pass c p l rg i hf hp)⟩
    | act g => exact .inl ⟨_, .micro _ (.act c g l rg i hf)⟩
    | unlock => exact .inl ⟨_, .micro _ (.unlock c l rg i hf)⟩
    | lock =>
      cases ho : f.own c.obj with
      | none => exact .inl ⟨_, .micro _ (.lock c l rg i hf ho)⟩
      | some u =>
        obtain ⟨c', a, l', r', i', hc, h1, ha, _⟩ := hs.owner ho
        refine .inr ⟨c.obj, u, ⟨c, l, rg, i, rfl, hf⟩, ?_, ho, ?_⟩
        · rintro rfl
          rw [hf] at h1
          cases h1
          rcases ha with ⟨g, h, _⟩ | ⟨p, h⟩ | h <;> simp at h
        · rcases ha with ⟨g, rfl, _⟩ | ⟨p, rfl⟩ | rfl
          · exact ⟨_, .act c' g l' r' i' h1⟩
          · cases hp : p (f.sh c'.obj) with
            | true => exact ⟨_, .block c' p l' r' i' h1 hp⟩
            | false => exact ⟨_, .pass c' p l' r' i' h1 hp⟩
          · exact ⟨_, .unlock c' l' r' i' h1⟩

/-- **C87** (short critical sections): a thread that has a mutex has no other one, waits for none, and every step it makes either
gives the mutex back or leaves fewer statements to be executed. -/
theorem C87_holder_progress (hw : Watching obs) (h : FRun e obs r f) {u : Nat} {o : Obj} (ho : f.own o = some u) :
    (∀ o', f.own o' = some u → o' = o) ∧ (∀ o', ¬ f.WantsLock u o') ∧
    ∀ f', FStep e obs u f f' → f'.own o = none ∨ f'.own o = some u ∧ f'.todo u < f.todo u := by
  obtain ⟨tr, s, hr, hs⟩ := h.sim hw
  obtain ⟨c, a, l, rg, i, rfl, hf, ha, hone⟩ := hs.owner ho
  refine ⟨hone, ?_, ?_⟩
  · rintro o' ⟨c', l', r', i', _, h1⟩
    rw [hf] at h1
    cases h1
    rcases ha with ⟨g, h, _⟩ | ⟨p, h⟩ | h <;> simp at h
  · intro f' st
    cases st with
    | alone i' _ h1 => rw [hf] at h1; simp at h1
    | enter i' c' _ h1 => rw [hf] at h1; simp at h1
    | ret c' r' i' _ h1 => rw [hf] at h1; cases h1
    | ask c' i' _ h1 => rw [hf] at h1; simp at h1
    | told c' r' i' _ h1 => rw [hf] at h1; cases h1
    | micro _ m =>
      cases m with
      | loc c' g l' r' i' h1 =>
        rw [hf] at h1; cases h1
        rcases ha with ⟨g, h, _⟩ | ⟨p, h⟩ | h <;> simp at h
      | lock c' l' r' i' h1 =>
        rw [hf] at h1; cases h1
        rcases ha with ⟨g, h, _⟩ | ⟨p, h⟩ | h <;> simp at h
      | pass c' p l' r' i' h1 =>
        rw [hf] at h1; cases h1
        exact .inr ⟨ho, by simp [FState.todo, hf]⟩
      | block c' p l' r' i' h1 =>
        rw [hf] at h1; cases h1
        exact .inl (by simp)
      | act c' g l' r' i' h1 =>
        rw [hf] at h1; cases h1
        rcases ha with ⟨_, _, hl⟩ | ⟨p, h⟩ | h
        · refine .inr ⟨ho, ?_⟩
          have hl' : 0 < l.length := List.length_pos_iff.2 hl
          simp only [FState.todo, hf, Function.update_self, Instr.next, ho, decide_true, if_true, List.length_cons]
          split
          · simpa using hl'
          · omega
        · simp at h
        · simp at h
      | unlock c' l' r' i' h1 =>
        rw [hf] at h1; cases h1
        exact .inl (by simp)

/-! ### `GetPaths` -/

/-- the statements of `UpdateUpperBound` from the assignment of the paths on -/
def updUpperTail (v : ℚ) (p : Paths) : List (Instr ResState) := (resultBody (.updUpper v p)).drop 3

/-- a worker that is about to improve the upper bound and an observer that asks for the paths -/
theorem get_paths_race {tr : List (Nat × Inp)} {s : BState} (h : BRun e r tr s) (h0 : 0 < e.threads) {i : Inp} (hi : i.Ok e s 0) {v : ℚ}
    {p : Paths} (hc : (s.wk 0).call e 0 i = some (.result (.updUpper v p))) (hv : v < s.res.upper) (hp : p ≠ s.res.paths) :
    ∃ f, FRun e (· = .getPaths) r f ∧ f.Writes 0 .result ∧ f.Accesses e.threads .result := by
  have hne : e.threads ≠ 0 := by omega
  let c : Call := .result (.updUpper v p)
  let g1 : ResState → Reg → ResState × Reg := fun s r => (s, { r with flag := decide (v < s.upper) })
  let g2 : ResState → Reg → ResState × Reg := fun s r => if r.flag then ({ s with paths := p }, r) else (s, r)
  let l : List (Instr ResState) := updUpperTail v p
  have hb : c.body e = .lock :: .act g1 :: .act g2 :: l := rfl
  have h1 := FRun.step _ _ 0 (C87_every_search (· = .getPaths) h) (.enter (f := FState.of s) i c h0 rfl hi hc)
  have h2 := FRun.step _ _ 0 h1 (.micro _ (.lock c (.act g1 :: .act g2 :: l) {} i (by dsimp only; rw [Function.update_self, hb]; rfl) rfl))
  have h3 := FRun.step _ _ 0 h2 (.micro _ (.act c g1 (.act g2 :: l) {} i (by dsimp only; rw [Function.update_self])))
  have h4 := FRun.step _ _ e.threads h3 (.ask .getPaths i (by simp) (by simp [FState.of, hne]) rfl)
  refine ⟨_, h4, ?_, ?_⟩
  · refine ⟨c, g2, l, { flag := decide (v < s.res.upper) }, i, rfl, ?_, ?_⟩
    · dsimp only
      rw [Function.update_of_ne (Ne.symm hne), Function.update_self]
      rfl
    · intro hh
      have hf : decide (v < s.res.upper) = true := by simpa using hv
      rw [hf] at hh
      exact hp (congrArg ResState.paths (show ({ s.res with paths := p } : ResState) = s.res from hh))
  · exact ⟨.getPaths, [], {}, i, rfl, .inl ⟨_, Function.update_self _ _ _⟩⟩

/-- one worker solves the LP of the root; the optimum is a better solution than the initial one -/
def c87Script : List (Nat × Cue) := List.replicate 5 (0, .go false) ++ [(0, .opt c41Y [])] ++ List.replicate 4 (0, .go false)

def c87S : BState := play c72Env (exStart c72Env 6) c87Script

theorem c87_play : playB c72Env (exStart c72Env 6) c87Script = true := by decide +kernel

def c87Call (i : Inp) : Option (ℚ × Paths) :=
  match (c87S.wk 0).call c72Env 0 i with
  | some (.result (.updUpper v p)) => some (v, p)
  | _ => none

theorem c87_call : c87Call ⟨false, .infeasible, 1000⟩ = some (0, [[0, 5, 4, 1], [2, 3]]) := by decide +kernel

theorem c87_state : (decide ((c87S.wk 0).pc.isSolve = false) && decide ((0 : ℚ) < c87S.res.upper) &&
    decide ([[0, 5, 4, 1], [2, 3]] ≠ c87S.res.paths)) = true := by decide +kernel

theorem c87_calls : (c87S.wk 0).call c72Env 0 ⟨false, .infeasible, 1000⟩ = some (.result (.updUpper 0 [[0, 5, 4, 1], [2, 3]])) := by
  have := c87_call
  unfold c87Call at this
  split at this
  · rename_i hh
    rw [hh]
    simp only [Option.some.injEq, Prod.mk.injEq] at this
    rw [this.1, this.2]
  · simp at this

/-- **C87 refuted** for `GetPaths` (MtspResult.hpp:28), which does not take the mutex: while the search is running, a worker can be
about to write the paths while another thread is about to read them. -/
theorem C87_refuted_get_paths :
    ∃ (e : BEnv) (N : Nat) (W : Weights) (starts ends : List Nat) (r : ResState) (t t' : Nat) (f : FState),
      e.Good N W starts ends ∧ createInitialResult e.mode e.m t ResState.init = .ok (r, t') ∧ FRun e (· = .getPaths) r f ∧
      ∃ u v, u ≠ v ∧ f.Writes u .result ∧ f.Accesses v .result := by
  obtain ⟨r, t', hr, hrun, _⟩ := exStart_run (e := c72Env) (t := 6) (by decide +kernel)
  have h1 := hrun.play c87Script c87_play
  have hs := c87_state
  simp only [Bool.and_eq_true, decide_eq_true_eq] at hs
  obtain ⟨f, hf, hw, ha⟩ := get_paths_race h1 (by decide) (i := ⟨false, .infeasible, 1000⟩) (Inp.ok_of_not_solve hs.1.1) c87_calls hs.1.2 hs.2
  exact ⟨c72Env, 6, c72W, [0, 2], [1, 3], r, 6, t', f, c72_good, hr, hf, 0, c72Env.threads, by decide, hw, ha⟩

/-! ### The hypotheses are met -/

theorem c87_watching : Watching (· = .result .getBounds) := fun _ h => h

/-- a worker is about to write the paths, and an observer waits for the mutex -/
theorem watch_race {tr : List (Nat × Inp)} {s : BState} (h : BRun e r tr s) (h0 : 0 < e.threads) {i : Inp} (hi : i.Ok e s 0) {v : ℚ}
    {p : Paths} (hc : (s.wk 0).call e 0 i = some (.result (.updUpper v p))) (hv : v < s.res.upper) (hp : p ≠ s.res.paths) :
    ∃ f, FRun e (· = .result .getBounds) r f ∧ f.Writes 0 .result ∧ f.WantsLock e.threads .result ∧ f.own .result = some 0 := by
  have hne : e.threads ≠ 0 := by omega
  let c : Call := .result (.updUpper v p)
  let g1 : ResState → Reg → ResState × Reg := fun s r => (s, { r with flag := decide (v < s.upper) })
  let g2 : ResState → Reg → ResState × Reg := fun s r => if r.flag then ({ s with paths := p }, r) else (s, r)
  let l : List (Instr ResState) := updUpperTail v p
  have hb : c.body e = .lock :: .act g1 :: .act g2 :: l := rfl
  have h1 := FRun.step _ _ 0 (C87_every_search (· = .result .getBounds) h) (.enter (f := FState.of s) i c h0 rfl hi hc)
  have h2 := FRun.step _ _ 0 h1 (.micro _ (.lock c (.act g1 :: .act g2 :: l) {} i (by dsimp only; rw [Function.update_self, hb]; rfl) rfl))
  have h3 := FRun.step _ _ 0 h2 (.micro _ (.act c g1 (.act g2 :: l) {} i (by dsimp only; rw [Function.update_self])))
  have h4 := FRun.step _ _ e.threads h3 (.ask (.result .getBounds) i (by simp) (by simp [FState.of, hne]) rfl)
  refine ⟨_, h4, ?_, ?_, ?_⟩
  · refine ⟨c, g2, l, { flag := decide (v < s.res.upper) }, i, rfl, ?_, ?_⟩
    · dsimp only
      rw [Function.update_of_ne (Ne.symm hne), Function.update_self]
      rfl
    · intro hh
      have hf : decide (v < s.res.upper) = true := by simpa using hv
      rw [hf] at hh
      exact hp (congrArg ResState.paths (show ({ s.res with paths := p } : ResState) = s.res from hh))
  · exact ⟨.result .getBounds, _, {}, i, rfl, Function.update_self _ _ _⟩
  · rfl

/-- an observer asks for the bounds at any time between two steps and is told them -/
theorem watch_told {tr : List (Nat × Inp)} {s : BState} (h : BRun e r tr s) (i : Inp) :
    ∃ f, FRun e (· = .result .getBounds) r f ∧ f.seen = [.b (some ⟨s.res.lower, s.res.upper⟩)] ∧ (∀ t, f.fr t = none) ∧ f.core = s := by
  let c : Call := .result .getBounds
  let g : ResState → Reg → ResState × Reg := fun s r => (s, { r with out := .b (some ⟨s.lower, s.upper⟩) })
  have hb : c.body e = [.lock, .act g, .unlock] := rfl
  have h1 := FRun.step _ _ e.threads (C87_every_search (· = .result .getBounds) h) (.ask (f := FState.of s) c i (by simp) rfl rfl)
  obtain ⟨f', b1, b2, b3, b4, b5, b6⟩ := FRun.walk (t := e.threads) (c := c) (i := i) (x' := s.res)
    (r' := { out := .b (some ⟨s.res.lower, s.res.upper⟩) }) (c.body e) {} .before _ h1 (by simp) rfl rfl rfl
  have h2 := FRun.step _ _ e.threads b1 (.told c _ i (by simp) (by rw [b5, Function.update_self]))
  refine ⟨_, h2, ?_, ?_, ?_⟩
  · dsimp only
    rw [b6]
    rfl
  · intro t
    dsimp only
    by_cases ht : t = e.threads
    · subst ht; simp
    · rw [Function.update_of_ne ht, b5, Function.update_of_ne ht]
      exact Function.update_of_ne ht _ _
  · refine BState.ext' ?_ b4
    funext o
    show (BState.put f'.sh f'.wk).sh o = _
    rw [BState.sh_put, b2]
    cases o <;> rfl

/-- non-vacuity: in the search of `C87_refuted_get_paths` with an observer that asks for the bounds, a worker is inside
`UpdateUpperBound`, and the observer waits for the mutex. -/
example : ∃ r f, FRun c72Env (· = .result .getBounds) r f ∧ f.Writes 0 .result ∧ f.WantsLock c72Env.threads .result ∧ f.own .result = some 0 := by
  obtain ⟨r, t', hr, hrun, _⟩ := exStart_run (e := c72Env) (t := 6) (by decide +kernel)
  have h1 := hrun.play c87Script c87_play
  have hs := c87_state
  simp only [Bool.and_eq_true, decide_eq_true_eq] at hs
  obtain ⟨f, hf⟩ := watch_race h1 (by decide) (i := ⟨false, .infeasible, 1000⟩) (Inp.ok_of_not_solve hs.1.1) c87_calls hs.1.2 hs.2
  exact ⟨r, f, hf⟩

/-- non-vacuity: the observer is told the bounds of the initial solution -/
example : ∃ r f, FRun c72Env (· = .result .getBounds) r f ∧ f.seen = [.b (some ⟨c87S.res.lower, 1⟩)] ∧ (∀ t, f.fr t = none) ∧ f.core = c87S := by
  obtain ⟨r, t', hr, hrun, _⟩ := exStart_run (e := c72Env) (t := 6) (by decide +kernel)
  obtain ⟨f, h1, h2, h3⟩ := watch_told (hrun.play c87Script c87_play) ⟨false, .infeasible, 1000⟩
  have hu : c87S.res.upper = 1 := by decide +kernel
  refine ⟨r, f, h1, ?_, h3⟩
  rw [h2]
  show [Ret.b (some ⟨c87S.res.lower, c87S.res.upper⟩)] = _
  rw [hu]

end Mtsp
