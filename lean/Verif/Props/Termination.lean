import Verif.Proof.Deadline
import Verif.Proof.Termination
import Verif.Proof.CombSmallF
import Verif.Props.SearchRefuted
import Verif.Proof.Play

/-! C67: the search ends.  C68: the deadline is honoured. -/

namespace Mtsp

variable {e : BEnv} {rows : Nat} {w : Weights} {starts ends : List Nat} {t t' : Nat} {r : ResState}
  {who : Nat → Nat} {inp : Nat → Inp} {st : Nat → BState}

/-- **C68.** Whatever the workers are doing when the deadline passes: from then on, if none of them is passed over forever, there
comes a time when all of them have left their loops - unless the LP solver has reported an error, which one of them turned
into an exception. -/
theorem C68_deadline_is_honoured (g : e.Good rows w starts ends) (hr : createInitialResult e.mode e.m t ResState.init = .ok (r, t'))
    (f : FairRun e r who inp st) {n1 : Nat} (hlate : ∀ n, n1 ≤ n → (inp n).late = true) :
    ∃ n, (∀ u < e.threads, ((st n).wk u).pc = .left) ∨
      ∃ u < e.threads, ((st n).wk u).pc = .crashed (.logic "Unexpected error happened while solving LP") ∧ ∃ k < n, (inp k).ans = .error :=
  f.deadline g ⟨t, t', r, hr⟩ hlate

/-- **C67 (partial).** Without any deadline: if the cuts that the 2-matching separation reports for a solution always include one
that the solution violates, and the points of the LP solver satisfy its rows exactly, every fair execution ends.  Missing: the first assumption does not hold for all instances (C60), and then
there are executions that do not end. -/
theorem C67_search_ends_partial (g : e.Good rows w starts ends) (hr : createInitialResult e.mode e.m t ResState.init = .ok (r, t'))
    (hcp : e.CombsProgress) (f : FairRun e r who inp st) (hrow : ∀ n, (inp n).OnRows e (st n) (who n)) :
    ∃ n, (∀ u < e.threads, ((st n).wk u).pc = .left) ∨
      ∃ u < e.threads, ((st n).wk u).pc = .crashed (.logic "Unexpected error happened while solving LP") ∧ ∃ k < n, (inp k).ans = .error :=
  f.terminates g ⟨t, t', r, hr⟩ hcp hrow

/-- with at most five nodes the assumption holds -/
theorem combsProgress_small (g : e.Good rows w starts ends) (hgh : e.gh.Near e.m.n) (hn : e.m.n ≤ 5) : e.CombsProgress := by
  intro y hy hrows _ hne
  refine absurd (twoMatchingGF_small g.flOk g.precise g.make g.size g.ghOk hgh hn (fun i hi => (hy i hi).1) fun c hc => hrows c ?_) hne
  exact List.mem_append_right _ hc

/-- **C67 (partial).** With at most five nodes (after the preprocessing) every fair execution ends, deadline or not. -/
theorem C67_small_instances_partial (g : e.Good rows w starts ends) (hr : createInitialResult e.mode e.m t ResState.init = .ok (r, t'))
    (hn : e.m.n ≤ 5) (hgh : e.gh.Near e.m.n) (f : FairRun e r who inp st) (hrow : ∀ n, (inp n).OnRows e (st n) (who n)) :
    ∃ n, (∀ u < e.threads, ((st n).wk u).pc = .left) ∨
      ∃ u < e.threads, ((st n).wk u).pc = .crashed (.logic "Unexpected error happened while solving LP") ∧ ∃ k < n, (inp k).ans = .error :=
  C67_search_ends_partial g hr (combsProgress_small g hgh hn) f hrow

/-! ### the hypotheses can be met -/

theorem BRun.states {tr : List (Nat × Inp)} {s : BState} (h : BRun e r tr s) : ∃ st : Nat → BState, BState.start e r = .ok (st 0) ∧
    (∀ n, tr.length ≤ n → st n = s) ∧ ∀ n (hn : n < tr.length), tr[n].1 < e.threads ∧ tr[n].2.Ok e (st n) tr[n].1 ∧
      st (n + 1) = (st n).step e tr[n].1 tr[n].2 := by
  induction h with
  | start s hs => exact ⟨fun _ => s, hs, fun _ _ => rfl, fun n hn => by simp at hn⟩
  | step tr s u i _ hu hok ih =>
    obtain ⟨st, h0, h1, h2⟩ := ih
    refine ⟨fun n => if n ≤ tr.length then st n else s.step e u i, by simpa using h0, ?_, ?_⟩
    · intro n hn
      simp only [List.length_append, List.length_cons, List.length_nil] at hn
      exact if_neg (by omega)
    · intro n hn
      simp only [List.length_append, List.length_cons, List.length_nil] at hn
      by_cases hlt : n < tr.length
      · rw [List.getElem_append_left hlt]
        dsimp only
        rw [if_pos hlt.le, if_pos (by omega)]
        exact h2 n hlt
      · have : n = tr.length := by omega
        subst this
        simp only [List.getElem_append_right (le_refl _), Nat.sub_self, List.getElem_cons_zero]
        rw [if_pos (le_refl _), if_neg (by omega), h1 _ (le_refl _)]
        exact ⟨hu, hok, rfl⟩

/-- a finished execution goes on with steps that do nothing -/
theorem states_extend {tr : List (Nat × Inp)} {s : BState} {st : Nat → BState} (h1 : BState.start e r = .ok (st 0))
    (h2 : ∀ n, tr.length ≤ n → st n = s)
    (h3 : ∀ n (hn : n < tr.length), tr[n].1 < e.threads ∧ tr[n].2.Ok e (st n) tr[n].1 ∧ st (n + 1) = (st n).step e tr[n].1 tr[n].2)
    (h0 : 0 < e.threads) (hleft : ∀ u < e.threads, (s.wk u).pc = .left) (late : Bool) :
    ∃ who inp, FairRun e r who inp st ∧ (∀ n, tr.length ≤ n → (inp n).late = late) ∧
      ∀ n, (∃ hn : n < tr.length, who n = tr[n].1 ∧ inp n = tr[n].2) ∨ inp n = ⟨late, .infeasible, 0⟩ := by
  refine ⟨fun n => if hn : n < tr.length then tr[n].1 else n % e.threads, fun n => if hn : n < tr.length then tr[n].2 else ⟨late, .infeasible, 0⟩,
    ⟨h1, ?_, ?_, ?_, ?_⟩, fun n hn => by simp [not_lt.2 hn], fun n => ?_⟩
  · intro n
    by_cases hn : n < tr.length
    · simp only [dif_pos hn]; exact (h3 n hn).2.2
    · simp only [dif_neg hn]
      rw [h2 n (by omega), h2 (n + 1) (by omega)]
      simp only [BState.step, hleft _ (Nat.mod_lt n h0)]
  · intro n
    by_cases hn : n < tr.length
    · simp only [dif_pos hn]; exact (h3 n hn).1
    · simp only [dif_neg hn]; exact Nat.mod_lt n h0
  · intro n
    by_cases hn : n < tr.length
    · simp only [dif_pos hn]; exact (h3 n hn).2.1
    · simp only [dif_neg hn]
      rw [h2 n (by omega)]
      unfold Inp.Ok
      rw [hleft _ (Nat.mod_lt n h0)]
      trivial
  · intro u hu n
    refine ⟨e.threads * (n + tr.length) + u, ?_, ?_⟩
    · have : 1 * (n + tr.length) ≤ e.threads * (n + tr.length) := Nat.mul_le_mul_right _ h0
      omega
    · have : 1 * (n + tr.length) ≤ e.threads * (n + tr.length) := Nat.mul_le_mul_right _ h0
      rw [dif_neg (by omega), Nat.mul_add_mod, Nat.mod_eq_of_lt hu]
  · by_cases hn : n < tr.length
    · left; exact ⟨hn, by simp only [dif_pos hn], by simp only [dif_pos hn]⟩
    · right; simp only [dif_neg hn]

theorem BRun.extend {tr : List (Nat × Inp)} {s : BState} (h : BRun e r tr s) (h0 : 0 < e.threads)
    (hleft : ∀ u < e.threads, (s.wk u).pc = .left) (late : Bool) :
    ∃ who inp st, FairRun e r who inp st ∧ st tr.length = s ∧ (∀ n, tr.length ≤ n → (inp n).late = late) ∧
      ∀ n, (∃ u, (u, inp n) ∈ tr) ∨ inp n = ⟨late, .infeasible, 0⟩ := by
  obtain ⟨st, h1, h2, h3⟩ := h.states
  obtain ⟨who, inp, hf, hl, hc⟩ := states_extend h1 h2 h3 h0 hleft late
  refine ⟨who, inp, st, hf, h2 _ (le_refl _), hl, fun n => ?_⟩
  rcases hc n with ⟨hn, _, he⟩ | he
  · left; exact ⟨tr[n].1, by rw [he]; exact List.getElem_mem hn⟩
  · exact Or.inr he

/-- the LP answers of a script satisfy the rows -/
theorem Cue.onRows {s : BState} {t : Nat} {c : Cue} (h : c.okB e s t = true) : (c.inp e s t).OnRows e s t := by
  intro lb hp y rc ha
  cases c with
  | opt y' mult =>
    simp only [Cue.inp, LPAnswer.optimal.injEq] at ha
    obtain ⟨rfl, rfl⟩ := ha
    exact (certB_exact h).admits.rows
  | _ => simp [Cue.inp] at ha

theorem play_states : ∀ (l : List (Nat × Cue)) (s : BState), playB e s l = true → ∃ st : Nat → BState, st 0 = s ∧
    (∀ n, (trace e s l).length ≤ n → st n = play e s l) ∧ ∀ n (hn : n < (trace e s l).length), (trace e s l)[n].1 < e.threads ∧
      (trace e s l)[n].2.Ok e (st n) (trace e s l)[n].1 ∧ st (n + 1) = (st n).step e (trace e s l)[n].1 (trace e s l)[n].2 ∧
      (trace e s l)[n].2.OnRows e (st n) (trace e s l)[n].1
  | [], s, _ => ⟨fun _ => s, rfl, fun _ _ => rfl, fun n hn => by simp [trace] at hn⟩
  | x :: l, s, h => by
    simp only [playB, Bool.and_eq_true, decide_eq_true_eq] at h
    obtain ⟨st, h1, h2, h3⟩ := play_states l _ h.2
    refine ⟨fun n => match n with | 0 => s | n + 1 => st n, rfl, ?_, ?_⟩
    · intro n hn
      cases n with
      | zero => simp [trace] at hn
      | succ n => exact h2 n (by simpa [trace] using hn)
    · intro n hn
      cases n with
      | zero =>
        refine ⟨h.1.1, Cue.ok h.1.2, ?_, Cue.onRows h.1.2⟩
        exact h1
      | succ n => exact h3 n (by simpa [trace] using hn)

/-- a script that ends with all workers gone, as an endless execution -/
theorem play_fair {l : List (Nat × Cue)} {s : BState} (hs : BState.start e r = .ok s) (hp : playB e s l = true) (h0 : 0 < e.threads)
    (hleft : ∀ u < e.threads, ((play e s l).wk u).pc = .left) (late : Bool) :
    ∃ who inp st n1, FairRun e r who inp st ∧ (∀ n, n1 ≤ n → (inp n).late = late) ∧ (∀ n, (inp n).OnRows e (st n) (who n)) ∧
      ∀ n, (∃ u, (u, inp n) ∈ trace e s l) ∨ inp n = ⟨late, .infeasible, 0⟩ := by
  obtain ⟨st, h1, h2, h3⟩ := play_states l s hp
  obtain ⟨who, inp, hf, hl, hc⟩ := states_extend (by rw [h1]; exact hs) h2 (fun n hn => ⟨(h3 n hn).1, (h3 n hn).2.1, (h3 n hn).2.2.1⟩) h0 hleft late
  refine ⟨who, inp, st, _, hf, hl, fun n => ?_, fun n => ?_⟩
  · rcases hc n with ⟨hn, e1, e2⟩ | he
    · rw [e1, e2]; exact (h3 n hn).2.2.2
    · intro lb _ y rc ha; rw [he] at ha; simp at ha
  · rcases hc n with ⟨hn, _, he⟩ | he
    · left; exact ⟨_, by rw [he]; exact List.getElem_mem hn⟩
    · exact Or.inr he

/-- four nodes, two workers -/
def c67Env : BEnv := { exEnv .sum 2 4 (fun _ _ => 1) [0] [3] with gh := ghHalves }

def c67Y (i : Nat) : ℚ := if i = 1 ∨ i = 6 ∨ i = 11 ∨ i = 12 then 1 else 0

/-- worker 0 solves the root while worker 1 waits for a node -/
def c67Script : List (Nat × Cue) :=
  [(0, .go false), (0, .go false), (0, .go false), (1, .go false), (0, .go false), (1, .go false), (1, .go false), (0, .go false),
    (0, .opt c67Y [0, -1, -1, -1, 0, 0, 1, 0, 0, 1, 0, 0, 1, 0, 0])] ++ List.replicate 12 (0, .go false) ++ List.replicate 2 (1, .go false)

theorem c67_good : c67Env.Good 4 (fun _ _ => 1) [0] [3] :=
  { exEnv_good (mode := .sum) (threads := 2) (by decide +kernel) with ghOk := ghHalves_correct.proper }

theorem c67_gh : c67Env.gh.Near c67Env.m.n := ghHalves_correct.near (WM.two_le c67_good.make)

theorem c67_fair (late : Bool) : ∃ t t' r who inp st n1, createInitialResult c67Env.mode c67Env.m t ResState.init = .ok (r, t') ∧
    FairRun c67Env r who inp st ∧ (∀ n, n1 ≤ n → (inp n).late = late) ∧ ∀ n, (inp n).OnRows c67Env (st n) (who n) := by
  obtain ⟨r, t', hr, hrun, _⟩ := exStart_run (e := c67Env) (t := 20) (by decide +kernel)
  have hp : playB c67Env (exStart c67Env 20) c67Script = true := by decide +kernel
  have hl : (List.range 2).all (fun u => ((play c67Env (exStart c67Env 20) c67Script).wk u).pc.isLeft) = true := by decide +kernel
  obtain ⟨who, inp, st, n1, hf, hlate, hrow, _⟩ := play_fair hrun.start_eq hp (show 0 < 2 by norm_num)
    (fun u hu => Pc.isLeft_eq (List.all_eq_true.1 hl u (List.mem_range.2 hu))) late
  exact ⟨20, t', r, who, inp, st, n1, hr, hf, hlate, hrow⟩

/-- non-vacuity of C67 -/
example : ∃ t t' r who inp st, createInitialResult c67Env.mode c67Env.m t ResState.init = .ok (r, t') ∧ c67Env.Good 4 (fun _ _ => 1) [0] [3] ∧
    c67Env.m.n ≤ 5 ∧ c67Env.gh.Near c67Env.m.n ∧ c67Env.CombsProgress ∧ FairRun c67Env r who inp st ∧ ∀ n, (inp n).OnRows c67Env (st n) (who n) := by
  obtain ⟨t, t', r, who, inp, st, _, hr, hf, _, hrow⟩ := c67_fair false
  have hn : c67Env.m.n ≤ 5 := by decide +kernel
  exact ⟨t, t', r, who, inp, st, hr, c67_good, hn, c67_gh, combsProgress_small c67_good c67_gh hn, hf, hrow⟩

/-- non-vacuity of C68 -/
example : ∃ t t' r who inp st n1, createInitialResult c67Env.mode c67Env.m t ResState.init = .ok (r, t') ∧ c67Env.Good 4 (fun _ _ => 1) [0] [3] ∧
    FairRun c67Env r who inp st ∧ ∀ n, n1 ≤ n → (inp n).late = true := by
  obtain ⟨t, t', r, who, inp, st, n1, hr, hf, hl, _⟩ := c67_fair true
  exact ⟨t, t', r, who, inp, st, n1, hr, c67_good, hf, hl⟩

end Mtsp
