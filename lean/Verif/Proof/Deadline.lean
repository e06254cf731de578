import Verif.Proof.BnBRes
import Verif.Spec.Termination

/-! After the deadline every worker does at most one more round. -/

namespace Mtsp

/-- an upper bound for the number of steps a worker still does after the deadline -/
def rest : Pc → Nat
  | .left | .crashed _ => 0
  | .clear => 1
  | .headUpd _ => 2
  | .head => 3
  | .done => 4
  | .push _ => 5
  | .pushCuts .. | .setUpper .. | .resUpd .. => 6
  | .getUpper .. | .resRead _ => 7
  | .exploit .. => 8
  | .updLB .. => 9
  | .getLB .. => 10
  | .raise .. => 11
  | .solve _ => 12
  | .compact _ => 13
  | .read _ => 14
  | .pop => 15

section
variable {e : BEnv} {rows : Nat} {w : Weights} {starts ends : List Nat} {r : ResState} {who : Nat → Nat} {inp : Nat → Inp} {st : Nat → BState}

theorem evaluate_rest (wk : Worker) (lb ub : ℚ) (y rc : Nat → ℚ) : rest (wk.evaluate e lb ub y rc).pc < 8 := by
  unfold Worker.evaluate
  split
  · simp [rest]
  · split
    · simp [rest]
    · dsimp only
      split
      · simp [rest]
      · split
        · simp [rest]
        · split <;> simp [rest]

theorem step_rest {bad : Prop} {all : List LinCon} {s : BState} (h : GInv e bad s all) {t : Nat} (ht : t < e.threads) {i : Inp} (hl : i.late = true) :
    rest ((s.step e t i).wk t).pc < rest (s.wk t).pc ∨
      (s.step e t i = s ∧ (((s.wk t).pc = .pop ∧ 0 < s.q.count) ∨ (s.wk t).pc = .left ∨ ∃ er, (s.wk t).pc = .crashed er)) := by
  have hset : ∀ (s : BState) (w' : Worker), (s.setWk t w').wk t = w' := fun s w' => by simp [BState.setWk]
  have hgo : ∀ (s : BState) (pc : Pc), ((s.goto t pc).wk t).pc = pc := fun s pc => by simp [BState.goto, BState.setWk]
  cases hp : (s.wk t).pc with
  | pop =>
    simp only [BState.step, hp]
    rcases pop_cases e.H s.q t h.q (by rw [h.len]; exact ht) with ⟨_, _, hc, ep⟩ | ⟨_, ep⟩ | ⟨_, d, r, l, _, _, _, _, ep⟩
    · rw [ep]; exact Or.inr ⟨rfl, Or.inl ⟨trivial, hc⟩⟩
    · rw [ep]; left; rw [hgo]; simp [rest]
    · rw [ep]
      left
      dsimp only
      split
      · split
        · rw [hgo]; simp [rest]
        · rw [hset]; simp [rest]
      · split
        · rw [hgo]; simp [rest]
        · rw [hset]; simp [rest]
  | left => right; simp only [BState.step, hp]; exact ⟨trivial, Or.inr (Or.inl trivial)⟩
  | crashed er => right; simp only [BState.step, hp]; exact ⟨trivial, Or.inr (Or.inr ⟨er, rfl⟩)⟩
  | headUpd l =>
    left
    simp only [BState.step, hp]
    rw [hl]
    split
    · rw [hgo]; simp [rest]
    · simp only [if_true]; rw [hgo]; simp [rest]
  | read lb =>
    left
    simp only [BState.step, hp]
    split
    · rw [hgo]; simp [rest]
    · rw [hset]; dsimp only; split <;> simp [rest]
  | updLB lb l y rc =>
    left
    simp only [BState.step, hp]
    split
    · rw [hgo]; simp [rest]
    · rw [hset]; have := evaluate_rest (e := e) (s.wk t) lb (s.res.updateLowerBound l).2.Upper y rc; exact lt_trans this (by simp [rest])
  | exploit lb y rc =>
    left
    simp only [BState.step, hp]
    split
    · rw [hgo]; simp [rest]
    · rw [hset]; exact evaluate_rest (e := e) (s.wk t) lb _ y rc
    · rw [hset]; exact evaluate_rest (e := e) (s.wk t) lb _ y rc
  | clear => left; simp only [BState.step, hp]; rw [hgo]; simp [rest]
  | head => left; simp only [BState.step, hp]; split <;> (rw [hgo]; simp [rest])
  | resRead lb => left; simp only [BState.step, hp]; split <;> (rw [hgo]; simp [rest])
  | resUpd lb l => left; simp only [BState.step, hp]; split <;> (rw [hgo]; simp [rest])
  | compact lb => left; simp only [BState.step, hp]; split <;> (rw [hgo]; simp [rest])
  | solve lb => left; simp only [BState.step, hp]; split <;> (rw [hgo]; simp [rest])
  | raise lb y rc => left; simp only [BState.step, hp]; split <;> (rw [hgo]; simp [rest])
  | getLB lb y rc => left; simp only [BState.step, hp]; split <;> (rw [hgo]; simp [rest])
  | pushCuts cs op => left; simp only [BState.step, hp]; split <;> (rw [hgo]; simp [rest])
  | push op => left; simp only [BState.step, hp]; split <;> (rw [hgo]; simp [rest])
  | getUpper lb y => left; simp only [BState.step, hp]; split <;> (rw [hgo]; simp [rest])
  | setUpper lb y => left; simp only [BState.step, hp]; split <;> (rw [hgo]; simp [rest])
  | done => left; simp only [BState.step, hp]; split <;> (rw [hgo]; simp [rest])

theorem FairRun.ginv (g : e.Good rows w starts ends) (hst : e.Started) (f : FairRun e r who inp st) (n : Nat) :
    0 < e.threads ∧ ∃ all, GInv e (∃ k < n, (inp k).ans = .error) (st n) all := by
  induction n with
  | zero =>
    obtain ⟨h1, _, _, _, h2, h3⟩ := start_inv g f.start
    exact ⟨h2, [], h1.bad_mono False.elim⟩
  | succ n ih =>
    obtain ⟨h0, all, h1⟩ := ih
    obtain ⟨all', h3⟩ := step_ginv g hst h1 h0 (f.worker n) (f.ok n)
    rw [← f.step] at h3
    refine ⟨h0, all', h3.bad_mono ?_⟩
    rintro (⟨k, hk, he⟩ | he)
    · exact ⟨k, by omega, he⟩
    · exact ⟨n, by omega, he⟩

/-- after the deadline the search ends -/
theorem FairRun.deadline (g : e.Good rows w starts ends) (hst : e.Started) (f : FairRun e r who inp st) {n1 : Nat}
    (hlate : ∀ n, n1 ≤ n → (inp n).late = true) :
    ∃ n, (∀ t < e.threads, ((st n).wk t).pc = .left) ∨
      ∃ t < e.threads, ((st n).wk t).pc = .crashed (.logic "Unexpected error happened while solving LP") ∧ ∃ k < n, (inp k).ans = .error := by
  have hstep : ∀ n, n1 ≤ n → ∑ u ∈ Finset.range e.threads, rest ((st (n + 1)).wk u).pc < ∑ u ∈ Finset.range e.threads, rest ((st n).wk u).pc ∨
      (st (n + 1) = st n ∧ ((((st n).wk (who n)).pc = .pop ∧ 0 < (st n).q.count) ∨ ((st n).wk (who n)).pc = .left ∨ ∃ er, ((st n).wk (who n)).pc = .crashed er)) := by
    intro n hn
    obtain ⟨_, all, h1⟩ := f.ginv g hst n
    have := step_rest h1 (f.worker n) (hlate n hn)
    rw [← f.step] at this
    rcases this with h | h
    · left
      rw [← Finset.add_sum_erase _ _ (Finset.mem_range.2 (f.worker n)), ← Finset.add_sum_erase _ (fun u => rest ((st n).wk u).pc) (Finset.mem_range.2 (f.worker n))]
      have : ∑ u ∈ (Finset.range e.threads).erase (who n), rest ((st (n + 1)).wk u).pc = ∑ u ∈ (Finset.range e.threads).erase (who n), rest ((st n).wk u).pc :=
        Finset.sum_congr rfl fun u hu => by rw [f.step, step_other _ _ (Finset.ne_of_mem_erase hu)]
      omega
    · exact Or.inr h
  have key : ∀ (k n : Nat), n1 ≤ n → ∑ u ∈ Finset.range e.threads, rest ((st n).wk u).pc ≤ k →
      ∃ n0, n1 ≤ n0 ∧ ∀ n, n0 ≤ n → st (n + 1) = st n ∧
        ((((st n).wk (who n)).pc = .pop ∧ 0 < (st n).q.count) ∨ ((st n).wk (who n)).pc = .left ∨ ∃ er, ((st n).wk (who n)).pc = .crashed er) := by
    intro k
    induction k with
    | zero =>
      intro n hn hk
      have hz : ∀ m, n ≤ m → ∑ u ∈ Finset.range e.threads, rest ((st m).wk u).pc = 0 := by
        intro m hm
        induction m, hm using Nat.le_induction with
        | base => omega
        | succ m hm ih =>
          rcases hstep m (le_trans hn hm) with h | ⟨h, _⟩
          · omega
          · rw [h]; exact ih
      refine ⟨n, hn, fun m hm => ?_⟩
      rcases hstep m (le_trans hn hm) with h | h
      · rw [hz m hm] at h; omega
      · exact h
    | succ k ih =>
      intro n hn hk
      by_cases hall : ∀ m, n ≤ m → ¬ ∑ u ∈ Finset.range e.threads, rest ((st (m + 1)).wk u).pc < ∑ u ∈ Finset.range e.threads, rest ((st m).wk u).pc
      · exact ⟨n, hn, fun m hm => (hstep m (le_trans hn hm)).resolve_left (hall m hm)⟩
      · push Not at hall
        obtain ⟨m, hm, hlt⟩ := hall
        have hle : ∑ u ∈ Finset.range e.threads, rest ((st m).wk u).pc ≤ ∑ u ∈ Finset.range e.threads, rest ((st n).wk u).pc := by
          clear hlt
          induction m, hm using Nat.le_induction with
          | base => exact le_refl _
          | succ m hm ih' =>
            rcases hstep m (le_trans hn hm) with h | ⟨h, _⟩
            · omega
            · rw [h]; exact ih'
        exact ih (m + 1) (by omega) (by omega)
  obtain ⟨n0, hn0, hs⟩ := key _ n1 (le_refl _) (le_refl _)
  have hconst : ∀ n, n0 ≤ n → st n = st n0 := by
    intro n hn
    induction n, hn using Nat.le_induction with
    | base => rfl
    | succ n hn ih => rw [(hs n hn).1, ih]
  have hall : ∀ t < e.threads, (((st n0).wk t).pc = .pop ∧ 0 < (st n0).q.count) ∨ ((st n0).wk t).pc = .left ∨ ∃ er, ((st n0).wk t).pc = .crashed er := by
    intro t ht
    obtain ⟨k, hk, hw⟩ := f.fair t ht n0
    have := (hs k hk).2
    rw [hconst k hk, hw] at this
    exact this
  obtain ⟨_, all, hi⟩ := f.ginv g hst n0
  refine ⟨n0, ?_⟩
  by_cases hcr : ∃ t < e.threads, ∃ er, ((st n0).wk t).pc = .crashed er
  · right
    obtain ⟨t, ht, er, hp⟩ := hcr
    obtain ⟨_, o, _, hpc⟩ := hi.wk t ht
    simp only [PcOk, hp] at hpc
    exact ⟨t, ht, by rw [hp, hpc.1], hpc.2⟩
  · left
    intro t ht
    rcases hall t ht with ⟨hp, hc⟩ | h | h
    · rw [hi.q.count] at hc
      obtain ⟨v, hv⟩ := activeCount_pos hc
      obtain ⟨u, hu⟩ := List.mem_iff_getElem?.1 hv
      have hut : u < e.threads := by rw [← hi.len]; exact lt_length_of_some hu
      obtain ⟨_, o, ho, hpc⟩ := hi.wk u hut
      rw [hu] at ho
      simp only [Option.some.injEq] at ho
      subst ho
      rcases hall u hut with ⟨hp, _⟩ | h | h
      · simp [PcOk, hp] at hpc
      · simp [PcOk, h] at hpc
      · exact absurd ⟨u, hut, h⟩ hcr
    · exact h
    · exact absurd ⟨t, ht, h⟩ hcr

end
end Mtsp
