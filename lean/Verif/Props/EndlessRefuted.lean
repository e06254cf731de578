import Verif.Proof.Loop
import Verif.Props.Termination

/-! C67: an execution that never ends. -/

namespace Mtsp

/-- six nodes, path from 0 to 5 -/
def c67rW (u v : Nat) : ℚ := (([[2, 0, 0, 4, 1, 3], [1, 3, 0, 3, 0, 2], [4, 0, 4, 0, 3, 1], [3, 1, 0, 4, 0, 0], [2, 0, 1, 0, 1, 0], [0, 2, 4, 2, 4, 1]] :
  List (List ℚ)).getD u []).getD v 0

def c67rEnv : BEnv := { exEnv .sum 1 6 c67rW [0] [5] with gh := ghHalves }

theorem c67r_good : c67rEnv.Good 6 c67rW [0] [5] :=
  { exEnv_good (mode := .sum) (threads := 1) (by decide +kernel) with ghOk := ghHalves_correct.proper }

/-- one iteration of the loop: five steps, the LP optimum `mixY`, six steps -/
def c67rCycle : List Cue := List.replicate 5 (.go false) ++ [.opt mixY []] ++ List.replicate 6 (.go false)

def c67rS : BState := exStart c67rEnv 100

/-- the cut that is found again and again -/
def c67rCut : List LinCon := twoMatchingGF roundDouble ghHalves 1 6 mixY

set_option maxHeartbeats 4000000 in
theorem c67r_play : playB c67rEnv c67rS (solo (c67rCycle ++ c67rCycle ++ c67rCycle)) = true := by decide +kernel

set_option maxHeartbeats 4000000 in
theorem c67r_alive : aliveB c67rEnv c67rS (c67rCycle ++ c67rCycle ++ c67rCycle) = true := by decide +kernel

set_option maxHeartbeats 4000000 in
theorem c67r_same : sameB c67rCut (play c67rEnv c67rS (solo (c67rCycle ++ c67rCycle))) (play c67rEnv c67rS (solo (c67rCycle ++ c67rCycle ++ c67rCycle))) = true := by
  decide +kernel

/-- **C67 is false in full**: an instance of six nodes and a fair execution without deadline, in which every LP is solved to
optimality, that never ends.  The 2-matching separation reports a cut that the LP solution satisfies (C60), so the
same node comes back with the same LP solution, again and again. -/
theorem C67_refuted : ∃ (e : BEnv) (rows : Nat) (w : Weights) (starts ends : List Nat) (t t' : Nat) (r : ResState)
    (who : Nat → Nat) (inp : Nat → Inp) (st : Nat → BState), e.Good rows w starts ends ∧
    createInitialResult e.mode e.m t ResState.init = .ok (r, t') ∧ FairRun e r who inp st ∧
    (∀ n, (inp n).late = false ∧ (inp n).ans ≠ .timeout ∧ (inp n).ans ≠ .error) ∧
    ∀ n, ∀ u < e.threads, ((st n).wk u).pc ≠ .left ∧ ∀ er, ((st n).wk u).pc ≠ .crashed er := by
  obtain ⟨r, t', hr, hrun, _⟩ := exStart_run (e := c67rEnv) (t := 100) (by decide +kernel)
  have hs : BState.start c67rEnv r = .ok c67rS := by
    have key : ∀ tr s, BRun c67rEnv r tr s → tr = [] → BState.start c67rEnv r = .ok s := by
      intro tr s h
      cases h with
      | start _ h => exact fun _ => h
      | step tr s u i _ _ _ => intro h; simp at h
    exact key _ _ hrun rfl
  obtain ⟨who, inp, st, hf, hl, he⟩ := loop_of_script (l := c67rCut) (pre := c67rCycle ++ c67rCycle) (cyc := c67rCycle) rfl hs (by decide)
    c67r_play c67r_alive (by decide) (by decide +kernel) (sameB_sound c67r_same)
  refine ⟨c67rEnv, 6, c67rW, [0], [5], 100, t', r, who, inp, st, c67r_good, hr, hf, hl, ?_⟩
  intro n u hu
  have := he n u hu
  exact ⟨fun h => by rw [h] at this; simp [Pc.isEnd] at this, fun er h => by rw [h] at this; simp [Pc.isEnd] at this⟩

end Mtsp
