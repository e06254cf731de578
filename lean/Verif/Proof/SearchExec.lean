import Verif.Props.Search
import Verif.Props.GomoryHu
import Verif.Proof.LPCert
import Verif.Proof.Heap

/-! Executing the search on concrete instances, with executable correct oracles.  For examples and counterexamples. -/

namespace Mtsp
open Finset

/-- a global minimum cut algorithm that tries all partitions -/
def bruteCut : GlobalCut := fun N w =>
  let best := ((List.range (2 ^ N)).filter fun m => decide (1 ≤ m ∧ m ≤ 2 ^ N - 2)).foldl (fun (b : ℚ × Nat) m =>
    let q := cutWeight N w fun v => m.testBit v
    if q < b.1 then (q, m) else b) (cutWeight N w fun v => Nat.testBit 1 v, 1)
  (best.1, fun v => best.2.testBit v)

theorem splits_mask {N m : Nat} (h1 : 1 ≤ m) (h2 : m ≤ 2 ^ N - 2) : Splits N fun v => m.testBit v := by
  have hlt : m < 2 ^ N := by have := Nat.one_le_two_pow (n := N); omega
  constructor
  · by_contra hcon
    push Not at hcon
    have : m = 0 := by
      apply Nat.eq_of_testBit_eq
      intro i
      rw [Nat.zero_testBit]
      by_cases hi : i < N
      · simpa using hcon i hi
      · exact Nat.testBit_lt_two_pow (lt_of_lt_of_le hlt (Nat.pow_le_pow_right (by norm_num) (by omega)))
    omega
  · by_contra hcon
    push Not at hcon
    have : m = 2 ^ N - 1 := by
      apply Nat.eq_of_testBit_eq
      intro i
      rw [Nat.testBit_two_pow_sub_one]
      by_cases hi : i < N
      · simpa [hi] using hcon i hi
      · rw [Nat.testBit_lt_two_pow (lt_of_lt_of_le hlt (Nat.pow_le_pow_right (by norm_num) (by omega)))]
        simp [hi]
    have := Nat.one_le_two_pow (n := N)
    omega

theorem bruteCut_correct : bruteCut.Correct := by
  have key : ∀ N w, 2 ≤ N → (bruteCut N w).1 = cutWeight N w (bruteCut N w).2 ∧ Splits N (bruteCut N w).2 ∧
      ∀ par, Splits N par → (bruteCut N w).1 ≤ cutWeight N w par := by
    intro N w hN
    have h4 : 4 ≤ 2 ^ N := le_trans (by norm_num) (Nat.pow_le_pow_right (n := 2) (by norm_num) hN)
    obtain ⟨h1, h2, _, h3⟩ := bruteFold (fun m => cutWeight N w fun v => m.testBit v)
      ((List.range (2 ^ N)).filter fun m => decide (1 ≤ m ∧ m ≤ 2 ^ N - 2)) (cutWeight N w fun v => Nat.testBit 1 v, 1)
      (fun m => 1 ≤ m ∧ m ≤ 2 ^ N - 2) ⟨rfl, le_refl _, by show 1 ≤ 2 ^ N - 2; omega⟩ (fun m hm => by simpa using (List.mem_filter.1 hm).2)
    refine ⟨h1, splits_mask h2.1 h2.2, ?_⟩
    intro par hpar
    set B := Nat.ofBits (fun i : Fin N => par i) with hB
    have hlt : B < 2 ^ N := Nat.ofBits_lt_two_pow _
    have hval : ∀ v < N, B.testBit v = par v := fun v hv => by rw [hB, Nat.testBit_ofBits_lt _ _ hv]
    have b1 : 1 ≤ B := by
      by_contra hc
      have hz : B = 0 := by omega
      obtain ⟨u, hu, hp⟩ := hpar.1
      rw [← hval u hu, hz] at hp; simp at hp
    have b2 : B ≤ 2 ^ N - 2 := by
      by_contra hc
      have hz : B = 2 ^ N - 1 := by omega
      obtain ⟨u, hu, hp⟩ := hpar.2
      rw [← hval u hu, hz, Nat.testBit_two_pow_sub_one] at hp; simp [hu] at hp
    have := h3 B (List.mem_filter.2 ⟨List.mem_range.2 hlt, by simp [b1, b2]⟩)
    refine this.trans (le_of_eq ?_)
    unfold cutWeight
    refine Finset.sum_congr rfl fun u hu => Finset.sum_congr rfl fun v hv => ?_
    simp only [hval u (Finset.mem_range.1 hu), hval v (Finset.mem_range.1 hv)]
  exact ⟨fun N w hN => (key N w hN).2.1, fun N w hN => (key N w hN).1, fun N w hN _ => (key N w hN).2.2⟩

/-- the value of a computation that succeeds -/
def getOk {α : Type} (d : α) : Except Err α → α
  | .ok a => a
  | .error _ => d

theorem eq_getOk {α : Type} (d : α) {x : Except Err α} (h : testOk x (fun _ => true) = true) : x = .ok (getOk d x) := by
  obtain ⟨a, rfl, _⟩ := testOk_iff h
  rfl

/-- the environment for a concrete input -/
def exEnv (mode : Mode) (threads rows : Nat) (w : Weights) (starts ends : List Nat) : BEnv :=
  let m := getOk ⟨0, fun _ _ => 0, [], [], [], 0, ⟨0, fun _ _ => 0, [], [], [], [], []⟩⟩ (WM.make rows rows w starts ends)
  ⟨m, mode, threads, getOk ⟨[], [], 0, 0⟩ (makeCols mode m.starts.length m.n), libstdcxx, bruteCut, bruteFlow, ghStream bruteFlow stablePartition, roundDouble⟩

/-- the tests under which `exEnv` is an environment of the input -/
def exOkB (mode : Mode) (rows : Nat) (w : Weights) (starts ends : List Nat) : Bool :=
  testOk (WM.make rows rows w starts ends) (fun m => testOk (makeCols mode m.starts.length m.n) fun _ => true) &&
  (List.range rows).all (fun i => (List.range rows).all fun j => decide ((w i j).den = 1) && decide (-1 ≤ w i j) && decide (w i j < 2 ^ 31))

theorem exEnv_good {mode : Mode} {threads rows : Nat} {w : Weights} {starts ends : List Nat}
    (h : exOkB mode rows w starts ends = true) : (exEnv mode threads rows w starts ends).Good rows w starts ends := by
  simp only [exOkB, Bool.and_eq_true, List.all_eq_true, decide_eq_true_eq, List.mem_range] at h
  obtain ⟨h1, h2⟩ := h
  obtain ⟨m, hm, hc⟩ := testOk_iff h1
  refine ⟨?_, ?_, ?_, bruteCut_correct.near, bruteFlow_correct.near,
    (ghStream_correct bruteFlow_correct stablePartition_correct).proper, roundDouble_rounding, roundDouble_precise⟩
  · unfold exEnv; dsimp only; rw [hm]; rfl
  · intro i hi j hj
    obtain ⟨⟨a, b⟩, c⟩ := h2 i hi j hj
    have e := Rat.coe_int_num_of_den_eq_one a
    refine ⟨(w i j).num, e.symm, ?_, ?_⟩
    · rw [← e] at b; exact_mod_cast b
    · rw [← e] at c; exact_mod_cast c
  · unfold exEnv; dsimp only; rw [hm]
    exact eq_getOk _ hc

/-- the state after a sequence of steps -/
def exec (e : BEnv) (s : BState) (tr : List (Nat × Inp)) : BState := tr.foldl (fun s x => s.step e x.1 x.2) s

/-- a worker is about to solve its LP -/
def Pc.isSolve : Pc → Bool
  | .solve _ => true
  | _ => false

/-- no LP is solved on the way -/
def quietB (e : BEnv) (s : BState) : List (Nat × Inp) → Bool
  | [] => true
  | x :: tr => decide (x.1 < e.threads) && !(s.wk x.1).pc.isSolve && quietB e (s.step e x.1 x.2) tr

theorem Inp.ok_of_not_solve {e : BEnv} {s : BState} {t : Nat} {i : Inp} (h : (s.wk t).pc.isSolve = false) : i.Ok e s t := by
  unfold Inp.Ok
  split
  · rename_i hp; rw [hp] at h; simp [Pc.isSolve] at h
  · trivial

theorem BRun.quiet {e : BEnv} {r : ResState} {tr0 : List (Nat × Inp)} {s : BState} (h : BRun e r tr0 s) :
    ∀ (tr : List (Nat × Inp)), quietB e s tr = true → BRun e r (tr0 ++ tr) (exec e s tr) := by
  intro tr
  induction tr generalizing tr0 s with
  | nil => intro _; simpa [exec] using h
  | cons x tr ih =>
    intro hq
    simp only [quietB, Bool.and_eq_true, decide_eq_true_eq, Bool.not_eq_true'] at hq
    have := ih (BRun.step _ _ x.1 x.2 h hq.1.1 (Inp.ok_of_not_solve hq.1.2)) hq.2
    simpa [exec] using this

theorem BRun.start_eq {e : BEnv} {r : ResState} {s : BState} (h : BRun e r [] s) : BState.start e r = .ok s := by
  have key : ∀ tr s, BRun e r tr s → tr = [] → BState.start e r = .ok s := by
    intro tr s h
    cases h with
    | start _ h => exact fun _ => h
    | step tr s u i _ _ _ => intro h; simp at h
  exact key _ _ h rfl

/-- `n` steps of worker `t` without deadline -/
def steps (t n : Nat) : List (Nat × Inp) := List.replicate n (t, ⟨false, .infeasible, 1000⟩)

end Mtsp
