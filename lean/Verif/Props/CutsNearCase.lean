import Verif.Props.CutsNear
import Verif.Proof.SearchExec

/-! C89: nothing is found at the point of a solution; a case. -/

namespace Mtsp
open Finset

variable {rows cols : Nat} {w : Weights} {starts ends : List Nat} {m : WM} {fl : ℚ → ℚ} {y : Nat → ℚ} {sw : GlobalCut} {mf : MaxFlow} {c : LinCon}

/-- The converse of `C89_uncut_is_feasible`: at the point of a feasible solution none of the separations finds anything. -/
theorem C89_feasible_is_uncut {P : Paths} (hfl : Precise fl) (h : WM.make rows cols w starts ends = .ok m) (hsw : sw.Near) (hmf : mf.Near) (hmf' : mf.Proper)
    (hsize : m.starts.length * m.n * m.n ≤ 2147483647) (h3 : 3 ≤ m.n)
    (hf : Feasible m.n m.starts m.ends (DepIn m.n m.w) P) (hx : IsPoint m.n m.starts m.ends P y) :
    ucutF fl sw m.starts.length m.n y = none ∧ piCutF fl mf m.n m.starts m.ends m.deps y = none ∧
    sigmaCutF fl mf m.n m.starts m.deps y = none ∧ piSigmaCutF fl mf m.n m.starts m.deps y = none := by
  obtain ⟨h01, hrows, _⟩ := C35_feasible_is_uncut h bruteCut_correct bruteFlow_correct hsize h3 hf hx
  obtain ⟨own, pv, ht, _⟩ := hx.tour hf.1 (WM.inst h).lenEq
  have hnn : ∀ i < m.starts.length * m.n * m.n, 0 ≤ y i := by
    intro i hi; rcases h01 i hi with e | e <;> rw [e]; norm_num
  have hy1 : ∀ u < m.n, ∀ v < m.n, arcUse m.starts.length m.n y u v ≤ 3 / 2 := by
    intro u hu v hv
    have : ∀ a ∈ range m.starts.length, y (varId m.n a u v) ≤ if own u = a then 1 else 0 := by
      intro a ha
      rw [ht.val a (Finset.mem_range.1 ha) u hu v hv]
      split_ifs with h1 h2 <;> simp_all
    refine (Finset.sum_le_sum this).trans ?_
    rw [Finset.sum_ite_eq]
    split_ifs <;> norm_num
  obtain ⟨v1, v2, v3, v4⟩ := C89_cuts_are_violated hfl h hsw hmf hsize hnn hy1
  refine ⟨?_, ?_, ?_, ?_⟩
  · cases e : ucutF fl sw m.starts.length m.n y with
    | none => rfl
    | some c => exact absurd (C85_connectivity_cut_valid h hsw.splits hsize e hf.1 hx) (v1 c e).1
  · cases e : piCutF fl mf m.n m.starts m.ends m.deps y with
    | none => rfl
    | some c => exact absurd (C85_precedence_cuts_valid h hmf' hsize (Or.inl e) hf hx) (v2 c e).1
  · cases e : sigmaCutF fl mf m.n m.starts m.deps y with
    | none => rfl
    | some c => exact absurd (C85_precedence_cuts_valid h hmf' hsize (Or.inr (Or.inl e)) hf hx) (v3 c e).1
  · cases e : piSigmaCutF fl mf m.n m.starts m.deps y with
    | none => rfl
    | some c => exact absurd (C85_precedence_cuts_valid h hmf' hsize (Or.inr (Or.inr e)) hf hx) (v4 c e).1

theorem offFlow_proper : offFlow.Proper := by
  refine ⟨bruteFlow_correct.sides, ?_⟩
  intro N keep c s t hs ht hst hks hkt h0
  have := bruteFlow_correct.proper.nonneg N keep c s t hs ht hst hks hkt h0
  have h2 : (0 : ℚ) < 1 / 10 ^ 12 := by norm_num
  show 0 ≤ (bruteFlow N keep c s t).1 + 1 / 10 ^ 12
  linarith

/-- Non-vacuity, with IEEE rounding and an inexact flow algorithm, for the instance `niExW`: the hypotheses of `C89_uncut_is_feasible` are met by
the point of a solution with dependencies, and at the point 0, all of whose inequalities are violated, cuts are found. -/
example : ∃ (m : WM) (y : Nat → ℚ), Precise roundDouble ∧ WM.make 6 6 niExW [0, 0] [0, 4] = .ok m ∧ m.deps.arcs ≠ [] ∧
    m.starts.length * m.n * m.n ≤ 2147483647 ∧
    NearInt (m.starts.length * m.n * m.n) (0 : ℚ) y y ∧ (∀ i < m.starts.length * m.n * m.n, y i > 1 - 1 / 10 ^ 10 ↔ y i = 1) ∧
    (∀ c ∈ buildConstraints m.n m.starts m.ends m.deps.arcs, c.Sat y) ∧
    ucutF roundDouble bruteCut m.starts.length m.n y = none ∧ piCutF roundDouble offFlow m.n m.starts m.ends m.deps y = none ∧
    ucutF roundDouble bruteCut m.starts.length m.n (fun _ => 0) ≠ none ∧ piSigmaCutF roundDouble offFlow m.n m.starts m.deps (fun _ => 0) ≠ none := by
  have key : testOk (WM.make 6 6 niExW [0, 0] [0, 4]) (fun m =>
      decide (m.n = 8 ∧ m.starts.length = 2 ∧ m.deps.arcs ≠ [] ∧ (3, 1) ∈ m.deps.arcs) && feasB m [[0, 3, 1, 5, 6], [7, 2, 4]]) = true := by decide +kernel
  obtain ⟨m, hm, k⟩ := testOk_iff key
  rw [Bool.and_eq_true] at k
  obtain ⟨hn, hl, ha, ha'⟩ := of_decide_eq_true k.1
  have hsize : m.starts.length * m.n * m.n ≤ 2147483647 := by rw [hn, hl]; decide
  have hd := (WM.arcs_iff hm 3 1).1 ha'
  obtain ⟨h1, h2, _⟩ := C35_feasible_is_uncut hm bruteCut_correct bruteFlow_correct hsize (by omega) (feasB_sound k.2) (pointOf_isPoint _ _ _ _)
  obtain ⟨u1, u2, _⟩ := C89_feasible_is_uncut roundDouble_precise hm bruteCut_correct.near offFlow_near offFlow_proper hsize (by omega) (feasB_sound k.2)
    (pointOf_isPoint _ _ _ _)
  obtain ⟨z1, _, _, z2⟩ := C89_separation_complete (y := fun _ => 0) roundDouble_precise hm bruteCut_correct.near offFlow_near hsize (fun _ _ => le_refl _)
    (by intro u _ v _; simp only [arcUse, Finset.sum_const_zero]; norm_num)
  refine ⟨m, _, roundDouble_precise, hm, ha, hsize, ?_, ?_, h2, u1, u2,
    z1 ⟨fun v => decide (v = 0), ⟨0, by omega, by simp⟩, ⟨1, by omega, by simp⟩, ?_⟩, z2 ⟨3, 1, hd, fun v => decide (v = 3), by simp, by simp, ?_⟩⟩
  · intro i hi
    rcases h1 i hi with h | h <;> rw [h] <;> norm_num
  · intro i hi
    rcases h1 i hi with h | h <;> rw [h] <;> norm_num
  · simp only [arcUse, Finset.sum_const_zero, ite_self]; norm_num
  · simp only [outflow, arcUse, Finset.sum_const_zero, ite_self]; norm_num

end Mtsp
