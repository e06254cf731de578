import Verif.Spec.SearchRounded
import Verif.Proof.BnBRes
import Verif.Props.Noise

/-! Arithmetic for the search in floating point: the tests of the rounded program are those of the exact one for slightly
different reduced costs. -/

namespace Mtsp

variable {fl : ℚ → ℚ}

theorem Precise.bound (hp : Precise fl) {q b : ℚ} (h : |q| ≤ b) : q - 1 / 2 ^ 53 * b ≤ fl q ∧ fl q ≤ q + 1 / 2 ^ 53 * b := by
  have h1 := hp.rel q
  have h2 : (1 : ℚ) / 2 ^ 53 * |q| ≤ 1 / 2 ^ 53 * b := mul_le_mul_of_nonneg_left h (by norm_num)
  obtain ⟨a, b⟩ := abs_le.1 (h1.trans h2)
  constructor <;> linarith

theorem tolF_near (hp : Precise fl) : 1 / 10 ^ 10 - 1 / 10 ^ 25 ≤ tolF fl ∧ tolF fl ≤ 1 / 10 ^ 10 + 1 / 10 ^ 25 := by
  obtain ⟨a, b⟩ := hp.bound (q := 1 / 10 ^ 10) (b := 1 / 10 ^ 10) (by rw [abs_of_pos (by norm_num)])
  unfold tolF
  norm_num at a b ⊢
  constructor <;> linarith

theorem oneF_near (hp : Precise fl) : 1 - 1 / 10 ^ 10 - 1 / 10 ^ 15 ≤ oneF fl ∧ oneF fl ≤ 1 - 1 / 10 ^ 10 + 1 / 10 ^ 15 := by
  obtain ⟨a, b⟩ := tolF_near hp
  norm_num at a b
  obtain ⟨c, d⟩ := hp.bound (q := 1 - tolF fl) (b := 1) (by rw [abs_le]; constructor <;> linarith)
  unfold oneF
  norm_num at c d ⊢
  constructor <;> linarith

/-- how far the reduced costs are changed at most -/
def rcShift : ℚ := 74 / 10 ^ 13

theorem test_fails (hr : Rounding fl) (hp : Precise fl) {s : ℚ} {ub : ℤ} (h1 : -2 ^ 15 ≤ ub) (h2 : ub ≤ 2 ^ 15)
    (h : s < ub + 1 / 10 ^ 10 - rcShift) : fl s < fl (ub + tolF fl) := by
  obtain ⟨a, b⟩ := tolF_near hp
  have h1' : (-2 ^ 15 : ℚ) ≤ ub := by exact_mod_cast h1
  have h2' : (ub : ℚ) ≤ 2 ^ 15 := by exact_mod_cast h2
  unfold rcShift at h
  norm_num at a b h h1' h2'
  have m := hr.mono s (ub + 1 / 10 ^ 10 - 74 / 10 ^ 13) (by norm_num; linarith)
  obtain ⟨_, c⟩ := hp.bound (q := ub + 1 / 10 ^ 10 - 74 / 10 ^ 13) (b := 2 ^ 15 + 1) (by rw [abs_le]; norm_num; constructor <;> linarith)
  obtain ⟨d, _⟩ := hp.bound (q := ub + tolF fl) (b := 2 ^ 15 + 1) (by rw [abs_le]; norm_num; constructor <;> linarith)
  norm_num at m c d
  linarith

theorem test_passes (hr : Rounding fl) (hp : Precise fl) {s : ℚ} {ub : ℤ} (h : ub + 1 / 10 ^ 10 + rcShift ≤ s) :
    fl (ub + tolF fl) ≤ fl s := by
  obtain ⟨_, b⟩ := tolF_near hp
  unfold rcShift at h
  apply hr.mono
  norm_num at b h ⊢
  linarith

/-- The rounded comparison of a number with every possible upper bound is the exact comparison of a number nearby. -/
theorem test_shift (hr : Rounding fl) (hp : Precise fl) {lb : ℤ} (hlb : -2 ^ 15 ≤ lb) (s : ℚ) :
    ∃ s', |s' - s| ≤ 2 * rcShift ∧ (s' ≠ s → lb + 1 / 2 ≤ s' ∧ lb + 1 / 2 ≤ s) ∧
      ∀ ub : ℤ, lb < ub → ub ≤ 2 ^ 15 → (fl s ≥ fl (ub + tolF fl) ↔ s' ≥ ub + 1 / 10 ^ 10) := by
  have hd : rcShift = 74 / 10 ^ 13 := rfl
  by_cases hm : ∃ ub : ℤ, lb < ub ∧ ub ≤ 2 ^ 15 ∧ ¬ (fl s ≥ fl (ub + tolF fl) ↔ s ≥ ub + 1 / 10 ^ 10)
  · obtain ⟨ub, h1, h2, h3⟩ := hm
    have h1' : (lb : ℚ) + 1 ≤ ub := by exact_mod_cast h1
    have near : ub + 1 / 10 ^ 10 - rcShift ≤ s ∧ s ≤ ub + 1 / 10 ^ 10 + rcShift := by
      constructor
      · by_contra hc
        push Not at hc
        have := test_fails hr hp (by omega) h2 hc
        apply h3
        constructor
        · intro h; exact absurd h (not_le.2 this)
        · intro h; rw [hd] at hc; norm_num at hc h; linarith
      · by_contra hc
        push Not at hc
        have := test_passes hr hp hc.le
        apply h3
        constructor
        · intro _; rw [hd] at hc; norm_num at hc ⊢; linarith
        · intro _; exact this
    have other : ∀ (s' : ℚ), ub + 1 / 10 ^ 10 - rcShift ≤ s' → s' ≤ ub + 1 / 10 ^ 10 + rcShift → ∀ v : ℤ, lb < v → v ≤ 2 ^ 15 → v ≠ ub →
        (fl s ≥ fl (v + tolF fl) ↔ s' ≥ v + 1 / 10 ^ 10) := by
      intro s' a b v hv1 hv2 hne
      rcases lt_or_gt_of_ne hne with h | h
      · have h' : (v : ℚ) + 1 ≤ ub := by exact_mod_cast h
        have := test_passes hr hp (s := s) (ub := v) (by rw [hd] at near ⊢; norm_num at near ⊢; linarith [near.1])
        constructor
        · intro _; rw [hd] at a; norm_num at a ⊢; linarith
        · intro _; exact this
      · have h' : (ub : ℚ) + 1 ≤ v := by exact_mod_cast h
        have := test_fails hr hp (s := s) (ub := v) (by omega) hv2 (by rw [hd] at near ⊢; norm_num at near ⊢; linarith [near.2])
        constructor
        · intro hh; exact absurd hh (not_le.2 this)
        · intro hh; rw [hd] at b; norm_num at b hh; linarith
    by_cases hpass : fl s ≥ fl (ub + tolF fl)
    · refine ⟨ub + 1 / 10 ^ 10, ?_, ?_, ?_⟩
      · rw [abs_le]; rw [hd] at near ⊢; norm_num at near ⊢; constructor <;> linarith [near.1, near.2]
      · intro _; rw [hd] at near; norm_num at near ⊢; constructor <;> linarith [near.1]
      · intro v hv1 hv2
        by_cases hv : v = ub
        · subst hv; exact ⟨fun _ => le_refl _, fun _ => hpass⟩
        · exact other _ (by rw [hd]; norm_num) (by rw [hd]; norm_num) v hv1 hv2 hv
    · refine ⟨ub + 1 / 10 ^ 10 - rcShift, ?_, ?_, ?_⟩
      · rw [abs_le]; rw [hd] at near ⊢; norm_num at near ⊢; constructor <;> linarith [near.1, near.2]
      · intro _; rw [hd] at near ⊢; norm_num at near ⊢; constructor <;> linarith [near.1]
      · intro v hv1 hv2
        by_cases hv : v = ub
        · subst hv
          constructor
          · intro h; exact absurd h hpass
          · intro h; rw [hd] at h; norm_num at h
        · exact other _ (le_refl _) (by rw [hd]; linarith) v hv1 hv2 hv
  · push Not at hm
    refine ⟨s, by rw [sub_self, abs_zero, hd]; norm_num, fun h => absurd rfl h, ?_⟩
    exact hm

/-- the bound of a node is computed correctly -/
theorem ceilBoundF_eq (hr : Rounding fl) (hp : Precise fl) {v y x : ℚ} {d : Nat} (hd : 0 < d) (hd9 : d ≤ 10 ^ 9) (hg : OnGrid d x)
    (hvy : |v - y| ≤ 8 / 10 ^ 11) (hyx : |y - x| ≤ 1 / 10 ^ 11) (hx : |x| ≤ 2 ^ 15) :
    (ceilBoundF fl v : ℚ) = ceilBound y ∧ ∃ k : ℤ, ceilBound y = k ∧ -2 ^ 15 ≤ k ∧ k ≤ 2 ^ 15 := by
  have h1 := Int.le_ceil x
  have h2 := Int.ceil_lt_add_one x
  set k := ⌈x⌉ with hk
  have hgap := hg.gap hd hd9 (k - 1) (by push_cast; linarith)
  push_cast at hgap
  obtain ⟨a1, a2⟩ := abs_le.1 hvy
  obtain ⟨b1, b2⟩ := abs_le.1 hyx
  obtain ⟨c1, c2⟩ := abs_le.1 hx
  obtain ⟨t1, t2⟩ := tolF_near hp
  have k1 : -2 ^ 15 ≤ k := by
    have : (-2 ^ 15 : ℚ) ≤ k := by linarith
    exact_mod_cast this
  have k2 : k ≤ 2 ^ 15 := by
    rw [hk, Int.ceil_le]; exact_mod_cast c2
  have k1' : (-2 ^ 15 : ℚ) ≤ k := by exact_mod_cast k1
  have k2' : (k : ℚ) ≤ 2 ^ 15 := by exact_mod_cast k2
  norm_num at hgap a1 a2 b1 b2 c1 c2 t1 t2 k1' k2'
  have e1 : ceilBound y = k := by
    unfold ceilBound
    have : ⌈y - 1 / 10 ^ 10⌉ = k := by
      rw [Int.ceil_eq_iff]; norm_num; constructor <;> linarith
    rw [this]
  have e2 : ceilBoundF fl v = k := by
    unfold ceilBoundF
    change ⌈fl (v - tolF fl)⌉ = k
    rw [Int.ceil_eq_iff]
    constructor
    · obtain ⟨q, _⟩ := hp.bound (q := v - tolF fl) (b := 2 ^ 15 + 2) (by rw [abs_le]; norm_num; constructor <;> linarith)
      norm_num at q
      linarith
    · have := hr.mono (v - tolF fl) k (by linarith)
      rw [hr.int k (by rw [abs_le]; norm_num; constructor <;> linarith)] at this
      exact this
  exact ⟨by rw [e1, e2], k, e1, k1, k2⟩

/-- the test of MtspModel.cpp:390, 402 -/
theorem exploit_test (hr : Rounding fl) (hp : Precise fl) {lb : ℤ} (h1 : -2 ^ 15 ≤ lb) (h2 : lb ≤ 2 ^ 15) (ub : ℤ) :
    fl (5 / 2 * lb) > ub ↔ (5 / 2 * (lb : ℚ)) > ub := by
  have h1' : (-2 ^ 15 : ℚ) ≤ lb := by exact_mod_cast h1
  have h2' : (lb : ℚ) ≤ 2 ^ 15 := by exact_mod_cast h2
  norm_num at h1' h2'
  constructor
  · intro h
    by_contra hc
    have hc : 5 / 2 * (lb : ℚ) ≤ ub := not_lt.1 hc
    by_cases hb : (ub : ℚ) ≤ 2 ^ 53
    · have := hr.mono _ _ hc
      rw [hr.int ub (by rw [abs_le]; norm_num at hb ⊢; constructor <;> linarith)] at this
      linarith
    · obtain ⟨_, q⟩ := hp.bound (q := 5 / 2 * (lb : ℚ)) (b := 2 ^ 17) (by rw [abs_le]; norm_num; constructor <;> linarith)
      norm_num at q hb
      linarith
  · intro h
    have h' : (2 * ub : ℤ) + 1 ≤ 5 * lb := by
      have : ((2 * ub : ℤ) : ℚ) < (5 * lb : ℤ) := by push_cast; linarith
      exact_mod_cast this
    have h'' : 2 * (ub : ℚ) + 1 ≤ 5 * lb := by exact_mod_cast h'
    obtain ⟨q, _⟩ := hp.bound (q := 5 / 2 * (lb : ℚ)) (b := 2 ^ 17) (by rw [abs_le]; norm_num; constructor <;> linarith)
    norm_num at q
    linarith

end Mtsp
