import Verif.Model.Doubles
import Verif.Spec.Doubles
import Mathlib.Tactic.Linarith
import Mathlib.Tactic.Positivity
import Mathlib.Tactic.FieldSimp
import Mathlib.Tactic.Ring
import Mathlib.Tactic.NormNum

/-! `roundDouble` is a `Rounding`. -/

namespace Mtsp

theorem roundEven_int (z : ℤ) : roundEven (z : ℚ) = z := by
  simp [roundEven]

theorem roundEven_ge (x : ℚ) : ⌊x⌋ ≤ roundEven x := by
  unfold roundEven; split_ifs <;> omega

theorem roundEven_le (x : ℚ) : roundEven x ≤ ⌊x⌋ + 1 := by
  unfold roundEven; split_ifs <;> omega

theorem roundEven_mono {x y : ℚ} (h : x ≤ y) : roundEven x ≤ roundEven y := by
  have hf := Int.floor_mono h
  rcases lt_or_eq_of_le hf with h1 | h1
  · have := roundEven_le x
    have := roundEven_ge y
    omega
  · unfold roundEven
    rw [h1]
    split_ifs <;> first | omega | (exfalso; linarith)

theorem doublePos_mem {q : ℚ} (h : 0 < q) :
    (2 : ℚ) ^ Int.log 2 q ≤ doublePos q ∧ doublePos q ≤ (2 : ℚ) ^ (Int.log 2 q + 1) := by
  have h1 : (2 : ℚ) ^ Int.log 2 q ≤ q := by
    have := Int.zpow_log_le_self (b := 2) (r := q) (by norm_num) h
    simpa using this
  have h2 : q < (2 : ℚ) ^ (Int.log 2 q + 1) := by
    have := Int.lt_zpow_succ_log_self (b := 2) (by norm_num) q
    simpa using this
  set e := Int.log 2 q
  have hp : (0 : ℚ) < 2 ^ (e - 52) := zpow_pos (by norm_num) _
  have e1 : (2 : ℚ) ^ e = ((2 ^ 52 : ℤ) : ℚ) * 2 ^ (e - 52) := by
    rw [show ((2 ^ 52 : ℤ) : ℚ) = (2 : ℚ) ^ (52 : ℤ) by norm_num, ← zpow_add₀ (by norm_num)]
    congr 1; omega
  have e2 : (2 : ℚ) ^ (e + 1) = ((2 ^ 53 : ℤ) : ℚ) * 2 ^ (e - 52) := by
    rw [show ((2 ^ 53 : ℤ) : ℚ) = (2 : ℚ) ^ (53 : ℤ) by norm_num, ← zpow_add₀ (by norm_num)]
    congr 1; omega
  have a1 : ((2 ^ 52 : ℤ) : ℚ) ≤ q / 2 ^ (e - 52) := by
    rw [le_div_iff₀ hp, ← e1]; exact h1
  have a2 : q / 2 ^ (e - 52) ≤ ((2 ^ 53 : ℤ) : ℚ) := by
    rw [div_le_iff₀ hp, ← e2]; exact h2.le
  have b1 := roundEven_mono a1
  have b2 := roundEven_mono a2
  rw [roundEven_int] at b1 b2
  constructor
  · rw [e1]; unfold doublePos
    exact mul_le_mul_of_nonneg_right (by exact_mod_cast b1) hp.le
  · rw [e2]; unfold doublePos
    exact mul_le_mul_of_nonneg_right (by exact_mod_cast b2) hp.le

theorem doublePos_pos {q : ℚ} (h : 0 < q) : 0 < doublePos q :=
  lt_of_lt_of_le (zpow_pos (by norm_num) _) (doublePos_mem h).1

theorem doublePos_mono {q r : ℚ} (h : 0 < q) (hr : q ≤ r) : doublePos q ≤ doublePos r := by
  have hl : Int.log 2 q ≤ Int.log 2 r := Int.log_mono_right h hr
  rcases lt_or_eq_of_le hl with h1 | h1
  · refine le_trans (doublePos_mem h).2 (le_trans ?_ (doublePos_mem (lt_of_lt_of_le h hr)).1)
    exact zpow_le_zpow_right₀ (by norm_num) (by omega)
  · unfold doublePos
    rw [h1]
    have hp : (0 : ℚ) < 2 ^ (Int.log 2 r - 52) := zpow_pos (by norm_num) _
    refine mul_le_mul_of_nonneg_right ?_ hp.le
    exact_mod_cast roundEven_mono (div_le_div_of_nonneg_right hr hp.le)

theorem doublePos_nat {z : ℤ} (h0 : 0 < z) (h : (z : ℚ) ≤ 2 ^ 53) : doublePos z = z := by
  have hq : (0 : ℚ) < z := by exact_mod_cast h0
  have hp : (0 : ℚ) < 2 ^ (Int.log 2 (z : ℚ) - 52) := zpow_pos (by norm_num) _
  have key : ∃ k : ℤ, (z : ℚ) / 2 ^ (Int.log 2 (z : ℚ) - 52) = k := by
    rcases lt_or_eq_of_le h with hlt | heq
    · have h1 : (2 : ℚ) ^ Int.log 2 (z : ℚ) ≤ z := by
        have := Int.zpow_log_le_self (b := 2) (r := (z : ℚ)) (by norm_num) hq
        simpa using this
      have h2 : Int.log 2 (z : ℚ) < 53 := by
        have : (2 : ℚ) ^ Int.log 2 (z : ℚ) < 2 ^ (53 : ℤ) := lt_of_le_of_lt h1 (by exact_mod_cast hlt)
        exact (zpow_lt_zpow_iff_right₀ (by norm_num)).1 this
      set e := Int.log 2 (z : ℚ)
      obtain ⟨n, hn⟩ : ∃ n : ℕ, e - 52 = -(n : ℤ) := ⟨(52 - e).toNat, by omega⟩
      refine ⟨z * 2 ^ n, ?_⟩
      rw [hn, zpow_neg, div_inv_eq_mul]
      push_cast
      simp
    · have : Int.log 2 (z : ℚ) = 53 := by
        rw [heq]
        have := Int.log_zpow (R := ℚ) (b := 2) (by norm_num) 53
        simpa using this
      refine ⟨2 ^ 52, ?_⟩
      rw [this, heq]
      norm_num
  obtain ⟨k, hk⟩ := key
  unfold doublePos
  rw [hk, roundEven_int, ← hk]
  field_simp

theorem roundDouble_rounding : Rounding roundDouble := by
  constructor
  · intro z hz
    rw [abs_le] at hz
    unfold roundDouble
    split_ifs with h h'
    · exact h.symm
    · have : (-(z : ℚ)) = ((-z : ℤ) : ℚ) := by push_cast; rfl
      rw [this, doublePos_nat (by exact_mod_cast (by linarith : (0 : ℚ) < -z)) (by push_cast; linarith)]
      push_cast; ring
    · have : (0 : ℚ) < z := lt_of_le_of_ne (not_lt.1 h') (Ne.symm h)
      exact doublePos_nat (by exact_mod_cast this) hz.2
  · intro a b hab
    unfold roundDouble
    split_ifs with h1 h2 h3 h4 h5 h6 h7 h8
    · exact le_refl _
    · linarith
    · exact (doublePos_pos (lt_of_le_of_ne (not_lt.1 h3) (Ne.symm h2))).le
    · have := doublePos_pos (q := -a) (by linarith)
      linarith
    · have := doublePos_mono (q := -b) (r := -a) (by linarith) (by linarith)
      linarith
    · have := doublePos_pos (q := -a) (by linarith)
      have := doublePos_pos (lt_of_le_of_ne (not_lt.1 h6) (Ne.symm h5))
      linarith
    · have : 0 < a := lt_of_le_of_ne (not_lt.1 h4) (Ne.symm h1)
      linarith
    · linarith
    · exact doublePos_mono (lt_of_le_of_ne (not_lt.1 h4) (Ne.symm h1)) hab

theorem Rounding.abs_le {fl : ℚ → ℚ} (h : Rounding fl) {b : ℕ} (hb : (b : ℚ) ≤ 2 ^ 53) {q : ℚ} (hq : |q| ≤ b) : |fl q| ≤ b := by
  have h0 : (0 : ℚ) ≤ b := Nat.cast_nonneg b
  rw [_root_.abs_le] at hq ⊢
  have h1 := h.mono _ _ hq.1
  have h2 := h.mono _ _ hq.2
  have e1 : fl (-(b : ℚ)) = -(b : ℚ) := by
    have := h.int (-(b : ℤ)) (by push_cast; rw [abs_neg, abs_of_nonneg h0]; exact hb)
    push_cast at this; exact this
  have e2 : fl (b : ℚ) = b := by
    have := h.int (b : ℤ) (by push_cast; rw [abs_of_nonneg h0]; exact hb)
    push_cast at this; exact this
  rw [e1] at h1; rw [e2] at h2
  exact ⟨h1, h2⟩

end Mtsp
