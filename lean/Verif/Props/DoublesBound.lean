import Verif.Proof.DoublesRound

/-! C72: the rounding of the LP value to a bound, in doubles. -/

namespace Mtsp

/-- **C72, tolerance.** Whatever the magnitude: an LP value that exceeds the integer `k` by no more than the tolerance gives at
most the bound `k`, also with rounding. -/
theorem C72_tolerance_sound {fl : ℚ → ℚ} (hfl : Rounding fl) {k : ℤ} (hk : |(k : ℚ)| ≤ 2 ^ 53) {v : ℚ}
    (hv : v ≤ k + fl (1 / 10 ^ 10)) : ceilBoundF fl v ≤ k := by
  have h := hfl.mono (v - fl (1 / 10 ^ 10)) k (by linarith)
  rw [hfl.int k hk] at h
  exact Int.ceil_le.2 h

theorem roundEven_up {x : ℚ} {m : ℤ} (h1 : (m : ℚ) + 1 / 2 < x) (h2 : x < m + 1) : roundEven x = m + 1 := by
  have hf : ⌊x⌋ = m := Int.floor_eq_iff.2 ⟨by linarith, h2⟩
  unfold roundEven
  rw [hf, if_neg (by linarith), if_pos (by linarith)]

theorem log_of_mem {q : ℚ} {e : ℤ} (h1 : (2 : ℚ) ^ e ≤ q) (h2 : q < (2 : ℚ) ^ (e + 1)) : Int.log 2 q = e := by
  have hq : 0 < q := lt_of_lt_of_le (zpow_pos (by norm_num) _) h1
  apply le_antisymm
  · have := (Int.lt_zpow_iff_log_lt (b := 2) (by norm_num) hq).1 (by simpa using h2)
    omega
  · exact (Int.zpow_le_iff_le_log (b := 2) (by norm_num) hq).1 (by simpa using h1)

/-- **C72, one unit in the last place.** From about a million on the tolerance has no effect: the smallest double above an
integer `k` between 2^20 and 2^53 already gives the bound `k + 1`. -/
theorem C72_one_ulp {e : ℤ} (he : 20 ≤ e) (he2 : e ≤ 52) {k : ℤ} (h1 : (2 : ℚ) ^ e ≤ k) (h2 : (k : ℚ) < 2 ^ (e + 1)) :
    roundDouble (k + 2 ^ (e - 52)) = k + 2 ^ (e - 52) ∧ ceilBoundF roundDouble (k + 2 ^ (e - 52)) = k + 1 := by
  obtain ⟨n, hn⟩ : ∃ n : ℕ, e = 52 - (n : ℤ) := ⟨(52 - e).toNat, by omega⟩
  have hn32 : n ≤ 32 := by omega
  set u : ℚ := 2 ^ (e - 52) with hu
  have hu0 : 0 < u := zpow_pos (by norm_num) _
  have hun : u * 2 ^ n = 1 := by
    rw [hu, hn, show (52 - (n : ℤ) - 52) = -(n : ℤ) by omega, zpow_neg, zpow_natCast]
    exact inv_mul_cancel₀ (by positivity)
  have hu1 : u ≤ 1 := by
    have : (1 : ℚ) ≤ 2 ^ n := one_le_pow₀ (by norm_num)
    nlinarith
  have hu32 : 1 / 2 ^ 32 ≤ u := by
    have : (2 : ℚ) ^ n ≤ 2 ^ 32 := pow_le_pow_right₀ (by norm_num) hn32
    rw [div_le_iff₀ (by positivity)]
    nlinarith
  have hku : (k : ℚ) / u = (k * 2 ^ n : ℤ) := by
    rw [div_eq_iff hu0.ne']
    push_cast
    rw [mul_assoc, mul_comm (2 ^ n) u, hun, mul_one]
  have hk0 : (0 : ℚ) < k := lt_of_lt_of_le (zpow_pos (by norm_num) _) h1
  -- the next double is at most the next power of two
  have hnext : (k : ℚ) + u ≤ 2 ^ (e + 1) := by
    have e2 : (2 : ℚ) ^ (e + 1) / u = ((2 ^ 53 : ℤ) : ℚ) := by
      rw [hu, ← zpow_sub₀ (by norm_num), show e + 1 - (e - 52) = (53 : ℤ) by omega]; norm_num
    have : (k : ℚ) / u < ((2 ^ 53 : ℤ) : ℚ) := by rw [← e2]; exact div_lt_div_of_pos_right h2 hu0
    rw [hku] at this
    have h3 : (k * 2 ^ n : ℤ) + 1 ≤ 2 ^ 53 := by exact_mod_cast this
    have h4 : (k : ℚ) / u + 1 ≤ 2 ^ (e + 1) / u := by rw [hku, e2]; exact_mod_cast h3
    have h5 := mul_le_mul_of_nonneg_right h4 hu0.le
    rw [add_mul, div_mul_cancel₀ _ hu0.ne', div_mul_cancel₀ _ hu0.ne', one_mul] at h5
    exact h5
  have key : ∀ q : ℚ, (k : ℚ) + u / 2 < q → q ≤ k + u → roundDouble q = k + u := by
    intro q ha hb
    have hq : 0 < q := by linarith
    unfold roundDouble
    rw [if_neg hq.ne', if_neg (not_lt.2 hq.le)]
    rcases lt_or_eq_of_le hb with hb | hb
    · have hl : Int.log 2 q = e := log_of_mem (by linarith) (by linarith)
      unfold doublePos
      rw [hl, ← hu]
      have hr : roundEven (q / u) = k * 2 ^ n + 1 := by
        apply roundEven_up
        · rw [← hku]
          rw [← sub_pos]
          have : q / u - (k / u + 1 / 2) = (q - (k + u / 2)) / u := by field_simp
          rw [this]; exact div_pos (by linarith) hu0
        · rw [← hku, ← sub_pos]
          have : k / u + 1 - q / u = (k + u - q) / u := by field_simp
          rw [this]; exact div_pos (by linarith) hu0
      rw [hr]
      push_cast
      rw [add_mul, mul_assoc, mul_comm (2 ^ n) u, hun]; ring
    · rcases lt_or_eq_of_le hnext with h | h
      · have hl : Int.log 2 q = e := log_of_mem (by linarith) (by linarith)
        unfold doublePos
        rw [hl, ← hu, hb]
        have : (k + u) / u = ((k * 2 ^ n + 1 : ℤ) : ℚ) := by
          push_cast
          rw [add_div, hku, div_self hu0.ne']; push_cast; rfl
        rw [this, roundEven_int, ← this, div_mul_cancel₀ _ hu0.ne']
      · rw [hb, h]
        have hz : ((2 : ℚ) ^ (e + 1)) = ((2 ^ (53 - n) : ℤ) : ℚ) := by
          rw [hn, show (52 - (n : ℤ) + 1) = ((53 - n : ℕ) : ℤ) by omega, zpow_natCast]; norm_num
        rw [hz]
        refine doublePos_nat (by positivity) ?_
        push_cast
        exact pow_le_pow_right₀ (by norm_num) (by omega)
  refine ⟨key _ (by linarith) le_rfl, ?_⟩
  have ht : roundDouble (1 / 10 ^ 10) < 1 / 2 ^ 33 ∧ 0 < roundDouble (1 / 10 ^ 10) := by decide +kernel
  unfold ceilBoundF
  rw [key _ (by norm_num at ht hu32 ⊢; linarith [ht.1]) (by linarith [ht.2]), Int.ceil_eq_iff]
  push_cast
  constructor <;> linarith

/-- non-vacuity and sharpness: 2^20 is affected, 2^19 is not -/
example : ceilBoundF roundDouble (2 ^ 20 + 1 / 2 ^ 32) = 2 ^ 20 + 1 ∧ roundDouble (2 ^ 20 + 1 / 2 ^ 32) = 2 ^ 20 + 1 / 2 ^ 32 ∧
    ceilBoundF roundDouble (2 ^ 19 - 1 + 1 / 2 ^ 34) = 2 ^ 19 - 1 ∧ roundDouble (2 ^ 19 - 1 + 1 / 2 ^ 34) = 2 ^ 19 - 1 + 1 / 2 ^ 34 := by
  decide +kernel

end Mtsp
