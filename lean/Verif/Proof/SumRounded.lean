import Verif.Spec.SearchRounded
import Verif.Proof.CutsNear

/-! The error of a rounded sum. -/

namespace Mtsp

variable {fl : ℚ → ℚ}

theorem doublePos_idem {q : ℚ} (h : 0 < q) : doublePos (doublePos q) = doublePos q := by
  obtain ⟨h1, h2⟩ := doublePos_mem h
  set e := Int.log 2 q with he
  have hpos := doublePos_pos h
  have key : ∃ k : ℤ, doublePos q / 2 ^ (Int.log 2 (doublePos q) - 52) = k := by
    rcases lt_or_eq_of_le h2 with hlt | heq
    · have hl : Int.log 2 (doublePos q) = e := by
        apply le_antisymm
        · have a := (Int.lt_zpow_iff_log_lt (b := 2) (by norm_num) hpos (x := e + 1)).1 (by exact_mod_cast hlt)
          omega
        · exact (Int.zpow_le_iff_le_log (b := 2) (by norm_num) hpos).1 (by exact_mod_cast h1)
      rw [hl]
      refine ⟨roundEven (q / 2 ^ (e - 52)), ?_⟩
      conv_lhs => rw [doublePos]
      rw [mul_div_assoc, div_self (zpow_pos (by norm_num) _).ne', mul_one]
    · have hl : Int.log 2 (doublePos q) = e + 1 := by
        rw [heq]
        have := Int.log_zpow (R := ℚ) (b := 2) (by norm_num) (e + 1)
        simpa using this
      rw [hl, heq]
      refine ⟨2 ^ 52, ?_⟩
      rw [← zpow_sub₀ (by norm_num), show e + 1 - (e + 1 - 52) = 52 by ring]
      norm_num
  obtain ⟨k, hk⟩ := key
  conv_lhs => rw [doublePos]
  rw [hk, roundEven_int, ← hk, div_mul_cancel₀ _ (zpow_pos (by norm_num) _).ne']

theorem roundDouble_settled : Settled roundDouble := by
  intro q
  unfold roundDouble
  by_cases h0 : q = 0
  · simp [h0]
  by_cases h1 : q < 0
  · rw [if_neg h0, if_pos h1]
    have := doublePos_pos (q := -q) (by linarith)
    rw [if_neg (by linarith), if_pos (by linarith), neg_neg, doublePos_idem (by linarith)]
  · have hq : 0 < q := lt_of_le_of_ne (not_lt.1 h1) (Ne.symm h0)
    rw [if_neg h0, if_neg h1]
    have := doublePos_pos hq
    rw [if_neg (by linarith), if_neg (by linarith), doublePos_idem hq]

/-- one addition -/
theorem sum_step (hp : Precise fl) {r s c E S T : ℚ} (hE : |r - s| ≤ E) (hs : |s + c| ≤ S) (hc : |c| ≤ S) (hT : 0 ≤ T)
    (hES : E ≤ S / 16 * 2 ^ 53 * (1 / 2 ^ 53)) :
    |fl (r + fl c) - (s + c)| ≤ E + 9 / 8 * (1 / 2 ^ 53 * S + 1 / 2 ^ 53 * |c|) := by
  have h1 := hp.rel c
  have h2 := hp.rel (r + fl c)
  have e1 : r + fl c = (s + c) + (r - s) + (fl c - c) := by ring
  have h3 : |r + fl c| ≤ S + E + 1 / 2 ^ 53 * |c| := by
    rw [e1]
    exact (abs_add_le _ _).trans (add_le_add ((abs_add_le _ _).trans (add_le_add hs hE)) h1)
  have h4 : |fl (r + fl c) - (s + c)| ≤ |fl (r + fl c) - (r + fl c)| + (|r - s| + |fl c - c|) := by
    rw [show fl (r + fl c) - (s + c) = (fl (r + fl c) - (r + fl c)) + ((r - s) + (fl c - c)) by ring]
    exact (abs_add_le _ _).trans (add_le_add le_rfl (abs_add_le _ _))
  have h5 : (1 : ℚ) / 2 ^ 53 * |r + fl c| ≤ 1 / 2 ^ 53 * (S + E + 1 / 2 ^ 53 * |c|) := mul_le_mul_of_nonneg_left h3 (by norm_num)
  have h6 := abs_nonneg c
  norm_num at h1 h2 h3 h4 h5 hES ⊢
  linarith

theorem sum_near (hp : Precise fl) (hi : Settled fl) (y : Nat → ℚ) {S : ℚ} : ∀ (l : List (Nat × ℚ)) (r s E T : ℚ) (k : Nat),
    (∃ q, r = fl q) → |r - s| ≤ E → |s| ≤ T → T + (l.map fun p => |p.2 * y p.1|).sum ≤ S → (k : ℚ) + (l.filter fun p => decide (p.2 * y p.1 ≠ 0)).length ≤ 10 ^ 9 →
    E ≤ 9 / 8 * (1 / 2 ^ 53 * (k * S) + 1 / 2 ^ 53 * T) →
    |l.foldl (fun r p => fl (r + fl (p.2 * y p.1))) r - l.foldl (fun r p => r + p.2 * y p.1) s| ≤
      9 / 8 * (1 / 2 ^ 53 * ((k + (l.filter fun p => decide (p.2 * y p.1 ≠ 0)).length) * S) + 1 / 2 ^ 53 * S) := by
  have f0 : fl 0 = 0 := by
    have := hp.rel 0
    simp only [abs_zero, mul_zero, sub_zero] at this
    exact abs_nonpos_iff.1 this
  intro l
  induction l with
  | nil =>
    intro r s E T k _ hE hs hS _ hEE
    simp only [List.map_nil, List.sum_nil, add_zero, List.foldl_nil, List.filter_nil, List.length_nil, Nat.cast_zero] at *
    refine hE.trans (hEE.trans ?_)
    norm_num
    linarith
  | cons p l ih =>
    intro r s E T k hr hE hs hS hk hEE
    simp only [List.map_cons, List.sum_cons, List.foldl_cons] at *
    by_cases h0 : p.2 * y p.1 = 0
    · have e1 : fl (r + fl (p.2 * y p.1)) = r := by
        obtain ⟨q, rfl⟩ := hr
        rw [h0, f0, add_zero, hi q]
      have hd : decide (p.2 * y p.1 ≠ 0) = false := by simp [h0]
      have e2 : (p :: l).filter (fun p => decide (p.2 * y p.1 ≠ 0)) = l.filter fun p => decide (p.2 * y p.1 ≠ 0) :=
        List.filter_cons_of_neg (by rw [hd]; simp)
      rw [e2] at hk ⊢
      rw [e1, h0, add_zero]
      exact ih r s E T k hr hE hs (by rw [h0, abs_zero, zero_add] at hS; exact hS) hk hEE
    · have e2 : (p :: l).filter (fun p => decide (p.2 * y p.1 ≠ 0)) = p :: l.filter fun p => decide (p.2 * y p.1 ≠ 0) :=
        List.filter_cons_of_pos (by simp [h0])
      rw [e2, List.length_cons] at hk ⊢
      have hnn : 0 ≤ (l.map fun p => |p.2 * y p.1|).sum := List.sum_nonneg (by
        intro a ha
        obtain ⟨b, _, rfl⟩ := List.mem_map.1 ha
        exact abs_nonneg _)
      have hT : 0 ≤ T := (abs_nonneg s).trans hs
      have hc := abs_nonneg (p.2 * y p.1)
      have hSS : 0 ≤ S := by linarith
      have hT2 : |s + p.2 * y p.1| ≤ T + |p.2 * y p.1| := (abs_add_le _ _).trans (add_le_add hs le_rfl)
      have hk0 : (k : ℚ) ≤ 10 ^ 9 := by push_cast at hk; have := Nat.cast_nonneg (α := ℚ) (l.filter fun p => decide (p.2 * y p.1 ≠ 0)).length; linarith
      have hkS : (k : ℚ) * S ≤ 10 ^ 9 * S := mul_le_mul_of_nonneg_right hk0 hSS
      have hstep := sum_step hp (c := p.2 * y p.1) (S := S) (T := T) hE (by linarith) (by linarith) hT (by
        norm_num at hEE hkS ⊢; linarith)
      have := ih (fl (r + fl (p.2 * y p.1))) (s + p.2 * y p.1) _ (T + |p.2 * y p.1|) (k + 1) ⟨_, rfl⟩ hstep hT2 (by linarith) (by push_cast at hk ⊢; linarith) (by
        push_cast
        rw [add_mul (k : ℚ) 1 S]
        norm_num at hEE ⊢
        linarith)
      rw [show ((k + 1 : ℕ) : ℚ) + ((l.filter fun p => decide (p.2 * y p.1 ≠ 0)).length : ℚ) =
        (k : ℚ) + (((l.filter fun p => decide (p.2 * y p.1 ≠ 0)).length + 1 : ℕ) : ℚ) by push_cast; ring] at this
      exact this

theorem eval_perm {l l' : List (Nat × ℚ)} (h : l'.Perm l) (y : Nat → ℚ) (c : ℚ) :
    l'.foldl (fun r p => r + p.2 * y p.1) c = l.foldl (fun r p => r + p.2 * y p.1) c :=
  h.foldl_eq' (fun a _ b _ z => by ring) c

/-- the computed value of the objective function -/
theorem evalF_near (hp : Precise fl) (hi : Settled fl) {ord : List (Nat × ℚ) → List (Nat × ℚ)} (ho : ∀ l, (ord l).Perm l) {l : LinComp} {y : Nat → ℚ}
    (hc : fl l.const = l.const) (h1 : l.terms y ≤ 10 ^ 9) (h2 : (l.terms y + 1) * l.size y ≤ 640000) :
    |l.evalF fl ord y - l.eval y| ≤ 8 / 10 ^ 11 := by
  have e1 : ((ord l.coefs).map fun p => |p.2 * y p.1|).sum = (l.coefs.map fun p => |p.2 * y p.1|).sum :=
    ((ho l.coefs).map _).sum_eq
  have e2 : ((ord l.coefs).filter fun p => decide (p.2 * y p.1 ≠ 0)).length = l.terms y := ((ho l.coefs).filter _).length_eq
  have := sum_near hp hi y (S := l.size y) (ord l.coefs) l.const l.const 0 |l.const| 0 ⟨_, hc.symm⟩ (by simp) le_rfl
    (by rw [e1]; exact le_rfl) (by rw [e2]; push_cast; rw [zero_add]; exact_mod_cast h1) (by
      have := abs_nonneg l.const
      norm_num)
  rw [eval_perm (ho l.coefs), e2] at this
  refine this.trans ?_
  push_cast
  rw [zero_add]
  rw [add_mul, one_mul] at h2
  norm_num
  linarith

end Mtsp
