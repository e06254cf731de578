import Verif.Model.CutsRounded
import Verif.Spec.CutsNear
import Verif.Proof.CutsRounded
import Verif.Proof.DoublesRound
import Verif.Proof.Cuts
import Mathlib.Algebra.Order.Ring.Pow

/-! Bounds on the error of rounded sums. -/

namespace Mtsp
open Finset

variable {fl : ℚ → ℚ}

theorem roundEven_near (x : ℚ) : |(roundEven x : ℚ) - x| ≤ 1 / 2 := by
  have h1 := Int.floor_le x
  have h2 := Int.lt_floor_add_one x
  unfold roundEven
  rw [abs_le]
  split_ifs <;> push_cast <;> constructor <;> linarith

theorem doublePos_near {q : ℚ} (h : 0 < q) : |doublePos q - q| ≤ 1 / 2 ^ 53 * q := by
  have hp : (0 : ℚ) < 2 ^ (Int.log 2 q - 52) := zpow_pos (by norm_num) _
  have h1 : (2 : ℚ) ^ Int.log 2 q ≤ q := by
    have := Int.zpow_log_le_self (b := 2) (r := q) (by norm_num) h
    simpa using this
  have e1 : (2 : ℚ) ^ Int.log 2 q = 2 ^ 52 * 2 ^ (Int.log 2 q - 52) := by
    rw [show (2 : ℚ) ^ 52 = (2 : ℚ) ^ (52 : ℤ) by norm_num, ← zpow_add₀ (by norm_num)]
    congr 1; omega
  have hn := roundEven_near (q / 2 ^ (Int.log 2 q - 52))
  have e2 : doublePos q - q = ((roundEven (q / 2 ^ (Int.log 2 q - 52)) : ℚ) - q / 2 ^ (Int.log 2 q - 52)) * 2 ^ (Int.log 2 q - 52) := by
    unfold doublePos
    rw [sub_mul, div_mul_cancel₀ _ hp.ne']
  rw [e2, abs_mul, abs_of_pos hp]
  calc _ ≤ 1 / 2 * (2 : ℚ) ^ (Int.log 2 q - 52) := mul_le_mul_of_nonneg_right hn hp.le
    _ ≤ 1 / 2 ^ 53 * q := by
      rw [e1] at h1
      have : (1 : ℚ) / 2 ^ 53 * (2 ^ 52 * 2 ^ (Int.log 2 q - 52)) ≤ 1 / 2 ^ 53 * q := mul_le_mul_of_nonneg_left h1 (by norm_num)
      refine le_trans (le_of_eq ?_) this
      ring

theorem roundDouble_precise : Precise roundDouble := by
  have key : ∀ q, 0 ≤ q → |roundDouble q - q| ≤ 1 / 2 ^ 53 * q := by
    intro q hq
    unfold roundDouble
    by_cases h0 : q = 0
    · simp [h0]
    · rw [if_neg h0, if_neg (not_lt.2 hq)]
      exact doublePos_near (lt_of_le_of_ne hq (Ne.symm h0))
  constructor
  intro q
  rcases le_total 0 q with h | h
  · rw [abs_of_nonneg h]; exact key q h
  · have e : roundDouble q = -roundDouble (-q) := by
      unfold roundDouble
      rcases eq_or_lt_of_le h with h | h
      · simp [h]
      · rw [if_neg h.ne, if_pos h, if_neg (neg_ne_zero.2 h.ne) , if_neg (by linarith)]
    have := key (-q) (by linarith)
    rw [e, abs_of_nonpos h, show -roundDouble (-q) - q = -(roundDouble (-q) - -q) by ring, abs_neg]
    exact this

theorem Precise.low (h : Precise fl) (q : ℚ) (hq : 0 ≤ q) : (1 - 1 / 2 ^ 53) * q ≤ fl q := by
  have := (abs_le.1 (h.rel q)).1
  rw [abs_of_nonneg hq] at this
  linarith

theorem Precise.high (h : Precise fl) (q : ℚ) (hq : 0 ≤ q) : fl q ≤ (1 + 1 / 2 ^ 53) * q := by
  have := (abs_le.1 (h.rel q)).2
  rw [abs_of_nonneg hq] at this
  linarith

theorem Precise.nonneg (h : Precise fl) {q : ℚ} (hq : 0 ≤ q) : 0 ≤ fl q :=
  le_trans (mul_nonneg (by norm_num) hq) (h.low q hq)

/-- sums of `A` rounded terms -/
theorem Precise.sum (h : Precise fl) {t g : Nat → ℚ} (A : Nat) (hg : ∀ a < A, 0 ≤ g a)
    (ht : ∀ a < A, (1 - 1 / 2 ^ 53) * g a ≤ t a ∧ t a ≤ (1 + 1 / 2 ^ 53) * g a) :
    (1 - 1 / 2 ^ 53) ^ (A + 1) * ∑ a ∈ range A, g a ≤ (List.range A).foldl (fun s a => fl (s + t a)) 0 ∧
    (List.range A).foldl (fun s a => fl (s + t a)) 0 ≤ (1 + 1 / 2 ^ 53) ^ (A + 1) * ∑ a ∈ range A, g a := by
  induction A with
  | zero => simp
  | succ A ih =>
    obtain ⟨i1, i2⟩ := ih (fun a ha => hg a (by omega)) (fun a ha => ht a (by omega))
    obtain ⟨t1, t2⟩ := ht A (by omega)
    have hgA := hg A (by omega)
    have hS : 0 ≤ ∑ a ∈ range A, g a := Finset.sum_nonneg fun a ha => hg a (by have := Finset.mem_range.1 ha; omega)
    rw [List.range_succ, List.foldl_append, Finset.sum_range_succ]
    simp only [List.foldl_cons, List.foldl_nil]
    generalize (List.range A).foldl (fun s a => fl (s + t a)) 0 = F at i1 i2
    generalize ∑ a ∈ range A, g a = S at i1 i2 hS
    have l0 : (0 : ℚ) ≤ (1 - 1 / 2 ^ 53) := by norm_num
    have l1 : (1 - 1 / 2 ^ 53 : ℚ) ^ (A + 1) ≤ 1 - 1 / 2 ^ 53 := by
      rw [pow_succ (1 - 1 / 2 ^ 53 : ℚ)]
      exact mul_le_of_le_one_left l0 (pow_le_one₀ l0 (by norm_num))
    have u1 : (1 + 1 / 2 ^ 53 : ℚ) ≤ (1 + 1 / 2 ^ 53) ^ (A + 1) := by
      rw [pow_succ (1 + 1 / 2 ^ 53 : ℚ)]
      exact le_mul_of_one_le_left (by norm_num) (one_le_pow₀ (by norm_num))
    have s1 : (1 - 1 / 2 ^ 53 : ℚ) ^ (A + 1) * (S + g A) ≤ F + t A := by
      have := mul_le_mul_of_nonneg_right l1 hgA
      linarith
    have s2 : F + t A ≤ (1 + 1 / 2 ^ 53 : ℚ) ^ (A + 1) * (S + g A) := by
      have := mul_le_mul_of_nonneg_right u1 hgA
      linarith
    have s0 : 0 ≤ F + t A := le_trans (mul_nonneg (pow_nonneg l0 _) (by linarith)) s1
    constructor
    · refine le_trans ?_ (h.low _ s0)
      rw [pow_succ (1 - 1 / 2 ^ 53 : ℚ)]
      have := mul_le_mul_of_nonneg_left s1 l0
      linarith
    · refine le_trans (h.high _ s0) ?_
      rw [pow_succ (1 + 1 / 2 ^ 53 : ℚ)]
      have := mul_le_mul_of_nonneg_left s2 (show (0 : ℚ) ≤ 1 + 1 / 2 ^ 53 by norm_num)
      linarith

theorem pow_low {k : Nat} (hk : k ≤ 4000) : 1 - 1 / 10 ^ 12 ≤ (1 - 1 / 2 ^ 53 : ℚ) ^ k := by
  have := one_add_mul_le_pow (a := -(1 / 2 ^ 53 : ℚ)) (by norm_num) k
  rw [← sub_eq_add_neg] at this
  refine le_trans ?_ this
  have hk : (k : ℚ) ≤ 4000 := by exact_mod_cast hk
  have : (k : ℚ) * -(1 / 2 ^ 53) ≥ 4000 * -(1 / 2 ^ 53) := mul_le_mul_of_nonpos_right hk (by norm_num)
  have h3 : (1 : ℚ) - 1 / 10 ^ 12 ≤ 1 + 4000 * -(1 / 2 ^ 53) := by norm_num
  linarith

theorem pow_high {k : Nat} (hk : k ≤ 4000) : (1 + 1 / 2 ^ 53 : ℚ) ^ k ≤ 1 + 1 / 10 ^ 12 := by
  have h1 := one_add_mul_le_pow (a := -(1 / 2 ^ 53 : ℚ)) (by norm_num) k
  rw [← sub_eq_add_neg] at h1
  have hk : (k : ℚ) ≤ 4000 := by exact_mod_cast hk
  have h2 : (k : ℚ) * -(1 / 2 ^ 53) ≥ 4000 * -(1 / 2 ^ 53) := mul_le_mul_of_nonpos_right hk (by norm_num)
  have h3 : (1 + 1 / 2 ^ 53 : ℚ) ^ k * (1 - 1 / 2 ^ 53) ^ k ≤ 1 := by
    rw [← mul_pow]
    exact pow_le_one₀ (by norm_num) (by norm_num)
  have h4 : (1 : ℚ) + 4000 * -(1 / 2 ^ 53) ≤ (1 - 1 / 2 ^ 53) ^ k := by linarith
  have h5 : (0 : ℚ) ≤ (1 + 1 / 2 ^ 53) ^ k := by positivity
  have h6 := mul_le_mul_of_nonneg_left h4 h5
  have h7 : (1 + 1 / 2 ^ 53 : ℚ) ^ k * (1 + 4000 * -(1 / 2 ^ 53)) ≤ 1 := h6.trans h3
  have h8 : (1 : ℚ) ≤ (1 + 1 / 10 ^ 12) * (1 + 4000 * -(1 / 2 ^ 53)) := by norm_num
  exact le_of_mul_le_mul_right (h7.trans h8) (by norm_num)

/-- the constant `k - 1e-10` -/
theorem Precise.limit (h : Precise fl) {k : ℚ} (h1 : 1 ≤ k) (h2 : k ≤ 2) :
    k - 1 / 10 ^ 10 - 1 / 10 ^ 12 ≤ limitF fl k ∧ limitF fl k ≤ k - 1 / 10 ^ 10 + 1 / 10 ^ 12 := by
  have a1 := h.low (1 / 10 ^ 10) (by norm_num)
  have a2 := h.high (1 / 10 ^ 10) (by norm_num)
  unfold limitF
  generalize fl (1 / 10 ^ 10) = t at a1 a2
  have hk : 0 ≤ k - t := by
    have : (1 + 1 / 2 ^ 53) * (1 / 10 ^ 10 : ℚ) ≤ 1 := by norm_num
    linarith
  have b1 := h.low _ hk
  have b2 := h.high _ hk
  norm_num at a1 a2 b1 b2 ⊢
  constructor <;> linarith

variable {A N : Nat} {y : Nat → ℚ}

/-- the weights of `Ucut` -/
theorem undirWeightF_near (h : Precise fl) (hA : A < 4000) {u v : Nat} (hy : ∀ a < A, 0 ≤ y (varId N a u v) ∧ 0 ≤ y (varId N a v u)) :
    (1 - 1 / 10 ^ 12) * undirWeight A N y u v ≤ undirWeightF fl A N y u v ∧
    undirWeightF fl A N y u v ≤ (1 + 1 / 10 ^ 12) * undirWeight A N y u v := by
  have hg : ∀ a < A, 0 ≤ y (varId N a u v) + y (varId N a v u) := fun a ha => add_nonneg (hy a ha).1 (hy a ha).2
  have hs := h.sum (t := fun a => fl (y (varId N a u v) + y (varId N a v u))) A hg
    fun a ha => ⟨h.low _ (hg a ha), h.high _ (hg a ha)⟩
  rw [undirWeight_eq]
  have h0 : 0 ≤ ∑ a ∈ range A, (y (varId N a u v) + y (varId N a v u)) := Finset.sum_nonneg fun a ha => hg a (Finset.mem_range.1 ha)
  exact ⟨le_trans (mul_le_mul_of_nonneg_right (pow_low (by omega)) h0) hs.1, hs.2.trans (mul_le_mul_of_nonneg_right (pow_high (by omega)) h0)⟩

/-- the capacities of `FindMinCut` -/
theorem arcCapacityF_near (h : Precise fl) (hA : A < 4000) {u v : Nat} (hy : ∀ a < A, 0 ≤ y (varId N a u v)) :
    (1 - 1 / 10 ^ 12) * arcCapacity A N y u v ≤ arcCapacityF fl A N y u v ∧
    arcCapacityF fl A N y u v ≤ (1 + 1 / 10 ^ 12) * arcCapacity A N y u v := by
  have hs := h.sum (t := fun a => y (varId N a u v)) A hy (by
    intro a ha
    have := hy a ha
    norm_num
    constructor <;> linarith)
  rw [arcCapacity_eq]
  have h0 : 0 ≤ ∑ a ∈ range A, y (varId N a u v) := Finset.sum_nonneg fun a ha => hy a (Finset.mem_range.1 ha)
  exact ⟨le_trans (mul_le_mul_of_nonneg_right (pow_low (by omega)) h0) hs.1, hs.2.trans (mul_le_mul_of_nonneg_right (pow_high (by omega)) h0)⟩

theorem cutWeight_near {w w' : Nat → Nat → ℚ} (hw : ∀ u v, u < v → v < N → (1 - 1 / 10 ^ 12) * w u v ≤ w' u v ∧ w' u v ≤ (1 + 1 / 10 ^ 12) * w u v)
    (par : Nat → Bool) : (1 - 1 / 10 ^ 12) * cutWeight N w par ≤ cutWeight N w' par ∧ cutWeight N w' par ≤ (1 + 1 / 10 ^ 12) * cutWeight N w par := by
  unfold cutWeight
  simp only [Finset.mul_sum]
  constructor <;>
  · refine Finset.sum_le_sum fun u hu => Finset.sum_le_sum fun v hv => ?_
    split
    · rename_i hc
      first | exact (hw u v hc.1 (Finset.mem_range.1 hv)).1 | exact (hw u v hc.1 (Finset.mem_range.1 hv)).2
    · simp

theorem flowCut_near {keep B : Nat → Bool} {w w' : Nat → Nat → ℚ}
    (hw : ∀ u v, u < N → v < N → (1 - 1 / 10 ^ 12) * w u v ≤ w' u v ∧ w' u v ≤ (1 + 1 / 10 ^ 12) * w u v) :
    (1 - 1 / 10 ^ 12) * flowCut N keep w B ≤ flowCut N keep w' B ∧ flowCut N keep w' B ≤ (1 + 1 / 10 ^ 12) * flowCut N keep w B := by
  unfold flowCut
  simp only [Finset.mul_sum]
  constructor <;>
  · refine Finset.sum_le_sum fun u hu => Finset.sum_le_sum fun v hv => ?_
    split
    · first | exact (hw u v (Finset.mem_range.1 hu) (Finset.mem_range.1 hv)).1 | exact (hw u v (Finset.mem_range.1 hu) (Finset.mem_range.1 hv)).2
    · simp

end Mtsp
