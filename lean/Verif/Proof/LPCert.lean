import Verif.Spec.LPSolver
import Verif.Proof.Linear
import Mathlib.Tactic.Linarith
import Mathlib.Algebra.BigOperators.Ring.Finset
import Mathlib.Algebra.Order.BigOperators.Group.Finset

/-! Certificates for concrete linear programs: a point and row multipliers that show an answer of the LP solver to be
correct.  Only used for examples and counterexamples. -/

namespace Mtsp
open Finset

/-- coefficient of variable `i` in a list of terms -/
def coefAt (l : List (Nat × ℚ)) (i : Nat) : ℚ := (l.map fun p => if p.1 = i then p.2 else 0).sum

/-- value of a list of terms -/
def termsVal (l : List (Nat × ℚ)) (z : Nat → ℚ) : ℚ := (l.map fun p => p.2 * z p.1).sum

theorem foldl_terms (l : List (Nat × ℚ)) (z : Nat → ℚ) (a : ℚ) : l.foldl (fun r p => r + p.2 * z p.1) a = a + termsVal l z := by
  induction l generalizing a with
  | nil => simp [termsVal]
  | cons p l ih => simp only [List.foldl_cons, ih, termsVal, List.map_cons, List.sum_cons]; ring

theorem termsVal_coef (l : List (Nat × ℚ)) (z : Nat → ℚ) (n : Nat) (h : ∀ p ∈ l, p.1 < n) :
    termsVal l z = ∑ i ∈ range n, coefAt l i * z i := by
  induction l with
  | nil => simp [termsVal, coefAt]
  | cons p l ih =>
    have h1 := ih fun q hq => h q (List.mem_cons_of_mem _ hq)
    have h2 : ∑ i ∈ range n, coefAt (p :: l) i * z i = (∑ i ∈ range n, (if p.1 = i then p.2 else 0) * z i) + ∑ i ∈ range n, coefAt l i * z i := by
      rw [← Finset.sum_add_distrib]
      refine Finset.sum_congr rfl fun i _ => ?_
      simp only [coefAt, List.map_cons, List.sum_cons]; ring
    rw [h2, ← h1]
    have h3 : ∑ i ∈ range n, (if p.1 = i then p.2 else 0) * z i = p.2 * z p.1 := by
      rw [Finset.sum_eq_single p.1]
      · simp
      · intro b _ hb; rw [if_neg (Ne.symm hb), zero_mul]
      · intro hn; exact absurd (Finset.mem_range.2 (h p List.mem_cons_self)) hn
    rw [h3]; simp [termsVal]

/-- combination of rows -/
def comb (rows : List LinCon) (mult : List ℚ) (z : Nat → ℚ) : ℚ := (List.zipWith (fun r m => m * termsVal r.coefs z) rows mult).sum

/-- coefficient of variable `i` in the combination of the rows -/
def combCoef (rows : List LinCon) (mult : List ℚ) (i : Nat) : ℚ := (List.zipWith (fun r m => m * coefAt r.coefs i) rows mult).sum

theorem comb_coef (n : Nat) (z : Nat → ℚ) : ∀ (rows : List LinCon) (mult : List ℚ), (∀ r ∈ rows, ∀ p ∈ r.coefs, p.1 < n) →
    comb rows mult z = ∑ i ∈ range n, combCoef rows mult i * z i
  | [], _, _ => by simp [comb, combCoef]
  | _ :: _, [], _ => by simp [comb, combCoef]
  | r :: rows, m :: mult, h => by
    have ih := comb_coef n z rows mult fun q hq => h q (List.mem_cons_of_mem _ hq)
    unfold comb combCoef at *
    simp only [List.zipWith_cons_cons, List.sum_cons]
    rw [ih, termsVal_coef r.coefs z n (h r List.mem_cons_self), Finset.mul_sum, ← Finset.sum_add_distrib]
    exact Finset.sum_congr rfl fun i _ => by ring

/-- reduced costs belonging to row multipliers -/
def rcOf (p : LPProb) (mult : List ℚ) (i : Nat) : ℚ := coefAt p.obj.coefs i - combCoef p.rows mult i

/-- multipliers only on rows that are tight in the right direction -/
def slackB (y : Nat → ℚ) : List LinCon → List ℚ → Bool
  | r :: rows, m :: mult =>
    (decide (m = 0) || (decide (0 < m) && decide (r.value y = r.lower)) || (decide (m < 0) && decide (r.value y = r.upper))) &&
      slackB y rows mult
  | _, _ => true

/-- the test for an optimal answer -/
def certB (p : LPProb) (y : Nat → ℚ) (mult : List ℚ) : Bool :=
  p.obj.coefs.all (fun q => decide (q.1 < p.cols.nVars)) &&
  p.rows.all (fun r => r.coefs.all fun q => decide (q.1 < p.cols.nVars)) &&
  p.rows.all (fun r => decide (r.lower ≤ r.value y) && decide (r.value y ≤ r.upper)) &&
  slackB y p.rows mult &&
  (List.range p.cols.nVars).all (fun i =>
    match p.cols.bounds i with
    | (some l, some u) => decide (l ≤ y i) && decide (y i ≤ u) &&
        (decide (rcOf p mult i = 0) || (decide (0 < rcOf p mult i) && decide (y i = l)) || (decide (rcOf p mult i < 0) && decide (y i = u)))
    | _ => false) &&
  (List.range p.cols.nBin).all (fun i => decide ((y i < 1 / 10 ^ 10 → y i = 0) ∧ (y i > 1 - 1 / 10 ^ 10 → y i = 1)))

theorem slackB_sound (y z : Nat → ℚ) : ∀ (rows : List LinCon) (mult : List ℚ), slackB y rows mult = true → (∀ c ∈ rows, c.Sat z) →
    comb rows mult y ≤ comb rows mult z
  | [], _, _, _ => by simp [comb]
  | _ :: _, [], _, _ => by simp [comb]
  | r :: rows, m :: mult, h, hz => by
    simp only [slackB, Bool.and_eq_true, Bool.or_eq_true, decide_eq_true_eq] at h
    have ih := slackB_sound y z rows mult h.2 fun c hc => hz c (List.mem_cons_of_mem _ hc)
    unfold comb at *
    simp only [List.zipWith_cons_cons, List.sum_cons]
    have hv : ∀ x, r.value x = termsVal r.coefs x := fun x => by unfold LinCon.value; rw [foldl_terms, zero_add]
    have hs := hz r List.mem_cons_self
    unfold LinCon.Sat at hs
    rw [hv] at hs
    refine add_le_add ?_ ih
    rcases h.1 with (h0 | ⟨h1, h2⟩) | ⟨h1, h2⟩
    · rw [h0]; simp
    · rw [hv] at h2; rw [h2]; exact mul_le_mul_of_nonneg_left hs.1 h1.le
    · rw [hv] at h2; rw [h2]; exact mul_le_mul_of_nonpos_left hs.2 h1.le

/-- answers without noise are correct -/
theorem LPProb.Exact.correct {p : LPProb} {y rc : Nat → ℚ} (h : p.Exact y rc) : LPAnswer.Correct p (.optimal y rc) := by
  have hn : (0 : ℚ) ≤ lpNoise := by unfold lpNoise; norm_num
  have hs : ∀ z, p.Admits z → ∀ i < p.cols.nVars, 0 ≤ rc i * (z i - y i) := by
    intro z hz i hi
    obtain ⟨l, u, hb⟩ := h.finite i hi
    have := hz.bounds i hi l u hb
    exact h.sign i hi l u hb (z i) this.1 this.2
  have key : ∀ z, p.Admits z → p.obj.eval y + ∑ i ∈ range p.cols.nVars, rc i * (z i - y i) ≤ p.obj.eval z := by
    intro z hz
    have h1 := h.dual z hz.rows
    have h2 : ∑ i ∈ range p.cols.nVars, rc i * (z i - y i) =
        ∑ i ∈ range p.cols.nVars, rc i * z i - ∑ i ∈ range p.cols.nVars, rc i * y i := by
      rw [← Finset.sum_sub_distrib]; exact Finset.sum_congr rfl fun i _ => by ring
    linarith
  refine ⟨h.admits.bounds, y, h.admits, ?_, ?_, by rw [sub_self, abs_zero]; exact hn, fun _ => Iff.rfl, fun i _ => by rw [sub_self, abs_zero]; norm_num, ?_, ?_⟩
  · intro z hz
    have h1 := key z hz
    have h2 : 0 ≤ ∑ i ∈ range p.cols.nVars, rc i * (z i - y i) := Finset.sum_nonneg fun i hi => hs z hz i (Finset.mem_range.1 hi)
    linarith
  · intro z hz v hv
    have h1 := key z hz
    have h2 : rc v * (z v - y v) ≤ ∑ i ∈ range p.cols.nVars, rc i * (z i - y i) :=
      Finset.single_le_sum (f := fun i => rc i * (z i - y i)) (fun i hi => hs z hz i (Finset.mem_range.1 hi)) (Finset.mem_range.2 hv)
    linarith
  · intro i hi
    exact ⟨(h.near i hi).1, fun e => by rw [e]; norm_num⟩
  · intro i hi
    exact ⟨(h.near i hi).2, fun e => by rw [e]; norm_num⟩

theorem certB_exact {p : LPProb} {y : Nat → ℚ} {mult : List ℚ} (h : certB p y mult = true) : p.Exact y (rcOf p mult) := by
  simp only [certB, Bool.and_eq_true, List.all_eq_true, decide_eq_true_eq] at h
  obtain ⟨⟨⟨⟨⟨h1, h2⟩, h3⟩, h4⟩, h5⟩, h6⟩ := h
  have hobj : ∀ z, p.obj.eval z - ∑ i ∈ range p.cols.nVars, rcOf p mult i * z i = p.obj.const + comb p.rows mult z := by
    intro z
    unfold LinComp.eval
    rw [foldl_terms, termsVal_coef _ z _ h1, comb_coef p.cols.nVars z p.rows mult h2, add_sub_assoc, ← Finset.sum_sub_distrib]
    congr 1
    exact Finset.sum_congr rfl fun i _ => by unfold rcOf; ring
  have hb : ∀ i < p.cols.nVars, ∀ l u, p.cols.bounds i = (some l, some u) → (l ≤ y i ∧ y i ≤ u) ∧
      ((rcOf p mult i = 0 ∨ (0 < rcOf p mult i ∧ y i = l)) ∨ (rcOf p mult i < 0 ∧ y i = u)) := by
    intro i hi l u hlu
    have := h5 i (List.mem_range.2 hi)
    rw [hlu] at this
    simpa only [Bool.and_eq_true, Bool.or_eq_true, decide_eq_true_eq] using this
  have hfin : ∀ i < p.cols.nVars, ∃ l u, p.cols.bounds i = (some l, some u) := by
    intro i hi
    have := h5 i (List.mem_range.2 hi)
    rcases hb : p.cols.bounds i with ⟨_ | l, _ | u⟩
    · rw [hb] at this; simp at this
    · rw [hb] at this; simp at this
    · rw [hb] at this; simp at this
    · exact ⟨l, u, rfl⟩
  refine ⟨hfin, ⟨fun c hc => h3 c hc, fun i hi l u hlu => (hb i hi l u hlu).1⟩, ?_, ?_, fun i hi => h6 i (List.mem_range.2 hi)⟩
  · intro z hz
    rw [hobj, hobj]
    have := slackB_sound y z p.rows mult h4 hz
    linarith
  · intro i hi l u hlu t ht1 ht2
    rcases (hb i hi l u hlu).2 with (h | ⟨h, h'⟩) | ⟨h, h'⟩
    · rw [h]; simp
    · rw [h']; exact mul_nonneg h.le (by linarith)
    · rw [h']; exact mul_nonneg_of_nonpos_of_nonpos h.le (by linarith)

theorem certB_sound {p : LPProb} {y : Nat → ℚ} {mult : List ℚ} (h : certB p y mult = true) :
    LPAnswer.Correct p (.optimal y (rcOf p mult)) := (certB_exact h).correct

/-- the test for infeasibility: a combination of the rows whose largest value inside the variable bounds is below what the rows force -/
def rowsMin : List LinCon → List ℚ → ℚ
  | r :: rows, m :: mult => (if 0 ≤ m then m * r.lower else m * r.upper) + rowsMin rows mult
  | _, _ => 0

theorem rowsMin_le (z : Nat → ℚ) : ∀ (rows : List LinCon) (mult : List ℚ), (∀ c ∈ rows, c.Sat z) → rowsMin rows mult ≤ comb rows mult z
  | [], _, _ => by simp [comb, rowsMin]
  | _ :: _, [], _ => by simp [comb, rowsMin]
  | r :: rows, m :: mult, hz => by
    have ih := rowsMin_le z rows mult fun c hc => hz c (List.mem_cons_of_mem _ hc)
    unfold comb at *
    simp only [List.zipWith_cons_cons, List.sum_cons, rowsMin]
    have hs := hz r List.mem_cons_self
    have hv : r.value z = termsVal r.coefs z := by unfold LinCon.value; rw [foldl_terms, zero_add]
    unfold LinCon.Sat at hs
    rw [hv] at hs
    refine add_le_add ?_ ih
    split
    · exact mul_le_mul_of_nonneg_left hs.1 (by assumption)
    · rename_i h; exact mul_le_mul_of_nonpos_left hs.2 (not_le.1 h).le

def infB (p : LPProb) (mult : List ℚ) : Bool :=
  p.rows.all (fun r => r.coefs.all fun q => decide (q.1 < p.cols.nVars)) &&
  decide (((List.range p.cols.nVars).map fun i =>
    match p.cols.bounds i with
    | (some l, some u) => if 0 ≤ combCoef p.rows mult i then combCoef p.rows mult i * u else combCoef p.rows mult i * l
    | _ => 0).sum < rowsMin p.rows mult) &&
  (List.range p.cols.nVars).all (fun i => (p.cols.bounds i).1.isSome && (p.cols.bounds i).2.isSome)

theorem infB_sound {p : LPProb} {mult : List ℚ} (h : infB p mult = true) : LPAnswer.Correct p .infeasible := by
  simp only [infB, Bool.and_eq_true, List.all_eq_true, decide_eq_true_eq] at h
  obtain ⟨⟨h1, h2⟩, h3⟩ := h
  intro z hz
  have hr := rowsMin_le z p.rows mult hz.rows
  rw [comb_coef p.cols.nVars z p.rows mult h1] at hr
  refine absurd (lt_of_lt_of_le h2 hr) (not_lt.2 ?_)
  have : ∀ n ≤ p.cols.nVars, ∑ i ∈ range n, combCoef p.rows mult i * z i ≤ ((List.range n).map fun i =>
    match p.cols.bounds i with
    | (some l, some u) => if 0 ≤ combCoef p.rows mult i then combCoef p.rows mult i * u else combCoef p.rows mult i * l
    | _ => 0).sum := by
    intro n
    induction n with
    | zero => intro _; simp
    | succ n ih =>
      intro hn
      rw [Finset.sum_range_succ, List.range_succ, List.map_append, List.sum_append]
      refine add_le_add (ih (by omega)) ?_
      simp only [List.map_cons, List.map_nil, List.sum_cons, List.sum_nil, add_zero]
      obtain ⟨a, b⟩ := h3 n (List.mem_range.2 (by omega))
      obtain ⟨l, hl⟩ := Option.isSome_iff_exists.1 a
      obtain ⟨u, hu⟩ := Option.isSome_iff_exists.1 b
      have hlu : p.cols.bounds n = (some l, some u) := Prod.ext hl hu
      have hb := hz.bounds n (by omega) l u hlu
      rw [hlu]
      dsimp only
      split
      · exact mul_le_mul_of_nonneg_left hb.2 (by assumption)
      · rename_i h; exact mul_le_mul_of_nonpos_left hb.1 (not_le.1 h).le
  exact this _ (le_refl _)

end Mtsp
