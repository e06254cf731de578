import Verif.Proof.Linear

/-! Properties C01, C02. -/

namespace Mtsp

/-- Specification: an arbitrary nesting of the operators of `LinearVariableComposition`. -/
inductive LExpr where
  | const (c : ℚ)
  | var (id : Nat)
  | add (a b : LExpr)
  | addConst (a : LExpr) (c : ℚ)
  | addAssign (a b : LExpr)
  | sub (a b : LExpr)
  | neg (a : LExpr)
  | smul (f : ℚ) (a : LExpr)

/-- Specification: the mathematical value of such an expression at a point. -/
def LExpr.val (x : Nat → ℚ) : LExpr → ℚ
  | const c => c
  | var i => x i
  | add a b => a.val x + b.val x
  | addConst a c => a.val x + c
  | addAssign a b => a.val x + b.val x
  | sub a b => a.val x - b.val x
  | neg a => - a.val x
  | smul f a => f * a.val x

/-- The object the code builds for the expression. -/
def LExpr.build : LExpr → LinComp
  | const c => .ofConst c
  | var i => .ofVar i
  | add a b => .add a.build b.build
  | addConst a c => .addConst a.build c
  | addAssign a b => .addAssign a.build b.build
  | sub a b => .sub a.build b.build
  | neg a => .neg a.build
  | smul f a => .smul f a.build

/-- C01: evaluating the built object gives the mathematical value, and it has no repeated variable. -/
theorem C01_linear_expressions_homomorphic (e : LExpr) :
    (∀ x, e.build.eval x = e.val x) ∧ (e.build.coefs.map Prod.fst).Nodup := by
  induction e with
  | const c => exact ⟨fun x => rfl, by simp [LExpr.build, LinComp.ofConst]⟩
  | var i => exact ⟨fun x => by simp [LExpr.build, LExpr.val], by simp [LExpr.build, LinComp.ofVar]⟩
  | add a b iha ihb =>
    refine ⟨fun x => by simp [LExpr.build, LExpr.val, iha.1, ihb.1], ?_⟩
    simp only [LExpr.build, LinComp.add]
    split
    · exact LinComp.foldl_upsert_nodup _ _ iha.2
    · exact LinComp.foldl_upsert_nodup _ _ ihb.2
  | addConst a c iha => exact ⟨fun x => by simp [LExpr.build, LExpr.val, iha.1], iha.2⟩
  | addAssign a b iha ihb =>
    exact ⟨fun x => by simp [LExpr.build, LExpr.val, iha.1, ihb.1], LinComp.foldl_upsert_nodup _ _ iha.2⟩
  | sub a b iha ihb =>
    refine ⟨fun x => by simp [LExpr.build, LExpr.val, iha.1, ihb.1], ?_⟩
    have hb : ((LinComp.neg b.build).coefs.map Prod.fst).Nodup := by
      simp only [LinComp.neg, List.map_map]; exact ihb.2
    simp only [LExpr.build, LinComp.sub, LinComp.add]
    split
    · exact LinComp.foldl_upsert_nodup _ _ iha.2
    · exact LinComp.foldl_upsert_nodup _ _ hb
  | neg a iha =>
    refine ⟨fun x => by simp [LExpr.build, LExpr.val, iha.1], ?_⟩
    simp only [LExpr.build, LinComp.neg, List.map_map]; exact iha.2
  | smul f a iha =>
    refine ⟨fun x => by simp [LExpr.build, LExpr.val, iha.1], ?_⟩
    simp only [LExpr.build, LinComp.smul, List.map_map]; exact iha.2

/-- non-vacuity: an expression with repeated variables and a non-zero value -/
example : (LExpr.sub (.add (.smul 2 (.var 3)) (.var 3)) (.addConst (.var 1) 5)).val (fun i => i) = 3 := by
  norm_num [LExpr.val]

/-- C02 (`<=`): within the double range the constraint is reported satisfied exactly when
`lhs ≤ rhs` up to the tolerance. -/
theorem C02_le_constraint_meaning (lhs rhs : LExpr) (x : Nat → ℚ) (tol : ℚ)
    (hrange : -dblMax ≤ (LinCon.le lhs.build rhs.build).value x + tol) :
    (LinCon.le lhs.build rhs.build).evaluate x tol = true ↔ lhs.val x ≤ rhs.val x + tol := by
  have h1 := (C01_linear_expressions_homomorphic lhs).1 x
  have h2 := (C01_linear_expressions_homomorphic rhs).1 x
  unfold LinCon.evaluate
  rw [Bool.and_eq_true, decide_eq_true_iff, decide_eq_true_iff]
  rw [LinCon.value_le] at *
  simp only [LinCon.le, h1, h2] at *
  constructor
  · rintro ⟨_, h⟩; linarith
  · intro h; exact ⟨hrange, by linarith⟩

/-- C02 (`>=`). -/
theorem C02_ge_constraint_meaning (lhs rhs : LExpr) (x : Nat → ℚ) (tol : ℚ)
    (hrange : (LinCon.ge lhs.build rhs.build).value x - tol ≤ dblMax) :
    (LinCon.ge lhs.build rhs.build).evaluate x tol = true ↔ rhs.val x ≤ lhs.val x + tol := by
  have h1 := (C01_linear_expressions_homomorphic lhs).1 x
  have h2 := (C01_linear_expressions_homomorphic rhs).1 x
  unfold LinCon.evaluate
  rw [Bool.and_eq_true, decide_eq_true_iff, decide_eq_true_iff]
  rw [LinCon.value_ge] at *
  simp only [LinCon.ge, h1, h2] at *
  constructor
  · rintro ⟨h, _⟩; linarith
  · intro h; exact ⟨by linarith, hrange⟩

/-- C02 (`==`): no range restriction is needed. -/
theorem C02_eq_constraint_meaning (lhs rhs : LExpr) (x : Nat → ℚ) (tol : ℚ) :
    (LinCon.eq lhs.build rhs.build).evaluate x tol = true ↔
      lhs.val x ≤ rhs.val x + tol ∧ rhs.val x ≤ lhs.val x + tol := by
  have h1 := (C01_linear_expressions_homomorphic lhs).1 x
  have h2 := (C01_linear_expressions_homomorphic rhs).1 x
  unfold LinCon.evaluate
  rw [Bool.and_eq_true, decide_eq_true_iff, decide_eq_true_iff]
  rw [LinCon.value_eqc]
  simp only [LinCon.eq, h1, h2]
  constructor
  · rintro ⟨_, _⟩; constructor <;> linarith
  · rintro ⟨_, _⟩; constructor <;> linarith

/-- The rows handed to the LP solver mean the same without tolerance. -/
theorem C02_rows_mean_comparison (lhs rhs : LExpr) (x : Nat → ℚ) :
    ((LinCon.eq lhs.build rhs.build).Sat x ↔ lhs.val x = rhs.val x) ∧
    ((LinCon.ge lhs.build rhs.build).value x ≤ dblMax →
      ((LinCon.ge lhs.build rhs.build).Sat x ↔ rhs.val x ≤ lhs.val x)) ∧
    (-dblMax ≤ (LinCon.le lhs.build rhs.build).value x →
      ((LinCon.le lhs.build rhs.build).Sat x ↔ lhs.val x ≤ rhs.val x)) := by
  have h1 := (C01_linear_expressions_homomorphic lhs).1 x
  have h2 := (C01_linear_expressions_homomorphic rhs).1 x
  refine ⟨by rw [LinCon.sat_eq, h1, h2], fun h => ?_, fun h => ?_⟩
  · rw [LinCon.sat_ge_iff, h1, h2]; simp [h]
  · rw [LinCon.sat_le_iff, h1, h2]; simp [h]

/-- non-vacuity: the range hypothesis holds at a point where the constraint is tight, and one where
it is violated -/
example : -dblMax ≤ (LinCon.le (LExpr.build (.var 0)) (LExpr.build (.const 1))).value (fun _ => 1) + 0 ∧
    (LinCon.le (LExpr.build (.var 0)) (LExpr.build (.const 1))).evaluate (fun _ => 1) 0 = true ∧
    (LinCon.le (LExpr.build (.var 0)) (LExpr.build (.const 1))).evaluate (fun _ => 2) 0 = false := by
  decide +kernel

end Mtsp
