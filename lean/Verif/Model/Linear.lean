import Verif.Basic

/-!
Model of tsplp/src/LinearVariableComposition.cpp, tsplp/src/LinearConstraint.cpp.

`std::unordered_map<size_t,double>` is an association list without duplicate keys; its iteration
order is unspecified in C++, here it is list order (no function below depends on it except through
`+`-folds, which are order independent over `ℚ`).  A `Variable` is its id (tsplp/include/Variable.hpp).
An LP point is `x : Nat → ℚ`, `x id` being `Variable{id}.GetObjectiveValue(model)`
(tsplp/src/Variable.cpp:34-38).
-/

namespace Mtsp

/-- tsplp/include/LinearVariableComposition.hpp:29-30: the coefficient map and the constant. -/
structure LinComp where
  coefs : List (Nat × ℚ)
  const : ℚ
  deriving DecidableEq, Repr

namespace LinComp

/-- Default constructor, LinearVariableComposition.hpp:33. -/
def zero : LinComp := ⟨[], 0⟩

/-- LinearVariableComposition.cpp:72-75, conversion from `double`. -/
def ofConst (c : ℚ) : LinComp := ⟨[], c⟩

/-- LinearVariableComposition.cpp:77-80, conversion from `Variable`. -/
def ofVar (id : Nat) : LinComp := ⟨[(id, 1)], 0⟩

/-- LinearVariableComposition.cpp:7-16, `factor * linearComp`. -/
def smul (f : ℚ) (l : LinComp) : LinComp :=
  ⟨l.coefs.map (fun p => (p.1, p.2 * f)), l.const * f⟩

/-- LinearVariableComposition.cpp:40-48: one iteration of the `+=` loop: add to the existing entry,
or `emplace` a new one. -/
def upsert (id : Nat) (c : ℚ) : List (Nat × ℚ) → List (Nat × ℚ)
  | [] => [(id, c)]
  | (i, d) :: rest => if i = id then (i, d + c) :: rest else (i, d) :: upsert id c rest

/-- LinearVariableComposition.cpp:35-54, `lhs += rhs`. -/
def addAssign (lhs rhs : LinComp) : LinComp :=
  ⟨rhs.coefs.foldl (fun m p => upsert p.1 p.2 m) lhs.coefs, lhs.const + rhs.const⟩

/-- LinearVariableComposition.cpp:18-27, `lhs + rhs`: adds the smaller map into the bigger one
(on equal size: lhs into rhs). -/
def add (lhs rhs : LinComp) : LinComp :=
  if lhs.coefs.length > rhs.coefs.length then addAssign lhs rhs else addAssign rhs lhs

/-- LinearVariableComposition.cpp:29-33, `lhs + double`. -/
def addConst (lhs : LinComp) (c : ℚ) : LinComp := ⟨lhs.coefs, lhs.const + c⟩

/-- LinearVariableComposition.cpp:56-64, unary minus. -/
def neg (l : LinComp) : LinComp :=
  ⟨l.coefs.map (fun p => (p.1, p.2 * (-1))), l.const * (-1)⟩

/-- LinearVariableComposition.cpp:66-70, `lhs - rhs`. -/
def sub (lhs rhs : LinComp) : LinComp := add lhs (neg rhs)

/-- LinearVariableComposition.cpp:82-89, `Evaluate`. -/
def eval (x : Nat → ℚ) (l : LinComp) : ℚ :=
  l.coefs.foldl (fun r p => r + p.2 * x p.1) l.const

end LinComp

/-- tsplp/include/LinearConstraint.hpp:22-24. -/
structure LinCon where
  coefs : List (Nat × ℚ)
  lower : ℚ
  upper : ℚ
  deriving DecidableEq, Repr

namespace LinCon

/-- LinearConstraint.cpp:7-14, `lhs <= rhs` (the private constructor, lines 34-38, takes the map and
stores the constant in the upper bound). -/
def le (lhs rhs : LinComp) : LinCon :=
  let d := LinComp.sub lhs rhs
  ⟨d.coefs, -dblMax, d.const * (-1)⟩

/-- LinearConstraint.cpp:16-23, `lhs >= rhs`. -/
def ge (lhs rhs : LinComp) : LinCon :=
  let d := LinComp.sub lhs rhs
  ⟨d.coefs, -d.const, dblMax⟩

/-- LinearConstraint.cpp:25-32, `lhs == rhs`. -/
def eq (lhs rhs : LinComp) : LinCon :=
  let d := LinComp.sub lhs rhs
  ⟨d.coefs, d.const * (-1), d.const * (-1)⟩

/-- LinearConstraint.cpp:42-44: the value of the left hand side. -/
def value (x : Nat → ℚ) (c : LinCon) : ℚ :=
  c.coefs.foldl (fun r p => r + p.2 * x p.1) 0

/-- LinearConstraint.cpp:40-47, `Evaluate(model, tolerance)`. -/
def evaluate (x : Nat → ℚ) (tol : ℚ) (c : LinCon) : Bool :=
  decide (c.lower ≤ value x c + tol) && decide (value x c - tol ≤ c.upper)

/-- What the row means to the LP solver (Model.cpp:94-113 passes lower bound, upper bound and the
coefficients to `addRows`): the point `x` satisfies the row exactly. -/
def Sat (x : Nat → ℚ) (c : LinCon) : Prop := c.lower ≤ value x c ∧ value x c ≤ c.upper

instance (x : Nat → ℚ) (c : LinCon) : Decidable (c.Sat x) := by unfold Sat; infer_instance

end LinCon

end Mtsp
