import Verif.Spec.LPSolver

/-!
Model of the interface to the LP solver: `Model::SetObjective`, `Model::AddConstraints`, `Model::Solve`
(tsplp/src/Model.cpp:66-114, 135-159) and `Variable::Fix` / `Unfix` on the columns (Model/Fixing.lean), on top of the
data CLP holds.

CLP itself is a library; its functions used here are modelled by their documented effect on the stored problem:
`setObjectiveOffset`, `setObjectiveCoefficient`, `addRows` (compressed row format).  A column index that does not
exist, a column twice in one row, or row starts that do not describe the given arrays are undefined.
CLP treats `±DBL_MAX` bounds as infinite; here they are the number `dblMax`.
-/

namespace Mtsp

/-- a row as CLP stores it: bounds and the entries (column, element) -/
structure ClpRow where
  lo : ℚ
  up : ℚ
  entries : List (Nat × ℚ)
  deriving DecidableEq, Repr

/-- The problem a `ClpSimplex` object holds: columns with bounds, objective coefficient of each column, the objective
offset (subtracted from the objective), and rows.  A new column has coefficient 0. -/
structure Clp where
  cols : LPModel
  obj : Nat → ℚ
  offset : ℚ
  rows : List ClpRow

/-- number of columns -/
def Clp.ncols (C : Clp) : Nat := C.cols.lo.length

/-- Model.cpp:17-34: a new model with the given columns has no rows and objective 0 -/
def Clp.new (c : LPModel) : Clp := ⟨c, fun _ => 0, 0, []⟩

/-- `ClpModel::setObjectiveCoefficient` -/
def Clp.setCoef (C : Clp) (j : Nat) (c : ℚ) : Except Err Clp :=
  if j < C.ncols then .ok { C with obj := fun i => if i = j then c else C.obj i } else .error (.ub "column index")

/-- Model.cpp:72-73: the loop over the coefficient map -/
def Clp.setCoefs : List (Nat × ℚ) → Clp → Except Err Clp
  | [], C => .ok C
  | p :: ps, C =>
    match C.setCoef p.1 p.2 with
    | .error e => .error e
    | .ok C' => Clp.setCoefs ps C'

/-- Model.cpp:66-74, `SetObjective` -/
def Clp.setObjective (C : Clp) (o : LinComp) : Except Err Clp := Clp.setCoefs o.coefs { C with offset := -o.const }

/-- the arrays `AddConstraints` fills (Model.cpp:83-93) -/
structure RowArrays where
  lower : List ℚ
  upper : List ℚ
  starts : List ℤ
  columns : List Nat
  elements : List ℚ

/-- `std::numeric_limits<int>::max()` -/
def intMax : ℤ := 2147483647

/-- Model.cpp:94-107: one iteration.  `rowStarts.back() + size` is `int` arithmetic: overflow is undefined.  The conversion
of a variable id to `int` is exact because there are at most `INT_MAX` variables (Model.cpp:22-23); it is left out. -/
def RowArrays.push (r : RowArrays) (c : LinCon) : Except Err RowArrays :=
  match r.starts.getLast? with
  | none => .error (.ub "back() of an empty vector")
  | some b =>
    if b + (c.coefs.length : ℤ) > intMax then .error (.ub "signed integer overflow")
    else .ok ⟨r.lower ++ [c.lower], r.upper ++ [c.upper], r.starts ++ [b + (c.coefs.length : ℤ)],
      r.columns ++ c.coefs.map Prod.fst, r.elements ++ c.coefs.map Prod.snd⟩

/-- Model.cpp:83-107: the arrays for all constraints, from the given ones on -/
def RowArrays.fill : List LinCon → RowArrays → Except Err RowArrays
  | [], r => .ok r
  | c :: cs, r =>
    match r.push c with
    | .error e => .error e
    | .ok r' => RowArrays.fill cs r'

/-- `ClpModel::addRows(number, lower, upper, starts, columns, elements)`: row `i` gets bounds `lower[i]`, `upper[i]` and the
entries at positions `starts[i] ≤ k < starts[i + 1]`; `none`: the arrays do not describe such a row -/
def RowArrays.row (r : RowArrays) (i : Nat) : Option ClpRow :=
  match r.lower[i]?, r.upper[i]?, r.starts[i]?, r.starts[i + 1]? with
  | some l, some u, some s, some t =>
    if 0 ≤ s ∧ s ≤ t ∧ t ≤ r.columns.length ∧ t ≤ r.elements.length then
      some ⟨l, u, ((r.columns.zip r.elements).take t.toNat).drop s.toNat⟩
    else none
  | _, _, _, _ => none

/-- the row can be stored: all columns exist and none is given twice -/
def ClpRow.storable (n : Nat) (r : ClpRow) : Bool :=
  decide ((r.entries.map Prod.fst).Nodup) && r.entries.all fun p => decide (p.1 < n)

/-- `addRows`, the rows from number `i` on, `k` of them -/
def Clp.addRowsFrom (r : RowArrays) : Nat → Nat → Clp → Except Err Clp
  | 0, _, C => .ok C
  | k + 1, i, C =>
    match r.row i with
    | none => .error (.ub "addRows: malformed arrays")
    | some x =>
      if x.storable C.ncols then Clp.addRowsFrom r k (i + 1) { C with rows := C.rows ++ [x] }
      else .error (.ub "addRows: column index")

/-- Model.cpp:76-114, `AddConstraints` -/
def Clp.addConstraints (C : Clp) (cs : List LinCon) : Except Err Clp :=
  if (cs.length : ℤ) > intMax then .error (.runtime "Too many constraints")
  else
    match RowArrays.fill cs ⟨[], [], [0], [], []⟩ with
    | .error e => .error e
    | .ok r => Clp.addRowsFrom r cs.length 0 C

/-- What happens to a `Model` after its construction: constraints are added (Model.cpp:76-114), variables are fixed
(Variable.cpp:48-52) and unfixed (54-58). -/
inductive ClpOp where
  | add (cs : List LinCon)
  | fix (value : ℚ) (vs : List Nat)
  | unfix (vs : List Nat)

/-- one such call -/
def Clp.step (C : Clp) : ClpOp → Except Err Clp
  | .add cs => C.addConstraints cs
  | .fix value vs => (LPModel.fixAll value vs C.cols).map fun c => { C with cols := c }
  | .unfix vs => (LPModel.unfixAll vs C.cols).map fun c => { C with cols := c }

/-- a history of calls -/
def Clp.run : List ClpOp → Clp → Except Err Clp
  | [], C => .ok C
  | o :: os, C =>
    match C.step o with
    | .error e => .error e
    | .ok C' => Clp.run os C'

/-- MtspModel.cpp:80-94, 279: what the constructor does with the model, after the columns have been created: the additional rows of
the objective, the objective, the constraints -/
def Clp.build (mode : Mode) (m : WM) (c : LPModel) : Except Err Clp :=
  match (Clp.new c).addConstraints (createObjective mode m.starts.length m.n m.w).2 with
  | .error e => .error e
  | .ok C1 =>
    match C1.setObjective (createObjective mode m.starts.length m.n m.w).1 with
    | .error e => .error e
    | .ok C2 => C2.addConstraints (buildConstraints m.n m.starts m.ends m.deps.arcs)

/-- Model.cpp:144-158: the meaning of CLP's status; the values and reduced costs are those CLP has stored
(Variable.cpp:34-44) -/
def solveAnswer (status : ℤ) (y rc : Nat → ℚ) : LPAnswer :=
  if status = 0 then .optimal y rc
  else if status = 1 then .infeasible
  else if status = 2 then .unbounded
  else if status = 3 then .timeout
  else .error

end Mtsp
