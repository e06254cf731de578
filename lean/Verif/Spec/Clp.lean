import Verif.Model.Clp

/-! What the data stored in CLP mean as a linear program, and CLP's contract on them. -/

namespace Mtsp

/-- The linear program CLP holds: minimise the sum of coefficient times column minus the offset, subject to all rows and
the bounds of all columns it has (also of columns no variable refers to). -/
def Clp.toProb (C : Clp) : LPProb :=
  ⟨⟨(List.range C.ncols).map fun j => (j, C.obj j), -C.offset⟩,
   C.rows.map fun r => ⟨r.entries, r.lo, r.up⟩,
   { C.cols with nVars := C.ncols }⟩

/-- CLP's documented statuses: 0 optimal, 1 primal infeasible, 2 dual infeasible, 3 stopped on iterations or time, 4 and 5 stopped
for other reasons -/
def ClpStatusCorrect (C : Clp) (status : ℤ) (y rc : Nat → ℚ) : Prop :=
  (status = 0 → (LPAnswer.optimal y rc).Correct C.toProb) ∧ (status = 1 → LPAnswer.infeasible.Correct C.toProb) ∧
  (status = 2 → LPAnswer.unbounded.Correct C.toProb)

end Mtsp

namespace Mtsp

/-- The problem CLP holds is the intended one: it has the same feasible points, except for the values of columns no variable
refers to, and the same objective. -/
structure Clp.Represents (C : Clp) (p : LPProb) : Prop where
  sound : ∀ z, C.toProb.Admits z → p.Admits z
  complete : ∀ z, p.Admits z → ∃ z', (∀ i < p.cols.nVars, z' i = z i) ∧ C.toProb.Admits z'
  objective : ∀ z, C.toProb.obj.eval z = p.obj.eval z

/-- total number of entries -/
def nnz (cs : List LinCon) : Nat := (cs.map fun c => c.coefs.length).sum

/-- every call to `AddConstraints` is within the limits of `int` -/
def SmallBatches (ops : List ClpOp) : Prop := ∀ cs, ClpOp.add cs ∈ ops → (cs.length : ℤ) ≤ intMax ∧ (nnz cs : ℤ) ≤ intMax

end Mtsp
