import Verif.Model.Python

/-! Model of the benchmark driver (python/tsplib/tsplib.py): the calls it makes and what it records.  Not modelled: reading the instance
files, the time that is recorded, and the loops over instances, agent counts and modes. -/

namespace Mtsp

/-- python/tsplib/tsplib.py:70-75, 79: the arguments for one instance.  `sop`: the file name ends in ".sop".  The number of threads is left at its
default 0 (python/mtsp_vrp.py:36). -/
def benchArgs (sop : Bool) (W : List (List ℚ)) (A : Nat) (mode : List Char) : PyArgs :=
  { starts := if sop then List.replicate A 0 else List.range' 1 A,
    ends := if sop then List.replicate A (W.length - 1) else List.range' 1 A,
    weights := W, mode := mode, threads := 0 }

/-- what is written to the file for one call, or that the driver stops; `gap = none` is infinity -/
inductive BenchEntry where
  | error (text : String)
  | abort
  | entry (lower upper : ℚ) (gap : Option ℚ)
deriving DecidableEq

/-- python/tsplib/tsplib.py:87-93: the bounds contradict the best known ones, if there are any -/
def benchAborts (known : Option (ℚ × ℚ)) (lb ub : ℚ) : Bool :=
  match known with
  | none => false
  | some (bestLb, bestUb) => (decide (lb > bestLb) || decide (ub < bestUb)) || (decide (lb ≥ ub) && decide (ub ≠ bestUb))

/-- python/tsplib/tsplib.py:78-95: the entry for a call that ends with `x`.  The variables for the bounds are 0 before the call
(python/mtsp_vrp.py:44-45).  `none`: undefined behaviour, or the program is terminated. -/
def benchEntry (known : Option (ℚ × ℚ)) : CEnd → Option BenchEntry
  | .undefined => none
  | .terminated => none
  | .ret code o =>
    if code < 0 then some (.error (pyMessage code))
    else
      let lb := o.lower.getD 0
      let ub := o.upper.getD 0
      if benchAborts known lb ub then some .abort
      else some (.entry lb ub (if lb > 0 then some (ub / lb - 1) else none))

end Mtsp
