import Verif.Model.Solver

/-! Model of the first half of the Python function (python/mtsp_vrp.py:36-61): what becomes of its arguments. -/

namespace Mtsp

/-- The arguments of the Python function (python/mtsp_vrp.py:36) that matter here.  Simplified: positions are non-negative integers, the
weights a list of rows of finite numbers, and `str(optimization_mode)` is given as a list of characters; the time limit is
the clock of the model; the callback is C71. -/
structure PyArgs where
  starts : List Nat
  ends : List Nat
  weights : List (List ℚ)
  mode : List Char
  threads : Nat

/-- numpy's conversion of a number to an integer type (python/mtsp_vrp.py:41): the fraction is cut off -/
def truncToInt (q : ℚ) : ℤ := if 0 ≤ q then ⌊q⌋ else ⌈q⌉

/-- the number of columns of the array that numpy makes of the rows -/
def PyArgs.width (p : PyArgs) : Nat := (p.weights.headD []).length

/-- python/mtsp_vrp.py:41: `np.array(weights, dtype=np.int32)` raises no exception: all rows have the same length and
all numbers fit.  Simplified: what numpy does with numbers that do not fit depends on its version and on their type. -/
def PyArgs.convertible (p : PyArgs) : Bool :=
  p.weights.all fun r => r.length == p.width && r.all fun q => decide (-2 ^ 31 ≤ truncToInt q) && decide (truncToInt q < 2 ^ 31)

/-- python/mtsp_vrp.py:41: the elements of the array in memory, row by row -/
def PyArgs.memory (p : PyArgs) : List ℤ := p.weights.flatten.map truncToInt

/-- python/mtsp_vrp.py:42: anything but 'MAX' and '1' (in any case of letters) means "sum" -/
def pyMode (s : List Char) : ℤ := if s.map Char.toUpper ∈ ["MAX".toList, "1".toList] then 1 else 0

/-- python/mtsp_vrp.py:37-47, 59-60: the arguments of the C function.  The two sizes are taken from `start_positions` and `weights`; the arrays are passed
as pointers, so their lengths are lost: reading behind the end is undefined, here 0 (see `PyArgs.Run`). -/
def PyArgs.toC (p : PyArgs) : CArgs :=
  { A := p.starts.length, N := p.weights.length, starts := some fun i => p.starts.getD i 0, ends := some fun i => p.ends.getD i 0,
    weights := some fun i => p.memory.getD i 0, mode := pyMode p.mode, threads := p.threads }

/-- mtsp-vrp-c.cpp:32-40 read `A` end positions and `N * N` weights -/
def PyArgs.tooShort (p : PyArgs) : Bool := decide (p.ends.length < p.starts.length) || decide (p.memory.length < p.weights.length * p.weights.length)

/-- python/mtsp_vrp.py:36-76: the possible ends of a call of the Python function (`none`: undefined behaviour) -/
inductive PyArgs.Run (L : Lib) (t : Nat) (p : PyArgs) : List (Nat × Inp) → Option (Outcome (List (List Nat) × List ℚ)) → Prop
  /-- numpy raises an exception -/
  | raised : p.convertible = false → Run L t p [] (some (.exc (.runtime "numpy")))
  /-- the C function reads behind the end of an array -/
  | overrun : p.convertible = true → p.toC.badSize = false → p.tooShort = true → Run L t p [] none
  | call (tr : List (Nat × Inp)) (x : CEnd) : p.convertible = true → (p.toC.badSize = true ∨ p.tooShort = false) → p.toC.Call L t tr x →
      Run L t p tr (pyResult p.toC x)

/-- python/mtsp_vrp.py:27-34, 62-63: the text of the exception for a negative code -/
def pyMessage (code : ℤ) : String :=
  if code = -1 then "Timeout, no result"
  else if code = -2 then "Infeasible"
  else if code = -3 then "Invalid input size"
  else if code = -4 then "Invalid input pointer"
  else if code = -5 then "Cyclic dependencies"
  else if code = -6 then "Incompatible dependencies"
  else "Unknown error code: " ++ toString code

end Mtsp
