import Verif.Proof.Solver
import Verif.Props.Doubles
import Verif.Props.InitialResult

/-! C73, the constructor of the solver. -/

namespace Mtsp

/-- **C73, constructor.** On every input with at most 2^19 nodes (depots counted twice) the constructor does the same with
rounded operations as with exact ones: the same error, or the same instance, bounds, paths and clock. -/
theorem C73_constructor_exact {fl : ℚ → ℚ} (hfl : Rounding fl) {rows cols : Nat} {w : Weights} {starts ends : List Nat}
    (hw : IntWeights rows w) (hn : rows + 2 * starts.length ≤ 2 ^ 19) (mode : Mode) (t : Nat) :
    Solver.makeF fl rows cols w starts ends mode t = Solver.make rows cols w starts ends mode t := by
  unfold Solver.makeF Solver.make
  cases h : WM.make rows cols w starts ends with
  | error e => rfl
  | ok m =>
    dsimp only
    rw [C73_initial_exact hfl h hw (le_trans (WM.size_le h) hn)]

/-- non-vacuity: an input for which the constructor gets through, with doubles -/
example : IntWeights 6 niExW ∧ testOk (Solver.makeF roundDouble 6 6 niExW [0, 0] [0, 4] .max 100)
    (fun S => decide (S.res.upper < 1000 ∧ S.res.paths.length = 2)) = true := by
  constructor
  · intro i hi j hj
    exact ⟨(niExW i j).num, (Rat.coe_int_num_of_den_eq_one (by revert j; revert i; decide +kernel)).symm, by revert j; revert i; decide +kernel, by revert j; revert i; decide +kernel⟩
  · decide +kernel

end Mtsp
