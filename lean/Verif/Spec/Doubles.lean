import Verif.Model.WeightManager

/-! What is assumed about the rounding of floating-point operations. -/

namespace Mtsp

/-- A rounding function like that of IEEE doubles: integers of at most 53 bits are not changed, larger numbers are not
rounded to smaller ones. -/
structure Rounding (fl : ℚ → ℚ) : Prop where
  int : ∀ z : ℤ, |(z : ℚ)| ≤ 2 ^ 53 → fl z = z
  mono : ∀ a b, a ≤ b → fl a ≤ fl b

/-- Every result is off by at most `2^-53` of itself.  (Additions of doubles satisfy this without exception: a sum in the
subnormal range is exact.) -/
structure Precise (fl : ℚ → ℚ) : Prop where
  rel : ∀ q, |fl q - q| ≤ 1 / 2 ^ 53 * |q|

end Mtsp
