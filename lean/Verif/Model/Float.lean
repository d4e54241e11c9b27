import Verif.Model.Sampling
import Mathlib.Data.Int.Log

/-!
# Floating point numbers

The numbers of Python (IEEE 754 `binary64`) as rationals: every operation rounds its exact result to the nearest number
with 53 binary digits, a tie to the even one.  There is no greatest exponent and no smallest one: overflow to infinity,
underflow and negative zero are left out.
-/

namespace Curvepy

/-- The distance of the numbers with `p` binary digits after the first one around `q`. -/
def spacing (p : ℕ) (q : ℚ) : ℚ := (2 : ℚ) ^ (Int.log 2 |q| - (p : ℤ))

/-- The nearest number with `p` binary digits after the first one. -/
def roundTo (p : ℕ) (q : ℚ) : ℚ := if q = 0 then 0 else (pyRound (q / spacing p q) : ℚ) * spacing p q

/-- The nearest `binary64` number. -/
def fl64 (q : ℚ) : ℚ := roundTo 52 q

end Curvepy
