import Verif.Spec.CurveScan
import Verif.Spec.Rounding
import Verif.Model.RoundedCombine

/-!
# The relative strength index and sums of many values with rounding
-/

namespace Curvepy
namespace Spec

/-- Relative strength index of average rises `g` and falls `l`: `100 - 100 / (1 + g / l)`, rounded after each operation. -/
def roundedStrength (fl : ℚ → ℚ) (g l : ℚ) : ℚ := if l = 0 then 100 else fl (100 - fl (100 / fl (1 + fl (g / l))))

/-- An RSI after queries at positions in `Q` that did not raise. -/
inductive RsiAskedR (fl : ℚ → ℚ) (Q : ℚ → Prop) (c : Crv) (degree m : ℚ) (u : Bool) : Rsi → Prop where
  | new {R : Rsi} (e : Rsi.newR fl c degree m u = .ok R) : RsiAskedR fl Q c degree m u R
  | query {R S : Rsi} {n : ℕ} {x : ℚ} {v : Option Num} (h : RsiAskedR fl Q c degree m u R) (hx : Q x)
      (e : R.queryR fl n (.fin x) = some (.ok (S, v))) : RsiAskedR fl Q c degree m u S

end Spec
end Curvepy
