import Verif.Model.Sampling
import Verif.Model.Float

/-!
# Sampling in steps with rounded arithmetic (`curve.py:185-189`)
-/

namespace Curvepy
namespace Crv

/-- The loop with a step (`curve.py:185-189`); every sum is rounded with `fl`. -/
def stepLoopR (fl : ℚ → ℚ) (c : Crv) (b step : ℚ) : ℕ → ℚ → Option (Except Err (List Sample))
  | 0, _ => none
  | n + 1, x =>
    if x ≤ b then
      match c.y (.fin x) with
      | .error e => some (.error e)
      | .ok y => (stepLoopR fl c b step n (fl (x + step))).map fun r => r.map ((.fin x, y) :: ·)
    else some (.ok [])

end Crv
end Curvepy
