import Verif.Model.Trend

/-!
# Fits within tolerances

Model of the two functions `_is_line_fit_within_tolerance` of `trend.py`.
-/

namespace Curvepy
namespace Trend

/-- `_is_line_fit_within_tolerance` of the module (`trend.py:956-965`). -/
def fitWithin (ps : List XY) (rel tol : Option ℚ) : Except Err Bool :=
  if ps.length ≤ 2 then .ok true
  else do
    let f ← polyfit ps
    pure (ps.all fun p => within (some p.2) (some (f.1 * p.1 + f.2)) rel tol)

end Trend
open Trend

/-- `TrendLine._is_line_fit_within_tolerance` (`trend.py:824-833`). -/
def TLine.fitWithin (t : TLine) (ps : List XY) : Except Err Bool :=
  if ps.length ≤ 2 then .ok true
  else do
    let f ← polyfit ps
    pure (ps.all fun p => t.withinTol (some p.2) (some (f.1 * p.1 + f.2)))

end Curvepy
