import Verif.Spec.TrendHistory
import Mathlib.Data.Finset.Card

/-!
# Trends without a tolerance
-/

namespace Curvepy
namespace Spec

/-- A trend whose lines go through their points without a tolerance, are of some width and are searched over all of
them, or beyond. -/
structure Untolerant (s : Trd) : Prop where
  rel : s.yRel = none
  tol : s.yAbs = some 0
  wide : 0 < s.minWidth
  reach : s.searchRel ≤ 0 ∨ 1 < s.searchRel

/-- The points that the lines of a trend know as their boundary. -/
def known (s : Trd) : Finset XY := ((s.upper.flatten ++ s.lower.flatten).flatMap TLine.boundary).toFinset

end Spec
end Curvepy
