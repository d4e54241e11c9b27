import Verif.Spec.TrendHistory

/-!
# The lines of a trend
-/

namespace Curvepy
namespace Spec

/-- The line is one of the given side of the trend: it has the parameters of the trend, except that points may be at
any distance. -/
structure Carries (s : Trd) (upper : Bool) (t : TLine) : Prop where
  side : t.upper = upper
  width : t.minWidth = s.minWidth
  points : t.minPoints = s.minPoints
  dist : t.minDist = 0
  search : t.searchRel = s.searchRel
  rel : t.yRel = s.yRel
  tol : t.yAbs = s.yAbs
  gold : t.gold = s.gold

/-- The parameters of the trend are the same. -/
structure Unchanged (s s' : Trd) : Prop where
  width : s'.minWidth = s.minWidth
  points : s'.minPoints = s.minPoints
  dist : s'.minDist = s.minDist
  search : s'.searchRel = s.searchRel
  rel : s'.yRel = s.yRel
  tol : s'.yAbs = s.yAbs
  gold : s'.gold = s.gold

end Spec
end Curvepy
