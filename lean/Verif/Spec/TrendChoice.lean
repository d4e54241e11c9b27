import Verif.Spec.TrendPoints

/-!
# Choice of trend points: tolerance, distance and fit
-/

namespace Curvepy
namespace Spec
open Trend

/-- What is next to zero. -/
def nearZero : ℚ := 1 / 100000000000000

/-- The value differs from the reference by no more than the absolute tolerance, and by no more than the relative one
as a part of the reference, where both are not next to zero. -/
structure Agrees (y y0 : ℚ) (rel tol : Option ℚ) : Prop where
  abs : ∀ a, tol = some a → |y - y0| ≤ a
  rel : ∀ r, rel = some r → nearZero < |y0| → nearZero < |y| → |y - y0| ≤ r * |y0|

/-- The value is below the reference by at least the absolute tolerance, and by at least the relative one as a part of
the value, where both are not next to zero. -/
structure Sags (y y0 : ℚ) (rel tol : Option ℚ) : Prop where
  abs : ∀ a, tol = some a → a ≤ y0 - y
  rel : ∀ r, rel = some r → nearZero < |y0| → nearZero < |y| → r * |y| ≤ y0 - y

/-- Neighbours are at least `d` apart. -/
def Spread (d : ℚ) (ps : List XY) : Prop := ps.IsChain fun p q => d ≤ q.1 - p.1

/-- Sum of the squares of the vertical distances of points to a line. -/
def squares (l : Chord) (ps : List XY) : ℚ := (ps.map fun p => offset l p ^ 2).sum

/-- Consecutive in a list. -/
def Consecutive (es : List XY) (l : Chord) : Prop := ∃ a b, es = a ++ [l.1, l.2] ++ b

/-- What the prediction of a line looks at: extremas on the outer side of the line, tangent points and
intersections. -/
structure Looked (t : TLine) (l : Chord) (m : Mark) : Prop where
  extrema : m.kind = .extrema → m.pt ∈ t.extremas ∧ if t.upper then 0 < offset l m.pt else offset l m.pt < 0
  tangent : m.kind = .tangent → m.pt ∈ t.tangents
  intersection : m.kind = .intersection → m.pt ∈ t.intersections

end Spec
end Curvepy
