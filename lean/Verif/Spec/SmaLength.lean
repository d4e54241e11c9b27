import Verif.Spec.Sma

/-!
# Moving averages over a length of time

Which points a window of length `per` takes in, over points at any distances, with a least step `m`.
-/

namespace Curvepy
namespace Spec

/-- The first point that lies at `x - per + m` or later, and all points from there on that lie no later than `per - m` after
it. -/
def lengthWindow (l : List (ℚ × ℚ)) (per m x : ℚ) : List (ℚ × ℚ) :=
  match l.find? fun z => decide (x - per + m ≤ z.1) with
  | none => []
  | some p => l.filter fun z => decide (p.1 ≤ z.1 ∧ z.1 ≤ p.1 + per - m)

/-- The mean height of the line through these points; the value at `q` if the first of them is `q`. -/
def lengthMean (l : List (ℚ × ℚ)) (per m : ℚ) (q : ℚ × ℚ) : ℚ :=
  if (lengthWindow l per m q.1).head? = some q then q.2 else meanHeight (lengthWindow l per m q.1)

/-- The share of the way from `a` to `b` at which `x` lies. -/
def shareAt (a b x : ℚ) : ℚ := (x - a) / (b - a)

/-- Between the points `q` and `r`: a mix of the mean height of the window at `x` with the average at a neighbour `c` of its end.
If the window ends at `q`, `c` is `r`; else `c` is the last point but one of the window. -/
def lengthBetween (l : List (ℚ × ℚ)) (per m : ℚ) (q r : ℚ × ℚ) (x : ℚ) : ℚ :=
  let w := lengthWindow l per m x
  match w.getLast?, w.dropLast.getLast? with
  | some e, some c =>
    if e.1 < x then shareAt q.1 r.1 x * lengthMean l per m r + (1 - shareAt q.1 r.1 x) * meanHeight w
    else shareAt c.1 e.1 x * lengthMean l per m c + (1 - shareAt c.1 e.1 x) * meanHeight w
  | _, _ => shareAt q.1 r.1 x * r.2 + (1 - shareAt q.1 r.1 x) * q.2

end Spec
end Curvepy
