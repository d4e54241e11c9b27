import Verif.Model.Interval
import Verif.Spec.Interp

/-!
# Sampling a list of points in steps
-/

namespace Curvepy
namespace Spec

/-- The positions that someone meets who walks from `a` in steps of at least `m`. -/
def stepsFrom (m : ℚ) : ℚ → List ℚ → List ℚ
  | _, [] => []
  | a, x :: xs => if a + m ≤ x then x :: stepsFrom m x xs else stepsFrom m a xs

/-- Those up to `b`, after `a` unless it is left out. -/
def stepPositions (m a b : ℚ) (aOpen : Bool) (xs : List ℚ) : List ℚ :=
  (if aOpen then [] else [a]) ++ (stepsFrom m a xs).filter fun x => decide (x ≤ b)

/-- And `b`, unless it is left out or there already. -/
def withEnd (b : ℚ) (bOpen : Bool) (l : List ℚ) : List ℚ :=
  if bOpen ∨ l.getLast? = some b then l else l ++ [b]

/-- The positions `a`, `a + step`, `a + 2 * step`, … up to `b`. -/
def gridPositions (step a b : ℚ) (aOpen : Bool) : List ℚ :=
  ((List.range (⌊(b - a) / step⌋₊ + 1)).filter fun k => k ≠ 0 ∨ aOpen = false).map fun k : ℕ => a + k * step

/-- Their values on the curve through the points. -/
def withValues [Lerp V] (mode : Interp) (pts : List (Pt V)) (l : List ℚ) : List (Pt V) := l.map fun x => (x, valueAt mode pts x)

/-- The length of the average gap, if there are two points. -/
def IsAverageGap (pts : List (Pt V)) (d : ℚ) : Prop :=
  ∃ p ps q, pts = p :: ps ∧ ps.getLast? = some q ∧ d * ps.length = q.1 - p.1

/-- Neither a least step above the average gap nor another step is asked for. -/
def Regular (pts : List (Pt V)) (minStep step : Option ℚ) : Prop :=
  ∀ d, IsAverageGap pts d → (∀ m, minStep = some m → m ≤ d) ∧ ∀ st, step = some st → st = d

end Spec
end Curvepy
