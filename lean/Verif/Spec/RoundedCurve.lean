import Verif.Spec.Rounding
import Verif.Model.Curve

/-!
# Curves whose values at finite positions are numbers
-/

namespace Curvepy
namespace Spec

/-- Inside its domain the curve has the value `f x` at `x`. -/
def Gives (c : Crv) (f : ℚ → ℚ) : Prop := ∀ x : ℚ, c.dom.contains (.fin x) = true → c.y (.fin x) = .ok (some (.fin (f x)))

/-- The values of `f` differ by at most `L` times the distance of the positions. -/
def Steep (f : ℚ → ℚ) (L : ℚ) : Prop := ∀ a b, |f a - f b| ≤ L * |a - b|

/-- The slope of the chord from `(x, y)` to `(x1, y1)`. -/
def chord (x y x1 y1 : ℚ) : ℚ := (y1 - y) / (x1 - x)

/-- Asked for a derivative at `x`, the curve steps to `x1`. -/
def StepsTo (c : Crv) (forward : Bool) (m limit : Option Ext) (x x1 : ℚ) : Prop :=
  (if forward then c.xNext (.fin x) (Crv.resolve c.minStep m) limit else c.xPrevious (.fin x) (Crv.resolve c.minStep m) limit)
    = .ok (some (.fin x1))

end Spec
end Curvepy
