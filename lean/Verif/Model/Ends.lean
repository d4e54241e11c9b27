import Verif.Model.Quotes
import Verif.Model.Curve

/-!
# The ends of curves

`Curve.y_start`, `y_end`, `first_point` and `last_point` (`curve.py:73-89`) for curves, points and accumulators.
-/

namespace Curvepy

namespace Crv

/-- `Curve.y_start` (`curve.py:73-74`). -/
def yStart (c : Crv) : Except Err (Option Num) := c.y c.dom.lo

/-- `Curve.y_end` (`curve.py:76-77`). -/
def yEnd (c : Crv) : Except Err (Option Num) := c.y c.dom.hi

/-- `Curve.first_point` (`curve.py:79-83`). -/
def firstPoint (c : Crv) : Except Err (Option (Ext × Option Num)) :=
  if c.dom.isEmpty then .ok none else (c.y c.dom.lo).map fun y => some (c.dom.lo, y)

/-- `Curve.last_point` (`curve.py:85-89`). -/
def lastPoint (c : Crv) : Except Err (Option (Ext × Option Num)) :=
  if c.dom.isEmpty then .ok none else (c.y c.dom.hi).map fun y => some (c.dom.hi, y)

end Crv

namespace Pts
variable {V : Type} [Lerp V]

/-- `Curve.first_point` (`curve.py:79-83`) of points. -/
def firstPoint (s : Pts V) : Except Err (Option (Ext × Option V)) :=
  if s.domVal.isEmpty then .ok none else (s.y s.domVal.lo).map fun y => some (s.domVal.lo, y)

/-- `Curve.last_point` (`curve.py:85-89`) of points. -/
def lastPoint (s : Pts V) : Except Err (Option (Ext × Option V)) :=
  if s.domVal.isEmpty then .ok none else (s.y s.domVal.hi).map fun y => some (s.domVal.hi, y)

end Pts

namespace Accum

/-- `Curve.y_start` (`curve.py:73-74`) of an accumulator. -/
def yStart (t : Tfm) (A : Accum) : Option (Out (Option ℚ)) := A.touch.query t A.domVal.lo

/-- `Curve.y_end` (`curve.py:76-77`) of an accumulator. -/
def yEnd (t : Tfm) (A : Accum) : Option (Out (Option ℚ)) := A.touch.query t A.domVal.hi

end Accum
end Curvepy
