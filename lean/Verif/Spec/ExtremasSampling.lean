import Verif.Spec.Extremas
import Verif.Spec.PointsSampling

/-!
# What sampling of extremas shall give
-/

namespace Curvepy
namespace Spec

/-- The positions: the beginning unless it is left out, the extremas that are at least a step after it, the end unless it is left
out or there already. -/
def turningPositions (m a b : ℚ) (aOpen bOpen : Bool) (es : List (ℚ × ℚ)) : List ℚ :=
  withEnd b bOpen ((if aOpen then [] else [a]) ++ (es.filter fun e => decide (a + m ≤ e.1 ∧ e.1 ≤ b)).map Prod.fst)

/-- Those where the lines between the extremas have a value, with the value. -/
def onLines (es : List (ℚ × ℚ)) (l : List ℚ) : List (Pt ℚ) := (withValues .linear (defined es) l).filter fun p => p.2.isSome

end Spec
end Curvepy
