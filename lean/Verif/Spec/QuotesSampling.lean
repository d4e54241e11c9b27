import Verif.Model.QuotesSampling
import Verif.Spec.PointsSampling

/-!
# Which quotes a domain asks for
-/

namespace Curvepy
namespace Spec

/-- Some instant of the period that begins at `a` is in `d`. -/
def PeriodMeets (D : Dur) (d : Iv) (a : ℚ) : Prop := ∃ z, D.period z = D.period a ∧ d.contains (.fin z) = true

/-- One quote for each period, in order. -/
def Gapless (D : Dur) (k : ℤ) : List (Pt Quote) → Prop
  | [] => True
  | p :: ps => p.1 = D.start k ∧ Gapless D (k + 1) ps

end Spec
end Curvepy
