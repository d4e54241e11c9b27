import Verif.Model.Curve

/-!
# Curves nobody can tell apart
-/

namespace Curvepy
namespace Spec

/-- Both answer the same, or both raise. -/
def Alike {α : Type} (r s : Except Err α) : Prop := ∀ v, r = .ok v ↔ s = .ok v

/-- The same domain, values and positions. -/
structure SameCurve (c d : Crv) : Prop where
  dom : ∀ x, c.dom.contains x = d.dom.contains x
  y : ∀ x, Alike (c.y x) (d.y x)
  next : ∀ x m l, Alike (c.xNext x m l) (d.xNext x m l)
  previous : ∀ x m l, Alike (c.xPrevious x m l) (d.xPrevious x m l)

end Spec
end Curvepy
