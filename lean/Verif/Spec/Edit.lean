import Verif.Spec.Interp

/-!
# What editing a list of points means
-/

namespace Curvepy
namespace Spec
variable {V : Type}

/-- Put a point into an ascending list: overwrite the knot at the same `x`, or insert in
order. -/
def putPoint : List (Pt V) → Pt V → List (Pt V)
  | [], p => [p]
  | q :: qs, p =>
    if p.1 < q.1 then p :: q :: qs
    else if p.1 = q.1 then p :: qs
    else q :: putPoint qs p

/-- Drop the points inside an interval. -/
def dropInside (pts : List (Pt V)) (d : Iv) : List (Pt V) :=
  pts.filter fun p => !d.contains (.fin p.1)

end Spec
end Curvepy
