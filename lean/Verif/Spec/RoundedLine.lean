import Verif.Spec.Rounding

/-!
# The straight line through two points

With exact numbers.
-/

namespace Curvepy
namespace Spec

/-- Height over `x` of the straight line through `p` and `q`, which are not above each other. -/
def straight (p q : ℚ × ℚ) (x : ℚ) : ℚ := p.2 + (q.2 - p.2) / (q.1 - p.1) * (x - p.1)

/-- How far the straight line through `p` and `q` climbs from `p` to the position `x`. -/
def climb (p q : ℚ × ℚ) (x : ℚ) : ℚ := straight p q x - p.2

/-- Both coordinates need no rounding. -/
def MachinePoint (fl : ℚ → ℚ) (p : ℚ × ℚ) : Prop := Machine fl p.1 ∧ Machine fl p.2

end Spec
end Curvepy
