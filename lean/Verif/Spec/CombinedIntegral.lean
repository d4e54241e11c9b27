import Verif.Spec.CurveIntegral
import Verif.Spec.CurveScan
import Verif.Spec.Web
import Mathlib.Data.Real.Basic

/-!
# Accumulating along curves that show their knots, with transforms that look back
-/

namespace Curvepy
namespace Spec

/-- A transform that writes what the rule says, at each of the knots. -/
def FollowsOn (pts : List (Pt ℚ)) (t : ATfm) (G : Rule) : Prop :=
  ∀ (acc : Pts ℚ) (seen : List (Pt ℚ)) (p : Pt ℚ) (todo : List (Pt ℚ)), pts = seen ++ p :: todo → Honest acc →
    acc.points.map Prod.fst = seen.map Prod.fst → t acc p.1 p.2 (lastOut acc.points) = G (seen ++ [p]) acc.points

/-- Accumulators over `c` after queries at positions in `Q` that did not raise. -/
inductive AskedBy (Q : ℚ → Prop) (c : Crv) (t : ATfm) (m : ℚ) (i : Interp) (u : Bool) : CScan → Prop where
  | new : AskedBy Q c t m i u (CScan.new m i u)
  | query {A B : CScan} {n : ℕ} {x : ℚ} {v : Option ℚ} (h : AskedBy Q c t m i u A) (hx : Q x)
      (e : A.queryBy c t n (.fin x) = some (.ok (B, v))) : AskedBy Q c t m i u B

/-- The positions of some lists of points that lie within all of them. -/
def commonXs (ls : List (List ℚ)) : List ℚ := (merged ls.flatten).filter fun x => ls.all fun l => within l x

/-- Value at `x` of the straight lines through some points; 0 outside. -/
def heightAt : List (ℚ × ℚ) → ℚ → ℚ
  | p :: q :: ps, x => if x ≤ q.1 then p.2 + (x - p.1) / (q.1 - p.1) * (q.2 - p.2) else heightAt (q :: ps) x
  | [p], _ => p.2
  | [], _ => 0

/-- Area under the straight lines through some points, from the first of them to `x`. -/
def areaTo : List (ℚ × ℚ) → ℚ → ℚ
  | p :: q :: ps, x =>
    if x ≤ q.1 then (x - p.1) * ((p.2 + (p.2 + (x - p.1) / (q.1 - p.1) * (q.2 - p.2))) / 2)
    else (q.1 - p.1) * ((p.2 + q.2) / 2) + areaTo (q :: ps) x
  | _, _ => 0

/-- Sum of weighted numbers. -/
def weighted : List ℚ → List ℚ → ℚ
  | w :: ws, v :: vs => w * v + weighted ws vs
  | _, _ => 0

/-- The straight lines through some points, over the reals. -/
noncomputable def realHeight : List (ℚ × ℚ) → ℝ → ℝ
  | p :: q :: ps, x => if x ≤ q.1 then p.2 + (x - p.1) / (q.1 - p.1) * (q.2 - p.2) else realHeight (q :: ps) x
  | [p], _ => p.2
  | [], _ => 0

end Spec
end Curvepy
