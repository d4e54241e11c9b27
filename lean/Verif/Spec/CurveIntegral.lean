import Verif.Model.CurveIntegral
import Verif.Spec.Accumulator

/-!
# Accumulating along a curve that has no knots
-/

namespace Curvepy
namespace Spec

/-- The curve has the values `g`, everywhere, and no knots: whoever steps along it towards a position gets there at once. -/
structure Unbroken (m : ℚ) (g : ℚ → ℚ) (c : Crv) : Prop where
  lo : c.dom.lo = .ninf
  dom : ∀ x : ℚ, c.dom.contains (.fin x) = true
  val : ∀ x : ℚ, c.y (.fin x) = .ok (some (.fin (g x)))
  next : ∀ x l : ℚ, x < l → c.xNext (.fin x) (some (.fin m)) (some (.fin l)) = .ok (some (.fin l))

/-- What remains of the positions asked for, once `x` is: a position before all of them begins anew, one after all of them
is added, and others change nothing. -/
def visit (ks : List ℚ) (x : ℚ) : List ℚ :=
  match ks.head?, ks.getLast? with
  | some a, some b => if x < a then [x] else if b < x then ks ++ [x] else ks
  | _, _ => [x]

/-- What remains of all the positions asked for, one after another. -/
def visited (xs : List ℚ) : List ℚ := xs.foldl visit []

/-- The curve at these positions. -/
def sampledAt (g : ℚ → ℚ) (ks : List ℚ) : List (Pt ℚ) := ks.map fun x => (x, some (g x))

/-- At every time, the positions that remained were at least `m` apart, not equal to an average gap by accident, and equally
spaced if `u`. -/
def AskedFit (m : ℚ) (u : Bool) (xs : List ℚ) : Prop :=
  ∀ pre, pre <+: xs → Fit m u ((visited pre).map fun x => (x, none))

/-- A transform that writes what the rule says, over a curve with the values `g`. -/
def FollowsAt (g : ℚ → ℚ) (m : ℚ) (t : ATfm) (G : Rule) : Prop :=
  ∀ (acc : Pts ℚ) (ks : List ℚ) (x : ℚ), Honest acc → acc.points.map Prod.fst = ks →
    Gapped m (sampledAt g (ks ++ [x])) →
    t acc x (some (g x)) (lastOut acc.points) = G (sampledAt g (ks ++ [x])) acc.points

/-- The accumulators over `c` that were asked for the positions `xs`, one after another, and did not raise. -/
inductive Inquired (c : Crv) (t : ATfm) (m : ℚ) (i : Interp) (u : Bool) : List ℚ → CScan → Prop where
  | new : Inquired c t m i u [] (CScan.new m i u)
  | ask {xs : List ℚ} {A B : CScan} {n : ℕ} {x : ℚ} {v : Option ℚ} (h : Inquired c t m i u xs A)
      (e : A.queryBy c t n (.fin x) = some (.ok (B, v))) : Inquired c t m i u (xs ++ [x]) B

end Spec
end Curvepy
