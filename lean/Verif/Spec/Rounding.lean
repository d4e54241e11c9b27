import Mathlib.Algebra.Order.Field.Rat
import Mathlib.Algebra.Order.Ring.Abs
import Mathlib.Tactic.Linarith

/-!
# Arithmetic with rounding

What the operations of a floating point arithmetic do: the exact result is rounded.  Nothing is said about overflow and
underflow.
-/

namespace Curvepy
namespace Spec

/-- A way of rounding: it keeps the order and signs, rounded numbers stay as they are, and the error is at most the
fraction `u` of the number. -/
structure Rounding (fl : ℚ → ℚ) (u : ℚ) : Prop where
  mono : ∀ {x y : ℚ}, x ≤ y → fl x ≤ fl y
  idem : ∀ x, fl (fl x) = fl x
  odd : ∀ x, fl (-x) = - fl x
  err : ∀ x, |fl x - x| ≤ u * |x|
  one : fl 1 = 1
  nonneg : 0 ≤ u
  small : u ≤ 1 / 64

/-- A number that needs no rounding. -/
def Machine (fl : ℚ → ℚ) (x : ℚ) : Prop := fl x = x

/-- Positions `x0`, `x0 + h`, `x0 + 2 h`, … that need no rounding, and neither do the multiples of `h` and the numbers
that count them. -/
structure Grid (fl : ℚ → ℚ) (xs : List ℚ) (x0 h : ℚ) : Prop where
  pos : 0 < h
  at_ : ∀ (k : ℕ) (x : ℚ), xs[k]? = some x → x = x0 + k * h
  position : ∀ x ∈ xs, Machine fl x
  multiple : ∀ k : ℕ, k < xs.length → Machine fl (k * h)
  index : ∀ k : ℕ, k < xs.length → Machine fl k

end Spec
end Curvepy
