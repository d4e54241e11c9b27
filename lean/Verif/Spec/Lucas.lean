import Mathlib.Data.Nat.Notation

/-! # The Lucas numbers, for C108 -/

namespace Curvepy
namespace Spec

/-- 2, 1, 3, 4, 7, 11, 18, … -/
def lucas : ℕ → ℕ
  | 0 => 2
  | 1 => 1
  | n + 2 => lucas (n + 1) + lucas n

/-- Whole numbers nearest to the powers of the golden ratio: 1, 2, 3, 4, 7, 11, 18, … -/
def golden : ℕ → ℕ
  | 0 => 1
  | 1 => 2
  | n + 2 => lucas (n + 2)

end Spec
end Curvepy
