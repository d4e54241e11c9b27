import Verif.Model.Sampling

/-!
# What sampling may be expected to return
-/

namespace Curvepy.Spec

/-- `l` lists the positions from `x` on that `x_next` (with step `m`, limit `b`) yields one after the
other up to `b`. -/
inductive Chain (c : Crv) (m b : ℚ) : ℚ → List ℚ → Prop
  | last : Chain c m b b [b]
  | stop {x : ℚ} : x < b → (c.xNext (.fin x) (some (.fin m)) (some (.fin b)) = .ok none ∨
      ∃ z, c.xNext (.fin x) (some (.fin m)) (some (.fin b)) = .ok (some (.fin z)) ∧ b < z) →
      Chain c m b x [x]
  | next {x z : ℚ} {l : List ℚ} : x < b →
      c.xNext (.fin x) (some (.fin m)) (some (.fin b)) = .ok (some (.fin z)) → z ≤ b →
      Chain c m b z l → Chain c m b x (x :: l)

/-- `x_next` advances by at least the step, unless it arrives at the limit. -/
def Advances (c : Crv) (m b x : ℚ) : Prop :=
  ∀ z, c.xNext (.fin x) (some (.fin m)) (some (.fin b)) = .ok (some z) →
    ∃ q, z = .fin q ∧ (x + m ≤ q ∨ q = b)

/-- `x` is not an odd multiple of half the step (where `round` goes to the even side). -/
def NotHalfway (m x : ℚ) : Prop := ∀ n : ℤ, x / m ≠ n + 1 / 2

/-- The `x_next` (or `x_previous`) chain of a curve from `x`, with values: at most `n` points, up to
the first position or value that is missing. -/
inductive Walk (move : Ext → Except Err (Option Ext)) (y : Ext → Except Err (Option Num)) :
    ℕ → Ext → List (Ext × Num) → Prop
  | zero {x : Ext} : Walk move y 0 x []
  | noNext {n : ℕ} {x : Ext} : move x = .ok none → Walk move y (n + 1) x []
  | noValue {n : ℕ} {x z : Ext} : move x = .ok (some z) → y z = .ok none → Walk move y (n + 1) x []
  | point {n : ℕ} {x z : Ext} {v : Num} {l : List (Ext × Num)} : move x = .ok (some z) →
      y z = .ok (some v) → Walk move y n z l → Walk move y (n + 1) x ((z, v) :: l)

/-- `x` is a local minimum as far as slopes tell: downwards before, upwards after. -/
def LocalMin (dY : Ext → Bool → Except Err (Option Num)) (x : Ext) : Prop :=
  ∃ d0 d1, dY x false = .ok (some d0) ∧ dY x true = .ok (some d1) ∧
    Num.lt d0 (.fin 0) = true ∧ Num.lt (.fin 0) d1 = true

/-- A local maximum: upwards before, downwards after. -/
def LocalMax (dY : Ext → Bool → Except Err (Option Num)) (x : Ext) : Prop :=
  ∃ d0 d1, dY x false = .ok (some d0) ∧ dY x true = .ok (some d1) ∧
    Num.lt (.fin 0) d0 = true ∧ Num.lt d1 (.fin 0) = true

/-- No slope on either side. -/
def Isolated (dY : Ext → Bool → Except Err (Option Num)) (x : Ext) : Prop :=
  dY x false = .ok none ∧ dY x true = .ok none

/-- One move forward or backward, by the step if there is one, else to the next or previous
position of the curve. -/
def Neighbour (c : Crv) (minStep : Option Ext) (step : Option ℚ) (x z : Ext) : Prop :=
  match step with
  | some s => z = x.addQ s ∨ z = x.addQ (-s)
  | none => c.xNext x minStep none = .ok (some z) ∨ c.xPrevious x minStep none = .ok (some z)

end Curvepy.Spec
