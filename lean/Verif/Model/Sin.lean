import Mathlib.Analysis.SpecialFunctions.Trigonometric.Basic
import Mathlib.Analysis.SpecialFunctions.Complex.Arg
import Verif.Model.Points

/-!
# Sine curves and the sine extension

Model of `sin.py` and of `extension/sin.py:21-37`.  Here numbers are exact reals, `math.sin`, `math.cos`,
`math.pi` are the real ones and `math.atan2(b, a)` is the argument of `a + b i`.
-/

namespace Curvepy
namespace Sine

/-- The parameters of a sine (`sin.py:24-33`). -/
structure Data where
  amplitude : ℝ
  /-- `x_coef` -/
  coef : ℝ
  phase : ℝ

/-- Arguments of `Sin(...)` and `set(...)` (`sin.py:22`). -/
structure Args where
  amplitude : Option ℝ := none
  frequency : Option ℝ := none
  period : Option ℝ := none
  phase : Option ℝ := some 0
  phaseX : Option ℝ := none

open Classical in
/-- `frequency` after `sin.py:28-29`. -/
noncomputable def frequencyOf (a : Args) : Except Err (Option ℝ) :=
  match a.period with
  | none => .ok a.frequency
  | some p => if p = 0 then .error .zeroDiv else .ok (some (1 / p))

/-- `phase` after `sin.py:32-33`; a product with `None` raises. -/
noncomputable def phaseOf (a : Args) (coef : Option ℝ) : Except Err (Option ℝ) :=
  match a.phaseX with
  | none => .ok a.phase
  | some px =>
    match coef with
    | none => .error .type
    | some k => .ok (some (px * k))

/-- The part of `Sin.set` that works out the parameters (`sin.py:24-36`). -/
noncomputable def set (a : Args) : Except Err Data := do
  let f ← frequencyOf a
  let coef := f.map fun f => f * Real.pi * 2
  let phase ← phaseOf a coef
  match a.amplitude, coef, phase with
  | some am, some k, some ph => .ok ⟨am, k, ph⟩
  | _, _, _ => .error .exception

/-- `Sin.y` (`sin.py:39-40`). -/
noncomputable def y (d : Data) (x : ℝ) : ℝ := d.amplitude * Real.sin (d.coef * x + d.phase)

/-- `Sin.d_y` (`sin.py:42-43`). -/
noncomputable def dY (d : Data) (x : ℝ) : ℝ := d.amplitude * Real.cos (d.coef * x + d.phase)

/-- `Sin.frequency` (`sin.py:7-9`). -/
noncomputable def frequency (d : Data) : ℝ := d.coef / Real.pi * (1 / 2)

open Classical in
/-- `Sin.period` (`sin.py:11-13`). -/
noncomputable def period (d : Data) : Except Err ℝ :=
  if d.coef = 0 then .error .zeroDiv else .ok (Real.pi * 2 / d.coef)

/-- `math.atan2(b, a)`. -/
noncomputable def atan2 (b a : ℝ) : ℝ := Complex.arg ⟨a, b⟩

/-- The phase (`extension/sin.py:23-29`). -/
noncomputable def fitPhase (period x y dy : ℝ) : ℝ :=
  let k := 2 * Real.pi / period
  let angle := k * x
  let num := k * y * Real.cos angle - dy * Real.sin angle
  let den := k * y * Real.sin angle + dy * Real.cos angle
  atan2 num den

open Classical in
/-- The amplitude (`extension/sin.py:31-35`); `t % math.pi != 0`: `t` is not a multiple. -/
noncomputable def fitAmplitude (period x y dy : ℝ) : ℝ :=
  let k := 2 * Real.pi / period
  let angle := k * x
  let phase := fitPhase period x y dy
  if ¬ ∃ n : ℤ, angle + phase = n * Real.pi then y / Real.sin (angle + phase)
  else dy / (k * Real.cos (angle + phase))

/-- `SinExtension.update_extension_func` (`extension/sin.py:21-37`). -/
noncomputable def fit (period x y dy : ℝ) : Except Err Data :=
  set { amplitude := some (fitAmplitude period x y dy), period := some period,
        phase := some (fitPhase period x y dy) }

end Sine
end Curvepy
