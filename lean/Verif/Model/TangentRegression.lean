import Verif.Model.Extension
import Verif.Model.Sampling

/-!
# Tangent extensions with regression

Model of the branches of `extension/tangent.py` for `regression_degree` and `regression_period`.

Simplifications: what `Curve.regression` returns is an argument (`reg`), as it may not terminate; in the
properties it is tied to `Crv.samplePoints` and `Crv.regression`.  `Interval(x, None)` is assumed to raise
`TypeError`, like `x_next(None)` does.
-/

namespace Curvepy
namespace Extn

/-- `regression_degree` or `regression_period` (`tangent.py:14-23`). -/
inductive Window where
  | degree (n : ℕ)
  | period (p : ℚ)
deriving DecidableEq, Repr

/-- The assertions of `TangentExtension.__init__` (`tangent.py:16-22`). -/
def Window.valid : Window → Bool
  | .degree n => decide (0 < n)
  | .period p => decide (0 < p)

/-- The loops at `tangent.py:34-35` and `63-64`: a step from `None` raises. -/
def walk (next : Ext → Except Err (Option Ext)) : ℕ → Option Ext → Except Err (Option Ext)
  | 0, x => .ok x
  | _ + 1, none => .error .type
  | n + 1, some x => do
    let y ← next x
    walk next n y

/-- The domain of the regression at the start (`tangent.py:33-36`, `41-42`). -/
def startWindow (c : Crv) (step : ℚ) (x : Ext) : Window → Except Err Iv
  | .degree n => do
    match ← walk (fun x => c.xNext x (some (.fin step)) none) n (some x) with
    | none => .error .type
    | some x1 => pure ⟨x, x1, false, false⟩
  | .period p => pure ⟨x, x.addQ p, false, false⟩

/-- The domain of the regression at the end (`tangent.py:62-65`, `70-71`). -/
def stopWindow (c : Crv) (step : ℚ) (x : Ext) : Window → Except Err Iv
  | .degree n => do
    match ← walk (fun x => c.xPrevious x (some (.fin step)) none) n (some x) with
    | none => .error .type
    | some x0 => pure ⟨x0, x, false, false⟩
  | .period p => pure ⟨x.addQ (-p), x, false, false⟩

/-- Value and slope of the regression at the edge `x` (`tangent.py:37-40`, `43-46`, `66-69`, `72-75`). -/
def regressionAt (reg : Crv → Iv → Except Err (Option LineData)) (c : Crv) (x : Ext) (d : Except Err Iv) :
    Except Err (Option Tan) := do
  match ← reg c (← d) with
  | none => pure none
  | some l => pure (some ⟨.ofExt x, Line.y l (.ofExt x), l.slope⟩)

/-- `tangent.py:26-53` with a regression. -/
def regressionStart (reg : Crv → Iv → Except Err (Option LineData)) (w : Window) (step : ℚ) (c : Crv) (s : Extn Tan) :
    Extn Tan × Option Err :=
  if s.start then
    match regressionAt reg c (startEdge step c.dom) (startWindow c step (startEdge step c.dom) w) with
    | .error e => (s, some e)
    | .ok none => ({ s with startValid := false }, none)
    | .ok (some t) => ({ s with startValid := true, startF := t }, none)
  else (s, none)

/-- `tangent.py:55-82` with a regression. -/
def regressionStop (reg : Crv → Iv → Except Err (Option LineData)) (w : Window) (step : ℚ) (c : Crv) (s : Extn Tan) :
    Extn Tan × Option Err :=
  if s.stop then
    match regressionAt reg c (stopEdge step c.dom) (stopWindow c step (stopEdge step c.dom) w) with
    | .error e => (s, some e)
    | .ok none => ({ s with stopValid := false }, none)
    | .ok (some t) => ({ s with stopValid := true, stopF := t }, none)
  else (s, none)

/-- `TangentExtension` (`extension/tangent.py`) with a regression. -/
def tangentReg (reg : Crv → Iv → Except Err (Option LineData)) (w : Window) (step : ℚ) : Kind Tan where
  create := ⟨.fin 0, .fin 0, .fin 0⟩
  value t x := some (t.at x)
  update c s := andThen (regressionStart reg w step c s) (regressionStop reg w step c)

end Extn

namespace Crv

/-- A sampled point with finite position and value, as `numpy.vstack` sees it; others are not modelled. -/
def plain : Sample → Except Err (ℚ × Option ℚ)
  | (.fin x, none) => .ok (x, none)
  | (.fin x, some (.fin y)) => .ok (x, some y)
  | _ => .error .value

/-- `Curve.regression(domain, min_step)` (`curve.py:360-381`) by sampling with at most `fuel` steps. -/
def regressionOn (fit : List (ℚ × ℚ) → ℚ × ℚ) (step : ℚ) (fuel : ℕ) (c : Crv) (d : Iv) :
    Option (Except Err (Option LineData)) :=
  (c.samplePoints (some d) (some (.fin step)) none fuel).map fun r => do
    let ps ← r
    let qs ← ps.mapM plain
    regression fit qs

end Crv
end Curvepy
