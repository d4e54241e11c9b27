import Mathlib.NumberTheory.Real.GoldenRatio
import Verif.Model.Py

/-!
# `Curve.harmonic_smas`, `Curve.centered_macs` (`curve.py:604-640`)

The degrees of the averages.  Numbers are exact reals; `GOLD` (`const.py:3`) is the golden ratio.
-/

namespace Curvepy
namespace Harm

/-- Python `round(r)` of a real number (halves to even), used at `curve.py:615`, `632`. -/
noncomputable def roundEven (r : ℝ) : ℤ :=
  if r - ⌊r⌋ < 1 / 2 then ⌊r⌋
  else if 1 / 2 < r - ⌊r⌋ then ⌊r⌋ + 1
  else if ⌊r⌋ % 2 = 0 then ⌊r⌋ else ⌊r⌋ + 1

/-- Body of the first loop (`curve.py:614-615`, `631-632`). -/
noncomputable def periodAt (base : ℝ) (step : ℤ) (i : ℕ) : Except Err ℝ :=
  let period := base * Real.goldenRatio ^ ((i : ℤ) * step)
  if base = 0 then .error .zeroDiv else .ok (roundEven (period / base) * base)

/-- First loop of `harmonic_smas` (`curve.py:609-616`): `append`. -/
noncomputable def harmonicLoop (base : ℝ) (step : ℤ) : List ℕ → List ℝ → Except Err (List ℝ)
  | [], ps => .ok ps
  | i :: is, ps =>
    match periodAt base step i with
    | .error e => .error e
    | .ok p => harmonicLoop base step is (ps ++ [p])

/-- First loop of `centered_macs` (`curve.py:626-633`): `insert(0, …)`. -/
noncomputable def centeredLoop (base : ℝ) (step : ℤ) : List ℕ → List ℝ → Except Err (List ℝ)
  | [], ps => .ok ps
  | i :: is, ps =>
    match periodAt base step i with
    | .error e => .error e
    | .ok p => centeredLoop base step is (p :: ps)

/-- The window of an average (`sma.py:36-47`). -/
inductive Win where
  | period (p : ℝ)
  | degree (n : ℤ)

/-- `int(r)`. -/
noncomputable def truncate (r : ℝ) : ℤ := if 0 ≤ r then ⌊r⌋ else ⌈r⌉

/-- `self.sma(period, is_period=is_period)`: the checks of `SMA.__init__` (`sma.py:38-47`). -/
noncomputable def smaWindow (isPeriod : Bool) (p : ℝ) : Except Err Win :=
  if isPeriod then (if p ≤ 0 then .error .exception else .ok (.period p))
  else (if truncate p ≤ 0 then .error .exception else .ok (.degree (truncate p)))

/-- Second loop (`curve.py:618-623`, `635-640`). -/
noncomputable def smaLoop (isPeriod : Bool) : List ℝ → Except Err (List Win)
  | [] => .ok []
  | p :: ps =>
    match smaWindow isPeriod p with
    | .error e => .error e
    | .ok w => (smaLoop isPeriod ps).map (w :: ·)

/-- `harmonic_smas(base_degree, count, stride, is_period)` (`curve.py:604-623`): the windows of the averages. -/
noncomputable def harmonicSmas (base : ℝ) (count : ℕ) (stride : ℤ := 1) (isPeriod : Bool := false) :
    Except Err (List Win) :=
  match harmonicLoop base (stride + 1) (List.range count) [] with
  | .error e => .error e
  | .ok ps => smaLoop isPeriod ps

/-- `centered_macs` (`curve.py:625-640`). -/
noncomputable def centeredMacs (base : ℝ) (count : ℕ) (stride : ℤ := 1) (isPeriod : Bool := false) :
    Except Err (List Win) :=
  match centeredLoop base (stride + 1) (List.range count) [] with
  | .error e => .error e
  | .ok ps => smaLoop isPeriod ps

end Harm
end Curvepy
