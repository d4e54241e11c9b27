import Verif.Model.Accumulator
import Verif.Model.Float

/-!
# Averages with rounded arithmetic

The transforms of accumulators when every operation rounds its result with `fl`.  The accumulators that call them are those
of `Model/Accumulator`: their own arithmetic (indexes and distances of positions) is exact.
-/

namespace Curvepy
namespace Accum

/-- `EMA._ema_scan` (`ema.py:39-53`). -/
def emaTfmR (fl : ℚ → ℚ) (alpha period : Option ℚ) (init : Option (ℚ → Option ℚ)) (minStep : ℚ) : Tfm :=
  fun src _ x y ema =>
    match y with
    | none => .ok ema
    | some y =>
      match ema with
      | none =>
        match init with
        | some f => .ok (f x)
        | none => .ok (some y)
      | some e =>
        match period with
        | some p =>
          match src.xPrevious (.fin x) (some minStep) with
          | .error er => .error er
          | .ok (some (.fin x0)) =>
            if p = 0 then .error .zeroDiv
            else .ok (some (fl (e + fl (|fl (fl (x - x0) / p)| * fl (y - e)))))
          | .ok _ => .error .type      -- `x - None`
        | none =>
          match alpha with
          | some a => .ok (some (fl (e + fl (a * fl (y - e)))))
          | none => .ok none           -- falls off the end

/-- Area between two knots (`integral.py:35-48`): `Line.set` (`line.py:36-63`) through two points, `Line.const`
(`line.py:17-19`, `line.py:65-66`) and `Line.partial_integration` (`line.py:74-84`).  Simplified: a line that is set to what
it was before is set again. -/
def segmentAreaR (fl : ℚ → ℚ) (mode : Interp) (x0 y0 x y : ℚ) : ℚ :=
  let (y1, y2) :=
    match mode with
    | .linear => (y0, y)
    | .previous => (y0, y0)
    | .next => (y, y)
  if x0 = x then 0
  else
    let slope := fl (fl (y2 - y1) / fl (x - x0))
    let const := fl (y1 + fl (slope * fl (0 - x0)))
    let ia := fl (fl (fl (slope * (1 / 2)) * fl (x0 ^ 2)) + fl (const * x0))
    let ib := fl (fl (fl (slope * (1 / 2)) * fl (x ^ 2)) + fl (const * x))
    fl (ib - ia)

/-- `Integral._integral_scan` (`integral.py:22-51`). -/
def integralTfmR (fl : ℚ → ℚ) (mode : Interp) : Tfm :=
  fun src acc x y sum =>
    match y with
    | none => .ok sum
    | some y =>
      let s := sum.getD 0
      match acc.xPrevious (.fin x) (some minStepQ) with
      | .error e => .error e
      | .ok none => .ok (some s)
      | .ok (some x0) =>
        match src.y x0, x0 with
        | .error e, _ => .error e
        | .ok none, _ => .ok (some s)
        | .ok (some y0), .fin x0 => .ok (some (fl (s + segmentAreaR fl mode x0 y0 x y)))
        | .ok (some _), _ => .error .overflow

/-- `Integral.y`: `scanned_y` adds the constant (`integral.py:16-20`). -/
def integralQueryR (fl : ℚ → ℚ) (mode : Interp) (const : ℚ) (A : Accum) (x : Ext) : Option (Out (Option ℚ)) :=
  (A.query (integralTfmR fl mode) x).map fun o => { o with res := o.res.map (Option.map fun v => fl (v + const)) }

end Accum
end Curvepy
