import Verif.Model.Line
import Verif.Model.Trend

/-!
# Lines with rounded arithmetic

`Line` and the lines of trends when every operation rounds its result with `fl`.  Infinities and `nan` are not rounded;
overflow and underflow are left out, as everywhere.
-/

namespace Curvepy

/-- The result of an operation, rounded if it is a number. -/
def Num.rounded (fl : ℚ → ℚ) : Num → Num
  | .fin q => .fin (fl q)
  | n => n

namespace Line

/-- The slope through two points (`line.py:47-53`). -/
def slopeR (fl : ℚ → ℚ) (p q : ℚ × ℚ) : Num :=
  if q.1 ≠ p.1 then .fin (fl (fl (q.2 - p.2) / fl (q.1 - p.1)))
  else if p.2 ≤ q.2 then .pinf
  else .ninf

/-- The parameters of a line through two points, as `Line.set` (`line.py:36-63`) works them out.  Simplified: both points
are given (see `Line.params` for the other arguments, which need no arithmetic). -/
def throughR (fl : ℚ → ℚ) (p q : ℚ × ℚ) : LineData := ⟨p, slopeR fl p q⟩

/-- `Line.y` (`line.py:65-66`). -/
def yR (fl : ℚ → ℚ) (d : LineData) (x : Num) : Num :=
  (Num.add (.fin d.ref.2) ((Num.mul d.slope ((Num.sub x (.fin d.ref.1)).rounded fl)).rounded fl)).rounded fl

/-- `Line.x` (`line.py:71-72`). -/
def xR (fl : ℚ → ℚ) (d : LineData) (y : Num) : Except Err Num := do
  let q ← Num.div ((Num.sub y (.fin d.ref.2)).rounded fl) d.slope
  pure ((Num.add (.fin d.ref.1) (q.rounded fl)).rounded fl)

end Line

open Trend

/-- `_line_y` (`trend.py:1021-1031`). -/
def lineYR (fl : ℚ → ℚ) (l : Chord) (x : ℚ) : Option ℚ :=
  if l.2.1 = l.1.1 then
    if l.1.1 = x then some l.1.2 else none
  else
    let m := fl (fl (l.2.2 - l.1.2) / fl (l.2.1 - l.1.1))
    some (fl (l.1.2 + fl (m * fl (x - l.1.1))))

namespace TLine

/-- `_value_tolerance_min` (`trend.py:840-852`). -/
def tolMinR (fl : ℚ → ℚ) (t : TLine) (y : ℚ) : ℚ :=
  let m := t.yAbs.map fun a => fl (y - a)
  let m := match t.yRel with
    | some r =>
      if |y| > eps then
        match m with
        | none => some (fl (y * fl (1 - r)))
        | some m => some (max m (fl (y * fl (1 - r))))
      else m
    | none => m
  m.getD y

/-- `_value_tolerance_max` (`trend.py:854-866`). -/
def tolMaxR (fl : ℚ → ℚ) (t : TLine) (y : ℚ) : ℚ :=
  let m := t.yAbs.map fun a => fl (y + a)
  let m := match t.yRel with
    | some r =>
      if |y| > eps then
        match m with
        | none => some (fl (y * fl (1 + r)))
        | some m => some (min m (fl (y * fl (1 + r))))
      else m
    | none => m
  m.getD y

/-- `_calculate_trend_tolerance_line` (`trend.py:878-894`). -/
def tolLineR (fl : ℚ → ℚ) (t : TLine) (upper : Bool) : Except Err (Option Chord) :=
  if t.trend.length < 2 then .ok none
  else do
    let l ← need t.line
    if upper then pure (some ((l.1.1, t.tolMaxR fl l.1.2), (l.2.1, t.tolMaxR fl l.2.2)))
    else pure (some ((l.1.1, t.tolMinR fl l.1.2), (l.2.1, t.tolMinR fl l.2.2)))

/-- `is_point_on_trend` (`trend.py:384-387`), `_y_min` and `_y_max` (`trend.py:868-872`). -/
def onTrendR (fl : ℚ → ℚ) (t : TLine) (p : XY) : Except Err Bool :=
  if t.line.isNone || !t.search.contains (.fin p.1) then .ok false
  else do
    let low ← need t.tolLower
    let lo ← need (lineYR fl low p.1)
    if p.2 ≥ lo then do
      let upp ← need t.tolUpper
      let hi ← need (lineYR fl upp p.1)
      pure (decide (p.2 ≤ hi))
    else pure false

/-- `is_line_coincident` (`trend.py:391-395`). -/
def lineCoincidentR (fl : ℚ → ℚ) (t other : TLine) : Except Err Bool := do
  let l ← need other.line
  if !(← t.onTrendR fl l.1) then pure false
  else if !(← t.onTrendR fl l.2) then pure false
  else pure true

end TLine
end Curvepy
