import Verif.Spec.Trend

/-!
# How a prediction takes its course

What has become of a prediction, told from the points of interest one after the other.
-/

namespace Curvepy
namespace Spec
open Trend

/-- Where a prediction stands. -/
inductive View where
  /-- The line was touched so often and has not been crossed. -/
  | waiting (touched : ℕ)
  /-- Crossed at `i`; the last extremum since then. -/
  | crossed (i : XY) (last : Option XY)
  /-- Crossed at `i`, touched again at `r`, the extremum before that at `x`, the last extremum of all, and whether one since `r` was beyond
  the line from the origin through `x`. -/
  | retested (i x r last : XY) (beyond : Bool)
  | failed
  | succeeded (p : XY)
deriving DecidableEq

namespace View

def decided : View → Bool
  | failed => true
  | succeeded _ => true
  | _ => false

variable (t : TLine) (o : XY)

/-- The line has to be touched again until here. -/
def retestLimit (i : XY) : ℚ := i.1 + (i.1 - o.1) / t.gold

/-- The target has to be reached until here. -/
def targetLimit (x : XY) : ℚ := x.1 + (x.1 - o.1) * t.gold

/-- The line from `o` through `x` at `z`. -/
def onward (x : XY) (z : ℚ) : ℚ := o.2 + (x.2 - o.2) / (x.1 - o.1) * (z - o.1)

/-- `p` is out of tolerance beyond the line from `o` through `x`. -/
def isBeyond (x p : XY) : Bool :=
  if t.upper then decide (t.tolMax (onward o x p.1) ≤ p.2) else decide (p.2 ≤ t.tolMin (onward o x p.1))

/-- `p` is at the target, within tolerance: the way from the crossing to the extremum, prolonged twice by the golden ratio. -/
def isReached (i x p : XY) : Bool :=
  if t.upper then decide (t.tolMin (i.2 + (x.2 - i.2) * t.gold ^ 2) ≤ p.2) else decide (p.2 ≤ t.tolMax (i.2 + (x.2 - i.2) * t.gold ^ 2))

/-- The next point of interest. -/
def see (v : View) (m : Mark) : View :=
  match v with
  | waiting n =>
    match m.kind with
    | .tangent => waiting (n + 1)
    | .extrema => v
    | .intersection => if n < t.minPoints then failed else crossed m.pt none
  | crossed i last =>
    match m.kind with
    | .extrema => crossed i (some m.pt)
    | .intersection => failed
    | .tangent =>
      if retestLimit t o i < m.pt.1 then failed
      else match last with
        | none => failed
        | some x => retested i x m.pt x false
  | retested i x r last b =>
    match m.kind with
    | .intersection => failed
    | .tangent => if retestLimit t o i < m.pt.1 then failed else retested i last m.pt last false
    | .extrema =>
      if b || isBeyond t o x m.pt then
        if isReached t i x m.pt then succeeded m.pt
        else if targetLimit t o x ≤ m.pt.1 then failed
        else retested i x r m.pt true
      else retested i x r m.pt false
  | v => v

/-- Time has come to `z`. -/
def late (z : ℚ) (v : View) : View :=
  match v with
  | crossed i _ => if retestLimit t o i ≤ z then failed else v
  | retested _ x _ _ _ => if targetLimit t o x ≤ z then failed else v
  | v => v

/-- A call with points of interest and underlying points: those before the last one of the call before are known already. -/
def attend (a : View × Option ℚ) (c : List Mark × List XY) : View × Option ℚ :=
  match c.1.getLast? with
  | none => a
  | some m =>
    let v := (c.1.filter fun m => a.2.all fun x => decide (x ≤ m.pt.1)).foldl (see t o) a.1
    if v.decided then (v, a.2)
    else
      match c.2.getLast? with
      | none => (v, some m.pt.1)
      | some u => (late t o u.1 v, some m.pt.1)

end View
end Spec
end Curvepy
