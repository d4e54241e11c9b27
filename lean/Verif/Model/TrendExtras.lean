import Verif.Model.Trend

/-!
# `curvepy/trend.py`: extended lines and copies of lines
-/

namespace Curvepy
open Trend

namespace TLine

/-- `intersection_index` after it was brought into range (`trend.py:298-303`). -/
def pickIndex (n : ℤ) (i : ℤ) : ℤ :=
  if n ≠ 0 then if i < 0 then max 0 (n + i) else min i (n - 1) else i

/-- The end reaches the intersection (`trend.py:298-306`); the index is in range. -/
def reach (t : TLine) (x1 : ℚ) : Option ℤ → Except Err ℚ
  | none => .ok x1
  | some i =>
    if (t.intersections.length : ℤ) ≠ 0 then do
      let p ← pyGet t.intersections i
      pure (if p.1 > x1 then p.1 else x1)
    else .ok x1

/-- The multiple of the width and the bound on the width (`trend.py:307-310`). -/
def stretch (x0 x1 : ℚ) (mult bound : Option ℚ) : ℚ :=
  let x1 := match mult with
    | some k => x0 + (x1 - x0) * k
    | none => x1
  match bound with
  | some w => if x1 - x0 > w then x0 + w else x1
  | none => x1

/-- The end is before the next intersection (`trend.py:311-314`). -/
def cut (t : TLine) (x1 : ℚ) : Option ℤ → Except Err ℚ
  | none => .ok x1
  | some i =>
    if i + 1 < (t.intersections.length : ℤ) then do
      let p ← pyGet t.intersections (i + 1)
      pure (if p.1 < x1 then p.1 else x1)
    else .ok x1

/-- `line_extended` (`trend.py:293-316`). -/
def lineExtended (t : TLine) (mult bound : Option ℚ) (index : Option ℤ) : Except Err (Option Chord) :=
  match t.line with
  | none => .ok none
  | some l => do
    let i := index.map (pickIndex t.intersections.length)
    let x1 ← t.reach l.2.1 i
    let x1 ← t.cut (stretch l.1.1 x1 mult bound) i
    let y1 ← t.y x1
    pure (some (l.1, (x1, y1)))

/-- `__copy__` (`trend.py:353-371`).  The tolerance lines of a new line do not exist; reading one of them is an exception,
here as for lines that are `None`. -/
def copy (t : TLine) : Except Err TLine :=
  match t.line with
  | none => .error .type
  | some l => .ok { TLine.new t.minWidth t.upper t.minPoints t.minDist t.searchRel t.yRel t.yAbs t.gold with
      trend := t.trend, boundary := t.boundary, line := some l, search := t.search,
      intersections := t.intersections, tangents := t.tangents }

/-- `__len__` (`trend.py:342-343`). -/
def len (t : TLine) : ℕ := if t.isReady then 2 else 0

/-- `__iter__` (`trend.py:348-352`). -/
def iter (t : TLine) : List XY :=
  match t.line with
  | none => []
  | some l => [l.1, l.2]

end TLine
end Curvepy
