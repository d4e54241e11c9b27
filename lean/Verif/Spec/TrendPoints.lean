import Verif.Spec.Trend

/-!
# Points of interest of a trend line

Tangent points, intersections and extremas of a series of underlying points, defined over the series in the order
of time.
-/

namespace Curvepy
namespace Spec
open Trend

/-- How far along the line a position is. -/
def share (l : Chord) (x : ℚ) : ℚ := (x - l.1.1) / (l.2.1 - l.1.1)

/-- Height of a point over the line. -/
def offset (l : Chord) (p : XY) : ℚ := p.2 - ((1 - share l p.1) * l.1.2 + share l p.1 * l.2.2)

/-- The point is in the search interval and inside the band of tolerance. -/
def touching (t : TLine) (l : Chord) (p : XY) : Bool :=
  let s := share l p.1
  t.search.contains (.fin p.1) && decide ((1 - s) * t.tolMin l.1.2 + s * t.tolMin l.2.2 ≤ p.2 ∧
    p.2 ≤ (1 - s) * t.tolMax l.1.2 + s * t.tolMax l.2.2)

/-- Two points touch the line, or are on one side of it. -/
def together (t : TLine) (l : Chord) (p q : XY) : Bool :=
  (touching t l p && touching t l q) ||
    (!touching t l p && !touching t l q && !decide (offset l p * offset l q < 0))

/-- The longest stretches of a series in which all neighbours are related. -/
def runs (r : XY → XY → Bool) : List XY → List (List XY)
  | [] => []
  | p :: ps =>
    match runs r ps with
    | (q :: g) :: gs => if r p q then (p :: q :: g) :: gs else [p] :: (q :: g) :: gs
    | gs => [p] :: gs

/-- The first of the points closest to the line. -/
def nearest (l : Chord) : List XY → Option XY
  | [] => none
  | p :: ps =>
    match nearest l ps with
    | none => some p
    | some q => if |offset l q| < |offset l p| then some q else some p

/-- What an extremum is greatest in. -/
def height (l : Chord) (p : XY) : ℚ := if 0 < offset l p then p.2 else -p.2

/-- The last of the extreme points of a stretch on one side of the line. -/
def farthest (l : Chord) : List XY → Option XY
  | [] => none
  | p :: ps =>
    match farthest l ps with
    | none => some p
    | some q => if height l q < height l p then some p else some q

/-- Tangent points: one for each stretch that touches the line. -/
def tangentsOf (t : TLine) (l : Chord) (gs : List (List XY)) : List XY :=
  (gs.filter fun g => g.any (touching t l)).filterMap (nearest l)

/-- Extremas: one for each stretch on one side of the line. -/
def extremasOf (t : TLine) (l : Chord) (gs : List (List XY)) : List XY :=
  (gs.filter fun g => !g.any (touching t l)).filterMap (farthest l)

/-- Where the way from one point to another crosses the line, or half way between them if that is before the start of
the line. -/
def meet (l : Chord) (p q : XY) : XY :=
  let s := offset l p / (offset l p - offset l q)
  let x := p.1 + s * (q.1 - p.1)
  if x < l.1.1 then ((p.1 + q.1) / 2, (p.2 + q.2) / 2) else (x, p.2 + s * (q.2 - p.2))

/-- Crossings of a series of points that do not touch the line. -/
def crossings (l : Chord) : List XY → List XY
  | p :: q :: rest => (if offset l p * offset l q < 0 then [meet l p q] else []) ++ crossings l (q :: rest)
  | _ => []

/-- The point is in the search interval, not before the last known intersection and after the last known tangent
point. -/
def recent (t : TLine) (p : XY) : Bool :=
  t.search.contains (.fin p.1) && t.intersections.getLast?.all (fun i => decide (i.1 ≤ p.1)) &&
    t.tangents.getLast?.all (fun i => decide (i.1 < p.1))

/-- The last points, as long as they are recent. -/
def latest (t : TLine) (under : List XY) : List XY := (under.reverse.takeWhile (recent t)).reverse

/-- The known extremum may be exceeded by recent points. -/
def outdated (t : TLine) (e : XY) : Bool :=
  decide (t.search.lo ≤ .fin e.1) && t.intersections.getLast?.all (fun i => decide (i.1 ≤ e.1)) &&
    t.tangents.getLast?.all (fun i => decide (i.1 ≤ e.1))

/-- Known and new extremas: the last known one goes if it may be exceeded. -/
def extremasWith (t : TLine) (new : List XY) : List XY :=
  if new = [] then t.extremas
  else (if t.extremas.getLast?.any (outdated t) then t.extremas.dropLast else t.extremas) ++ new

/-- The search interval of a line. -/
def searchOf (t : TLine) : Iv :=
  match t.line, t.trend with
  | none, [p] => Iv.closed p.1 p.1
  | none, _ => Iv.empty
  | some l, _ =>
    if l.1.1 = l.2.1 then Iv.closed l.1.1 l.1.1
    else if t.searchRel ≤ 0 then Iv.closed l.1.1 l.2.1
    else
      match t.intersections with
      | i :: _ =>
        if l.1.1 < i.1 ∧ t.trend.length < t.minPoints then Iv.closedOpen l.1.1 i.1
        else Iv.closedOpen l.1.1 (l.1.1 + t.searchRel * (l.2.1 - l.1.1))
      | [] => Iv.closedOpen l.1.1 (l.1.1 + t.searchRel * (l.2.1 - l.1.1))

end Spec
end Curvepy
