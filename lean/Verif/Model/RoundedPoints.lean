import Verif.Model.Points
import Verif.Model.Float

/-!
# `curvepy/points.py` with rounded arithmetic

The same functions as in `Model/Points`, but every operation rounds its result with `fl`; comparisons, `int`, `% 1.0`,
`math.ceil` and `math.floor` are exact.  All numbers are floats.
-/

namespace Curvepy
namespace Pts

/-- `Points.x_index` (`points.py:284-299`). -/
def xIndexR (fl : ℚ → ℚ) (s : Pts ℚ) (x : ℚ) : Except Err ℚ :=
  if s.isUniform then
    match s.interval with
    | none => .ok 0
    | some d =>
      match s.points with
      | [] => .error .index
      | p :: _ => if d = 0 then .error .zeroDiv else .ok (fl (fl (x - p.1) / d))
  else
    let i1 := bisect s.points x
    if i1 = 0 then .ok 0
    else if s.points.length ≤ i1 then .ok ((i1 : ℚ) - 1)
    else
      match s.points[i1 - 1]?, s.points[i1]? with
      | some p0, some p1 =>
        if fl (p1.1 - p0.1) = 0 then .error .zeroDiv
        else .ok (fl (fl ((i1 - 1 : ℕ) : ℚ) + fl (fl (x - p0.1) / fl (p1.1 - p0.1))))
      | _, _ => .error .index

/-- The value between two points (`points.py:240`). -/
def lerpR (fl : ℚ → ℚ) (u y1 y2 : ℚ) : ℚ := fl (fl (fl (1 - u) * y1) + fl (u * y2))

/-- `Points.y` (`points.py:227-246`). -/
def yR (fl : ℚ → ℚ) (s : Pts ℚ) (x : ℚ) : Except Err (Option ℚ) :=
  if !s.domVal.contains (.fin x) then .ok none
  else do
    let i_ ← s.xIndexR fl x
    let u := pyMod1 i_
    let i := pyInt i_
    if u = 0 then
      let p ← pyGet s.points i
      pure p.2
    else
      match s.interp with
      | .linear => do
        let p1 ← pyGet s.points i
        let p2 ← pyGet s.points (i + 1)
        match p1.2, p2.2 with
        | some y1, some y2 => pure (some (lerpR fl u y1 y2))
        | _, _ => pure none
      | .previous => do
        let p ← pyGet s.points i
        pure p.2
      | .next => do
        let p ← pyGet s.points (i + 1)
        pure p.2

/-- `Points.x_next` (`points.py:260-270`). -/
def xNextR (fl : ℚ → ℚ) (s : Pts ℚ) (x : ℚ) (minStep : Option ℚ) : Except Err (Option ℚ) :=
  if s.domVal.isEmpty then .ok none
  else
    match resolveMinStep s.minStep minStep with
    | none => .error .type
    | some m =>
      if !s.domVal.contains (.fin (fl (x + m))) (enforceStart := false) then .ok none
      else do
        let i ← s.xIndexR fl (fl (x + m))
        let p ← pyGet s.points (max 0 ⌈i⌉)
        pure (some p.1)

/-- `Points.x_previous` (`points.py:272-282`). -/
def xPreviousR (fl : ℚ → ℚ) (s : Pts ℚ) (x : ℚ) (minStep : Option ℚ) : Except Err (Option ℚ) :=
  if s.domVal.isEmpty then .ok none
  else
    match resolveMinStep s.minStep minStep with
    | none => .error .type
    | some m =>
      if !s.domVal.contains (.fin (fl (x - m))) (enforceEnd := false) then .ok none
      else do
        let i ← s.xIndexR fl (fl (x - m))
        let p ← pyGet s.points (min ((s.points.length : ℤ) - 1) ⌊i⌋)
        pure (some p.1)

/-- `Points._did_change_points` (`points.py:198-202`). -/
def intervalR (fl : ℚ → ℚ) (pts : List (Pt ℚ)) : Option ℚ :=
  match pts with
  | [] => none
  | [_] => none
  | p :: q :: ps => some (fl (fl (((q :: ps).getLast (by simp)).1 - p.1) / (((q :: ps).length : ℕ) : ℚ)))

/-- `Points._points_equally_spaced` (`points.py:204-225`). -/
def equallySpacedR (fl : ℚ → ℚ) (interval : Option ℚ) (old new : List (Pt ℚ)) : Except Err Bool :=
  if new.length = 0 ∨ old.length + new.length < 2 then .ok true
  else do
    let n0 ← pyGet new 0
    let nl ← pyGet new (-1)
    let (start, steps) ←
      if old.length ≠ 0 then do
        let ol ← pyGet old (-1)
        pure (ol.1, (new.length : ℚ))
      else pure (n0.1, (new.length : ℚ) - 1)
    let d ←
      match interval with
      | some d => pure d
      | none =>
        if old.length = 1 then do
          let ol ← pyGet old (-1)
          pure (fl (n0.1 - ol.1))
        else do
          let n1 ← pyGet new 1
          pure (fl (n1.1 - n0.1))
    pure (decide (nl.1 = fl (start + fl (d * steps))))

/-- A new `Points` with some points (`points.py:33-45`, `159-175`): `none` if equal spacing is demanded and the check
fails.  The observers and the open update are left out. -/
def newR (fl : ℚ → ℚ) (pts : List (Pt ℚ)) (i : Interp) (force : Bool) : Except Err (Pts ℚ) := do
  let eq ← equallySpacedR fl none [] pts
  if force && !eq then .error .exception
  else pure { interp := i, force := force, equal := eq, interval := intervalR fl pts, points := pts, minStep := none,
              cache := none, bIv := Iv.empty, eIv := Iv.empty }

end Pts
end Curvepy
