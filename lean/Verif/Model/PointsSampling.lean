import Verif.Model.Sampling

/-!
# `Points.sample_points` with steps (`curvepy/points.py:177-196`)

For values of any kind.  `Curve.sample_points` (`curvepy/curve.py:168-209`) is written here once more for a curve that is a list of points;
`Model/Sampling` has it for any curve, with numbers as values.  Loops have a fuel argument; `none` means that more steps are needed.
-/

namespace Curvepy
namespace Pts
variable {V : Type} [Lerp V]

/-- The condition for irregular sampling (`points.py:183`). -/
def irregular (s : Pts V) (minStep step : Option ℚ) : Bool :=
  match s.interval with
  | none => false
  | some i =>
    (match minStep with | some m => decide (m > i) | none => false) ||
      (match step with | some s => decide (s ≠ i) | none => false)

/-- `round(x / min_step)` (`curve.py:179`, `194`, `199`). -/
def stepBin (x m : ℚ) : Except Err ℤ := if m = 0 then .error .zeroDiv else .ok (pyRound (x / m))

/-- `end_bin` (`curve.py:178-179`). -/
def endBin (b : ℚ) : Option ℚ → Except Err ℤ
  | some m => stepBin b m
  | none => .ok 0

/-- The loop with a step (`curve.py:185-189`). -/
def regularLoop (s : Pts V) (b step : ℚ) : ℕ → ℚ → Option (Except Err (List (Pt V)))
  | 0, _ => none
  | n + 1, x =>
    if x ≤ b then
      match s.y (.fin x) with
      | .error e => some (.error e)
      | .ok y => (regularLoop s b step n (x + step)).map fun r => r.map ((x, y) :: ·)
    else some (.ok [])

/-- The loop along `x_next` (`curve.py:191-202`); `x` is the position to be looked at. -/
def stepsLoop (s : Pts V) (m b : ℚ) (endBin : ℤ) : ℕ → Option Ext → Option (Except Err (List (Pt V)))
  | 0, _ => none
  | n + 1, some (.fin x) =>
    if x ≤ b then
      match s.y (.fin x), stepBin x m with
      | .error e, _ => some (.error e)
      | .ok _, .error e => some (.error e)
      | .ok y, .ok xBin =>
        if xBin = endBin then some (.ok [(x, y)])
        else
          match s.xNext (.fin x) (some m) with
          | .error e => some (.error e)
          | .ok (some (.fin x1)) =>
            match stepBin x1 m with
            | .error e => some (.error e)
            | .ok x1Bin =>
              if x1Bin ≤ xBin then some (.error .exception)
              else (stepsLoop s m b endBin n (some (.fin x1))).map fun r => r.map ((x, y) :: ·)
          | .ok _ => some (.ok [(x, y)])
    else some (.ok [])
  | _ + 1, _ => some (.ok [])

/-- The end of the domain is added if it is closed and not there yet (`curve.py:204-205`). -/
def closeSample (s : Pts V) (d : Iv) (b : ℚ) (ps : List (Pt V)) : Except Err (List (Pt V)) :=
  if d.hiOpen then .ok ps
  else
    match ps.getLast? with
    | none => .error .index
    | some p =>
      if p.1 = b then .ok ps
      else
        match s.y (.fin b) with
        | .error e => .error e
        | .ok y => .ok (ps ++ [(b, y)])

/-- `Curve.sample_points` on the common domain `d` (`curve.py:174-209`). -/
def curveSample (s : Pts V) (d : Iv) (minStep step : Option ℚ) (fuel : ℕ) : Option (Except Err (List (Pt V))) :=
  if d.isEmpty then some (.ok [])
  else
    match d.lo, d.hi with
    | .fin a, .fin b =>
      match endBin b minStep with
      | .error e => some (.error e)
      | .ok eb =>
        match (if d.loOpen then .ok [] else (s.y (.fin a)).map fun y => [(a, y)]) with
        | .error e => some (.error e)
        | .ok ps =>
          match step, minStep with
          | some st, _ => (regularLoop s b st fuel (a + st)).map fun r => r.map (ps ++ ·)
          | none, some m =>
            if 0 < m then
              match s.xNext (.fin a) (some m) with
              | .error e => some (.error e)
              | .ok x =>
                (stepsLoop s m b eb fuel x).map fun r =>
                  match r with
                  | .error e => .error e
                  | .ok qs => closeSample s d b (ps ++ qs)
            else some (.error .exception)
          | none, none => some (.error .exception)
    | _, _ => some (.error .exception)

/-- `Points.sample_points` (`points.py:177-196`). -/
def samplePoints (s : Pts V) (domain : Option Iv) (minStep step : Option ℚ) (fuel : ℕ) : Option (Except Err (List (Pt V))) :=
  let d := domain.getD Iv.infinite
  if s.domVal.isEmpty then some (.ok [])
  else if s.irregular minStep step then curveSample s (Iv.inter s.domVal d) (resolveMinStep s.minStep minStep) step fuel
  else some (s.samplePlain d)

end Pts
end Curvepy
