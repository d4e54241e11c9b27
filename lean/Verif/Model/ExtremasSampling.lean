import Verif.Model.Extremas
import Verif.Model.PointsSampling

/-!
# Sampling of extremas (`curvepy/extremas.py:86-88`, `curvepy/scan.py:69-81`, `curvepy/curve.py:168-210`)

Every value asked for may scan further, so the state is handed on.  Loops have a fuel argument; `none` means that more steps are
needed.
-/

namespace Curvepy
namespace Extr

/-- What sampling gives: the state after it, and the points or an error. -/
abbrev Sampled := Option (Extr × Except Err (List (Pt ℚ)))

/-- A point is put before those that follow. -/
def ahead (p : Pt ℚ) : Sampled → Sampled := Option.map fun r => (r.1, r.2.map (p :: ·))

/-- The loop with a step (`curve.py:185-189`). -/
def gridLoop (b step : ℚ) : ℕ → Extr → ℚ → Sampled
  | 0, _, _ => none
  | n + 1, A, x =>
    if x ≤ b then
      match A.query (.fin x) with
      | none => none
      | some (A, .error e) => some (A, .error e)
      | some (A, .ok y) => ahead (x, y) (gridLoop b step n A (x + step))
    else some (A, .ok [])

/-- The loop along `x_next` (`curve.py:191-203`); `x` is the position to be looked at. -/
def walkLoop (m b : ℚ) (endBin : ℤ) : ℕ → Extr → Option Ext → Sampled
  | 0, _, _ => none
  | n + 1, A, some (.fin x) =>
    if x ≤ b then
      match A.query (.fin x) with
      | none => none
      | some (A, .error e) => some (A, .error e)
      | some (A, .ok y) =>
        match Pts.stepBin x m with
        | .error e => some (A, .error e)
        | .ok xBin =>
          if xBin = endBin then some (A, .ok [(x, y)])
          else
            match A.xNext x m with
            | .error e => some (A, .error e)
            | .ok (some (.fin x1)) =>
              match Pts.stepBin x1 m with
              | .error e => some (A, .error e)
              | .ok x1Bin =>
                if x1Bin ≤ xBin then some (A, .error .exception)
                else ahead (x, y) (walkLoop m b endBin n A (some (.fin x1)))
            | .ok _ => some (A, .ok [(x, y)])
    else some (A, .ok [])
  | _ + 1, A, _ => some (A, .ok [])

/-- The end of the domain is added if it is closed and not there yet (`curve.py:205-206`). -/
def closeWalk (A : Extr) (d : Iv) (b : ℚ) (ps : List (Pt ℚ)) : Sampled :=
  if d.hiOpen then some (A, .ok ps)
  else
    match ps.getLast? with
    | none => some (A, .error .index)
    | some p =>
      if p.1 = b then some (A, .ok ps)
      else
        match A.query (.fin b) with
        | none => none
        | some (A, .error e) => some (A, .error e)
        | some (A, .ok y) => some (A, .ok (ps ++ [(b, y)]))

/-- The first point, unless the domain is open there (`curve.py:180-183`). -/
def firstOf (A : Extr) (d : Iv) (a : ℚ) : Sampled :=
  if d.loOpen then some (A, .ok [])
  else
    match A.query (.fin a) with
    | none => none
    | some (A, .error e) => some (A, .error e)
    | some (A, .ok y) => some (A, .ok [(a, y)])

/-- `Curve.sample_points` from `a` to `b` (`curve.py:178-210`). -/
def curveSample (A : Extr) (d : Iv) (a b m : ℚ) (step : Option ℚ) (fuel : ℕ) : Sampled :=
  match Pts.stepBin b m with
  | .error e => some (A, .error e)
  | .ok endBin =>
    match firstOf A d a with
    | none => none
    | some (A, .error e) => some (A, .error e)
    | some (A, .ok ps) =>
      match step with
      | some st => (gridLoop b st fuel A (a + st)).map fun r => (r.1, r.2.map (ps ++ ·))
      | none =>
        if 0 < m then
          match A.xNext a m with
          | .error e => some (A, .error e)
          | .ok x =>
            match walkLoop m b endBin fuel A x with
            | none => none
            | some (A, .error e) => some (A, .error e)
            | some (A, .ok qs) => closeWalk A d b (ps ++ qs)
        else some (A, .error .exception)

/-- `Scan.sample_points` (`scan.py:69-81`) on the domain common with the own. -/
def scanSample (A : Extr) (d : Iv) (m : ℚ) (step : Option ℚ) (fuel : ℕ) : Sampled :=
  if d.isEmpty then some (A, .ok [])
  else
    match d.lo, d.hi with
    | .fin a, .fin b =>
      match A.scan a with
      | none => none
      | some (A, some e) => some (A, .error e)
      | some (A, none) =>
        match A.scan b with
        | none => none
        | some (A, some e) => some (A, .error e)
        | some (A, none) => curveSample A d a b m step fuel
    | _, _ => some (A, .error .exception)

/-- The domain to sample (`scan.py:71-74`). -/
def common (A : Extr) : Option Iv → Iv
  | none => A.src.domVal
  | some d => Iv.inter A.src.domVal d

/-- `Extremas.sample_points` (`extremas.py:86-88`).  The least step asked for is a number. -/
def samplePoints (A : Extr) (domain : Option Iv) (minStep : ℚ) (step : Option ℚ) (fuel : ℕ) : Sampled :=
  (scanSample A (A.common domain) (max minStep A.minStep) step fuel).map fun r =>
    (r.1, r.2.map (List.filter fun p => p.2.isSome))

end Extr
end Curvepy
