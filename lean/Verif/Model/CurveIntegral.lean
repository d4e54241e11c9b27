import Verif.Model.CurveScan

/-!
# `curvepy/integral.py` over any curve

The scan of `Model/CurveScan`, for transforms that also look at what was accumulated so far, and the integral.  Simplified
as there: the curve does not change, values that are not finite are not modelled (`overflow`), and a history ends with an
exception.
-/

namespace Curvepy

/-- A transform that looks at the accumulated points too. -/
abbrev ATfm := Pts ℚ → PTfm

namespace CScan

/-- The loop of `Scan.scan` (`scan.py:56-67`); the first number bounds the iterations, `none` means that they were
not enough.  The transform sees the accumulated points after their domain was read (`accumulator.py:41-43`). -/
def scanLoopBy (c : Crv) (t : ATfm) (x : ℚ) : ℕ → CScan → Option (Except Err CScan)
  | 0, _ => none
  | n + 1, A =>
    if A.current.all (fun k => decide (k < x)) then
      match A.nextPos c x with
      | .error e => some (.error e)
      | .ok (A, none) => some (.ok A)
      | .ok (A, some p) =>
        if !c.dom.contains p then some (.ok A)
        else
          match p with
          | .fin k =>
            if A.current.any (fun j => decide (k ≤ j)) then some (.error .exception)
            else
              match (c.y (.fin k) >>= rational) with
              | .error e => some (.error e)
              | .ok y =>
                match A.accumulate (t A.acc.touch) k y with
                | .error e => some (.error e)
                | .ok B => scanLoopBy c t x n { B with current := some k }
          | _ => some (.error .overflow)
    else some (.ok A)

/-- `Scan.y` (`scan.py:25-29`, `scan.py:52-67`) with `scanned_y` of `Accumulator` (`accumulator.py:21-22`). -/
def queryBy (c : Crv) (t : ATfm) (n : ℕ) (A : CScan) (x : Ext) : Option (Except Err (CScan × Option ℚ)) :=
  if !c.dom.contains x then some (.ok (A, none))
  else
    match x with
    | .fin q =>
      match scanLoopBy c t q n (if A.scanStart.any (fun s => decide (q < s)) then A.resetScan else A) with
      | none => none
      | some (.error e) => some (.error e)
      | some (.ok B) => some ((B.acc.y (.fin q)).map fun v => ({ B with acc := B.acc.touch }, v))
    | _ => some (.error .overflow)

/-- `Integral._integral_scan` (`integral.py:22-51`) over any curve. -/
def integralBy (c : Crv) (mode : Interp) : ATfm := fun acc x y sum =>
  match y with
  | none => .ok sum
  | some y =>
    let s := sum.getD 0
    match acc.xPrevious (.fin x) (some Accum.minStepQ) with
    | .error e => .error e
    | .ok none => .ok (some s)
    | .ok (some x0) =>
      match (c.y x0 >>= rational), x0 with
      | .error e, _ => .error e
      | .ok none, _ => .ok (some s)
      | .ok (some y0), .fin x0 =>
        match Accum.segmentArea mode x0 y0 x y with
        | .error e => .error e
        | .ok a => .ok (some (s + a))
      | .ok (some _), _ => .error .overflow

/-- `Integral.y`: `scanned_y` adds the constant (`integral.py:16-20`). -/
def integralY (c : Crv) (mode : Interp) (const : ℚ) (n : ℕ) (A : CScan) (x : Ext) :
    Option (Except Err (CScan × Option ℚ)) :=
  (A.queryBy c (integralBy c mode) n x).map fun r => r.map fun (B, v) => (B, v.map (· + const))

end CScan
end Curvepy
