import Verif.Model.Sma
import Verif.Model.RoundedAverages

/-!
# `curvepy/sma.py` with rounded arithmetic

`SMA` when every operation on values rounds its result with `fl`, also the lengths by which areas are divided.  Where windows
begin and end is found with exact arithmetic, as in `Model/Sma`, whose definitions are used for all that has no values in it.
-/

namespace Curvepy

namespace Sma
open Accum

/-- The loop of `Scan.scan` (`scan.py:56-67`), like `Sma.smaLoop`. -/
def smaLoopR (fl : ℚ → ℚ) (x : ℚ) (s : Option Ext) : ℕ → Accum → Option (Out Unit)
  | 0, _ => none
  | n + 1, A =>
    if A.current.all (fun c => decide (c < x)) then
      match smaNext s A with
      | (A, .error e) => some ⟨A, [], .error e⟩
      | (A, .ok none) => some ⟨A, [], .ok ()⟩
      | (A, .ok (some c)) =>
        let A := { A with src := A.src.touch }
        if !A.src.domVal.contains c then some ⟨A, [], .ok ()⟩
        else
          match c with
          | .fin c =>
            if A.current.any (fun k => decide (c ≤ k)) then some ⟨A, [], .error .exception⟩
            else
              match A.src.y (.fin c) with
              | .error e => some ⟨A, [], .error e⟩
              | .ok y =>
                let r := accumulate (integralTfmR fl .linear) A c y
                match r.res with
                | .error e => some ⟨r.st, r.calls, .error e⟩
                | .ok _ =>
                  match smaLoopR fl x s n { r.st with current := some c } with
                  | none => none
                  | some o => some ⟨o.st, r.calls ++ o.calls, o.res⟩
          | _ => some ⟨A, [], .error .overflow⟩
    else some ⟨A, [], .ok ()⟩

/-- `Scan.scan` (`scan.py:52-67`) with `offset_scan` of `SMA` (`sma.py:64-65`). -/
def smaScanR (fl : ℚ → ℚ) (w : Window) (A : Accum) (x : ℚ) : Option (Out Unit) :=
  match smaStart A.src w A.minStep x with
  | .error e => some ⟨A, [], .error e⟩
  | .ok s =>
    match finPart s, A.scanStart with
    | none, some _ => some ⟨A, [], .error .type⟩      -- `None < scan_start`
    | some q, some c =>
      let A := if q < c then A.resetScan else A
      smaLoopR fl x s (A.src.points.length + 2) A
    | _, none => smaLoopR fl x s (A.src.points.length + 2) A

/-- `super().y(x)`: `Scan.y` (`scan.py:25-29`) with `Integral.scanned_y` (`integral.py:16-20`, `const = 0`). -/
def superYR (fl : ℚ → ℚ) (w : Window) (A : Accum) (x : ℚ) : Option (Out (Option ℚ)) :=
  let go (A : Accum) : Option (Out (Option ℚ)) :=
    match smaScanR fl w A x with
    | none => none
    | some o =>
      match o.res with
      | .error e => some ⟨o.st, o.calls, .error e⟩
      | .ok _ => some ⟨{ o.st with acc := o.st.acc.touch }, o.calls,
          (o.st.acc.y (.fin x)).map (Option.map fun v => fl (v + 0))⟩
  let A := { A with src := A.src.touch }
  if A.src.domVal.contains (.fin x) then go A
  else
    match smaTouch w A with
    | (A, .error e) => some ⟨A, [], .error e⟩
    | (A, .ok d) => if d.contains (.fin x) then go A else some ⟨A, [], .ok none⟩

/-- `SMA.y` (`sma.py:67-110`). -/
def smaYR (fl : ℚ → ℚ) (w : Window) : ℕ → Accum → Ext → Option (Out (Option ℚ))
  | 0, A, _ => answer A (.error .recursion)
  | fuel + 1, A, x =>
    match smaTouch w A with
    | (A, .error e) => answer A (.error e)
    | (A, .ok d) =>
      if !d.contains x then answer A (.ok none)
      else
        match x with
        | .fin x =>
          match smaStart A.src w A.minStep x with
          | .error e => answer A (.error e)
          | .ok s =>
            match finPart s with
            | none => answer A (.error .type)      -- `None + period`
            | some x0 =>
              match smaEnd A.src w A.minStep x0 with
              | .error e => answer A (.error e)
              | .ok e =>
                if x0 = x || finPart e = some x0 then answer A (A.src.y (.fin x))
                else
                  whenSome (superYR fl w A x0) fun A y0 =>
                    match finPart e with
                    | none => answer A (.error .type)      -- `domain.contains(None)`
                    | some x1 =>
                      whenSome (superYR fl w A x1) fun A y1 =>
                        let sma1 := fl (fl (y1 - y0) / fl (x1 - x0))
                        if x = x1 then answer A (.ok (some sma1))
                        else if x1 < x then
                          match A.src.xNext (.fin x1) (some A.minStep) with
                          | .error e => answer A (.error e)
                          | .ok e2 =>
                            match finPart e2 with
                            | none => answer A (.error .type)
                            | some x2 =>
                              if x2 = x then answer A (.ok (some sma1))
                              else
                                whenSome (smaYR fl w fuel A (.fin x2)) fun A sma2 =>
                                  let u := fl (fl (x - x1) / fl (x2 - x1))
                                  answer A (.ok (some (fl (fl (u * sma2) + fl (fl (1 - u) * sma1)))))
                        else
                          match A.src.xPrevious (.fin x1) (some A.minStep) with
                          | .error e => answer A (.error e)
                          | .ok e01 =>
                            match finPart e01 with
                            | none => answer A (.error .type)
                            | some x01 =>
                              if x01 = x then answer A (.ok (some sma1))
                              else
                                whenSome (smaYR fl w fuel A (.fin x01)) fun A sma01 =>
                                  let u := fl (fl (x - x01) / fl (x1 - x01))
                                  answer A (.ok (some (fl (fl (u * sma01) + fl (fl (1 - u) * sma1)))))
        | _ => answer A (.error .overflow)      -- the domain is finite

end Sma
end Curvepy
