import Verif.Model.RoundedCurve
import Verif.Model.CurveScan

/-!
# Arithmetic of curves and the relative strength index with rounding

The functions that combine values, when every operation rounds its result with `fl`, and `Curve.rsi` made of them.  The
accumulators that the averages use are those of `Model/CurveScan`: their own arithmetic is exact.
-/

namespace Curvepy
namespace Crv

/-- `add_f` (`curve.py:745-749`). -/
def addFR (fl : ℚ → ℚ) (ys : List (Option Num)) : Option Num :=
  match allDefined ys with
  | none => none
  | some vs => some (vs.foldl (fun r y => (Num.add r y).rounded fl) (.fin 0))

/-- `sub_f` (`curve.py:758-767`). -/
def subFR (fl : ℚ → ℚ) : List (Option Num) → Option Num → Option Num
  | [], r => some (r.getD (.fin 0))
  | none :: _, _ => none
  | some y :: ys, none => subFR fl ys (some y)
  | some y :: ys, some r => subFR fl ys (some ((Num.sub r y).rounded fl))

/-- `mult_f` (`curve.py:776-782`). -/
def multFR (fl : ℚ → ℚ) : List (Option Num) → Num → Option Num
  | [], r => some r
  | none :: _, _ => none
  | some y :: ys, r => multFR fl ys ((Num.mul r y).rounded fl)

/-- `div_f` (`curve.py:791-802`). -/
def divFR (fl : ℚ → ℚ) : List (Option Num) → Option Num → Except Err (Option Num)
  | [], r => .ok (some (r.getD (.fin 0)))
  | none :: _, _ => .ok none
  | some y :: ys, none => divFR fl ys (some y)
  | some y :: ys, some r =>
    if y = .fin 0 then divFR fl ys (some (if Num.le (.fin 0) r then .pinf else .ninf))
    else
      match Num.div r y with
      | .ok q => divFR fl ys (some (q.rounded fl))
      | .error e => .error e

/-- `Curve.add_many` (`curve.py:739-750`). -/
def addManyR (fl : ℚ → ℚ) (args : List Arg) : Crv := aggregate (args.map parse) fun _ ys => .ok (addFR fl ys)

/-- `Curve.subtract_many` (`curve.py:752-768`). -/
def subtractManyR (fl : ℚ → ℚ) (args : List Arg) : Crv := aggregate (args.map parse) fun _ ys => .ok (subFR fl ys none)

/-- `Curve.multiply_many` (`curve.py:770-783`). -/
def multiplyManyR (fl : ℚ → ℚ) (args : List Arg) : Crv := aggregate (args.map parse) fun _ ys => .ok (multFR fl ys (.fin 1))

/-- `Curve.divide_many` (`curve.py:785-803`). -/
def divideManyR (fl : ℚ → ℚ) (args : List Arg) : Crv := aggregate (args.map parse) fun _ ys => divFR fl ys none

end Crv

/-- `EMA._ema_scan` (`ema.py:39-53`) with `alpha` and without `init`. -/
def CScan.emaByR (fl : ℚ → ℚ) (a : ℚ) : PTfm := fun _ y ema =>
  match y, ema with
  | none, e => .ok e
  | some y, none => .ok (some y)
  | some y, some e => .ok (some (fl (e + fl (a * fl (y - e)))))

namespace Rsi

/-- `Curve.rsi` (`curve.py:642-646`) with `min_step` and `uniform` for the averages. -/
def newR (fl : ℚ → ℚ) (c : Crv) (degree m : ℚ) (uniform : Bool := true) : Except Err Rsi := do
  let d ← c.differentialR fl
  let n ← d.neg
  if degree = 0 then .error .zeroDiv else pure ()
  return { up := Crv.max [.curve d, .number (.fin 0)]
           down := Crv.max [.curve n, .number (.fin 0)]
           alpha := fl (1 / degree)
           gains := CScan.new m .linear uniform
           losses := CScan.new m .linear uniform }

/-- `rs` and `100 - 100 / (1 + rs)` (`curve.py:646-647`), given what the two averages are. -/
def formulaR (fl : ℚ → ℚ) (d1 d2 : Iv) (u d : Option ℚ) : Crv :=
  let rs := Crv.divideManyR fl [.curve (.held d1 u), .curve (.held d2 d)]
  let one := Crv.addManyR fl [.number (.fin 1), .curve rs]
  let q := Crv.divideManyR fl [.number (.fin 100), .curve one]
  Crv.subtractManyR fl [.number (.fin 100), .curve q]

/-- `rsi.y(x)`: the averages are asked first. -/
def queryR (fl : ℚ → ℚ) (n : ℕ) (R : Rsi) (x : Ext) : Option (Except Err (Rsi × Option Num)) :=
  match R.gains.query R.up (CScan.emaByR fl R.alpha) n x with
  | none => none
  | some (.error e) => some (.error e)
  | some (.ok (G, u)) =>
    match R.losses.query R.down (CScan.emaByR fl R.alpha) n x with
    | none => none
    | some (.error e) => some (.error e)
    | some (.ok (L, d)) =>
      some (((formulaR fl R.up.dom R.down.dom u d).y x).map fun v => ({ R with gains := G, losses := L }, v))

end Rsi
end Curvepy
