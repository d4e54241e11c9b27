import Verif.Model.Accumulator
import Verif.Model.Curve

/-!
# `curvepy/scan.py`, `curvepy/accumulator.py` over any curve; `Curve.rsi`

An accumulator over a curve that does not change, for transforms that look at their arguments only.  Values of
the curve that are not finite are not modelled (`overflow`).  A history ends with an exception: the state that a
failed scan leaves behind is not modelled.
-/

namespace Curvepy

/-- State of an `Accumulator` (`accumulator.py:9-19`, `scan.py:11-17`) without its source. -/
structure CScan where
  acc : Pts ℚ
  minStep : ℚ
  scanStart : Option ℚ
  current : Option ℚ

/-- `accumulator_transform(x, y, last_y)`. -/
abbrev PTfm := ℚ → Option ℚ → Option ℚ → Except Err (Option ℚ)

namespace CScan

/-- `Accumulator.__init__` (`accumulator.py:9-19`, `scan.py:11-17`). -/
def new (minStep : ℚ) (interp : Interp := .linear) (uniform : Bool := true) : CScan :=
  { acc := ((Pts.blank interp uniform).set [] none Accum.quiet).st, minStep := minStep,
    scanStart := none, current := none }

/-- A value as a rational number. -/
def rational : Option Num → Except Err (Option ℚ)
  | none => .ok none
  | some (.fin q) => .ok (some q)
  | some _ => .error .overflow

/-- `Accumulator.x_next` (`accumulator.py:32-34`); `Points.x_next` ignores the limit. -/
def xNext (c : Crv) (A : CScan) (x : Ext) (limit : Option Ext) : Except Err (Option Ext) := do
  let a ← A.acc.xNext x (some A.minStep)
  Accum.pyOr a (c.xNext x (some (.fin A.minStep)) limit)

/-- `Accumulator.reset_scan` (`accumulator.py:24-26`, `scan.py:48-50`). -/
def resetScan (A : CScan) : CScan :=
  { A with scanStart := none, current := none, acc := (A.acc.reset none Accum.quiet).st }

/-- `Scan.init_scan` (`scan.py:37-43`). -/
def initScan (c : Crv) (A : CScan) (x : ℚ) : Except Err (Option Ext) :=
  if c.dom.isEmpty || c.dom.isNegInf then .ok (some (.fin x))
  else if !c.dom.contains c.dom.lo then c.xNext c.dom.lo (some (.fin A.minStep)) none
  else .ok (some c.dom.lo)

/-- The position to process next (`scan.py:57-61`). -/
def nextPos (c : Crv) (A : CScan) (x : ℚ) : Except Err (CScan × Option Ext) :=
  match A.current with
  | none => do
    let p ← A.initScan c x
    pure ({ A with scanStart := Accum.finPart p }, p)
  | some k => do
    let p ← A.xNext c (.fin k) (some (.fin x))
    pure (A, p)

/-- `Accumulator._accumulate` (`accumulator.py:40-48`). -/
def accumulate (t : PTfm) (A : CScan) (x : ℚ) (y : Option ℚ) : Except Err CScan := do
  let last ← Accum.lastOf A.acc.touch x
  let v ← t x y last
  match (A.acc.touch.append (x, v) Accum.quiet).err with
  | some e => .error e
  | none => .ok { A with acc := (A.acc.touch.append (x, v) Accum.quiet).st }

/-- The loop of `Scan.scan` (`scan.py:56-67`); the first number bounds the iterations, `none` means that they were
not enough. -/
def scanLoop (c : Crv) (t : PTfm) (x : ℚ) : ℕ → CScan → Option (Except Err CScan)
  | 0, _ => none
  | n + 1, A =>
    if A.current.all (fun k => decide (k < x)) then
      match A.nextPos c x with
      | .error e => some (.error e)
      | .ok (A, none) => some (.ok A)
      | .ok (A, some p) =>
        if !c.dom.contains p then some (.ok A)
        else
          match p with
          | .fin k =>
            if A.current.any (fun j => decide (k ≤ j)) then some (.error .exception)
            else
              match (c.y (.fin k) >>= rational) with
              | .error e => some (.error e)
              | .ok y =>
                match A.accumulate t k y with
                | .error e => some (.error e)
                | .ok B => scanLoop c t x n { B with current := some k }
          | _ => some (.error .overflow)
    else some (.ok A)

/-- `Scan.scan` (`scan.py:52-67`). -/
def scan (c : Crv) (t : PTfm) (n : ℕ) (A : CScan) (x : ℚ) : Option (Except Err CScan) :=
  scanLoop c t x n (if A.scanStart.any (fun s => decide (x < s)) then A.resetScan else A)

/-- `Scan.y` (`scan.py:25-29`) with `scanned_y` of `Accumulator` (`accumulator.py:21-22`); the domain is that of the
source (`scan.py:8-9`). -/
def query (c : Crv) (t : PTfm) (n : ℕ) (A : CScan) (x : Ext) : Option (Except Err (CScan × Option ℚ)) :=
  if !c.dom.contains x then some (.ok (A, none))
  else
    match x with
    | .fin q =>
      match A.scan c t n q with
      | none => none
      | some (.error e) => some (.error e)
      | some (.ok B) => some ((B.acc.y (.fin q)).map fun v => ({ B with acc := B.acc.touch }, v))
    | _ => some (.error .overflow)

/-- `EMA._ema_scan` (`ema.py:39-53`) with `alpha` and without `init`. -/
def emaBy (a : ℚ) : PTfm := fun _ y ema =>
  match y, ema with
  | none, e => .ok e
  | some y, none => .ok (some y)
  | some y, some e => .ok (some (e + a * (y - e)))

end CScan

/-! ## RSI -/

/-- `Curve.differential` (`curve.py:671-675`). -/
def Crv.differential (c : Crv) (forward : Bool := false) : Except Err Crv :=
  c.map 2 fun x _ => c.dY x forward

/-- A curve that has the given value now: an EMA that was just asked. -/
def Crv.held (dom : Iv) (v : Option ℚ) : Crv where
  dom := dom
  minStep := none
  y _ := .ok (v.map .fin)
  xNext _ _ _ := .ok none
  xPrevious _ _ _ := .ok none

/-- `Curve.rsi(degree)`: the averaged curves, the fraction and the two averages (`curve.py:642-646`). -/
structure Rsi where
  up : Crv
  down : Crv
  alpha : ℚ
  gains : CScan
  losses : CScan

namespace Rsi

/-- `Curve.rsi` (`curve.py:642-646`) with `min_step` and `uniform` for the averages. -/
def new (c : Crv) (degree m : ℚ) (uniform : Bool := true) : Except Err Rsi := do
  let d ← c.differential
  let n ← d.neg
  if degree = 0 then .error .zeroDiv else pure ()
  return { up := Crv.max [.curve d, .number (.fin 0)]
           down := Crv.max [.curve n, .number (.fin 0)]
           alpha := 1 / degree
           gains := CScan.new m .linear uniform
           losses := CScan.new m .linear uniform }

/-- `rs` and `100 - 100 / (1 + rs)` (`curve.py:646-647`), given what the two averages are. -/
def formula (d1 d2 : Iv) (u d : Option ℚ) : Crv :=
  let rs := Crv.divideMany [.curve (.held d1 u), .curve (.held d2 d)]
  let one := Crv.addMany [.number (.fin 1), .curve rs]
  let q := Crv.divideMany [.number (.fin 100), .curve one]
  Crv.subtractMany [.number (.fin 100), .curve q]

/-- `rsi.y(x)`: the averages are asked first. -/
def query (n : ℕ) (R : Rsi) (x : Ext) : Option (Except Err (Rsi × Option Num)) :=
  match R.gains.query R.up (CScan.emaBy R.alpha) n x with
  | none => none
  | some (.error e) => some (.error e)
  | some (.ok (G, u)) =>
    match R.losses.query R.down (CScan.emaBy R.alpha) n x with
    | none => none
    | some (.error e) => some (.error e)
    | some (.ok (L, d)) =>
      some (((formula R.up.dom R.down.dom u d).y x).map fun v => ({ R with gains := G, losses := L }, v))

end Rsi
end Curvepy
