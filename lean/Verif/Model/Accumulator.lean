import Verif.Model.Points
import Verif.Model.PointsSampling
import Verif.Spec.History

/-!
# `curvepy/scan.py`, `curvepy/accumulator.py`

An accumulator over a `Points` source.  Positions are finite (the domain of `Points` is).
Reads of `self.curve.domain` and `self.accumulated_points.domain` fill those caches (`touch`).
`accumulated_points` has no observers.

The transform given by a subclass reads the source and the accumulated points; it is a
function of both states.  `Integral._line` is scratch space: it is set before it is read.
-/

namespace Curvepy

/-- `accumulator_transform(x, y, last_y)`; it may read `self.curve` and
`self.accumulated_points`. -/
abbrev Tfm := Pts ℚ → Pts ℚ → ℚ → Option ℚ → Option ℚ → Except Err (Option ℚ)

/-- One call of the transform: `x`, `y`, `last_y`. -/
abbrev TCall := ℚ × Option ℚ × Option ℚ

/-- State of an `Accumulator` (`accumulator.py:9-19`, `scan.py:11-17`, `curve.py:50-57`)
together with its source. -/
structure Accum where
  src : Pts ℚ
  acc : Pts ℚ
  minStep : ℚ
  scanStart : Option ℚ
  current : Option ℚ
  cache : Option Iv
  bIv : Iv
  eIv : Iv

namespace Accum

/-- Nobody observes `accumulated_points`. -/
def quiet : Pts.Reads := ⟨false, false⟩

/-- `Accumulator.__init__` (`accumulator.py:9-19`, `scan.py:11-17`). -/
def new (src : Pts ℚ) (minStep : ℚ) (interp : Interp := .linear) (uniform : Bool := true) : Accum :=
  { src := src, acc := ((Pts.blank interp uniform).set [] none quiet).st, minStep := minStep,
    scanStart := none, current := none, cache := none, bIv := Iv.empty, eIv := Iv.empty }

/-- `self.domain` with `get_domain = self.curve.domain` (`scan.py:8-9`, `curve.py:36-40`). -/
def domVal (A : Accum) : Iv := A.cache.getD A.src.domVal

/-- Reading `self.domain`. -/
def touch (A : Accum) : Accum :=
  match A.cache with
  | some _ => A
  | none => { A with src := A.src.touch, cache := some A.src.domVal }

/-- `a or b` for optional positions: `0` counts as false. -/
def pyOr (a : Option Ext) (b : Except Err (Option Ext)) : Except Err (Option Ext) :=
  match a with
  | some x => if x = .fin 0 then b else .ok (some x)
  | none => b

/-- `Accumulator.x_next` (`accumulator.py:32-34`). -/
def xNext (A : Accum) (x : Ext) (arg : ℚ) : Except Err (Option Ext) := do
  let m := Pts.resolveMinStep (some A.minStep) (some arg)
  let a ← A.acc.xNext x m
  pyOr a (A.src.xNext x m)

/-- `Accumulator.x_previous` (`accumulator.py:28-30`). -/
def xPrevious (A : Accum) (x : Ext) (arg : ℚ) : Except Err (Option Ext) := do
  let m := Pts.resolveMinStep (some A.minStep) (some arg)
  let a ← A.acc.xPrevious x m
  pyOr a (A.src.xPrevious x m)

/-- `Accumulator.reset_scan` (`accumulator.py:24-26`, `scan.py:48-50`).  `reset()` is
`set([])`, which does not raise (`reset_none_ok`). -/
def resetScan (A : Accum) : Accum :=
  { A with scanStart := none, current := none, acc := (A.acc.reset none quiet).st }

/-- `Scan.init_scan` (`scan.py:37-43`). -/
def initScan (A : Accum) (x : ℚ) : Accum × Except Err (Option Ext) :=
  let A := { A with src := A.src.touch }
  if A.src.domVal.isEmpty || A.src.domVal.isNegInf then (A, .ok (some (.fin x)))
  else
    let x0 := A.src.domVal.lo
    let A := A.touch
    if !A.domVal.contains x0 then (A, A.src.xNext x0 (some A.minStep))
    else (A, .ok (some x0))

/-- The finite part of a position (the positions handled here are finite). -/
def finPart : Option Ext → Option ℚ
  | some (.fin q) => some q
  | _ => none

/-- The position to process next (`scan.py:57-61`). -/
def nextPos (A : Accum) (x : ℚ) : Accum × Except Err (Option Ext) :=
  match A.current with
  | none =>
    match A.initScan x with
    | (A, .error e) => (A, .error e)
    | (A, .ok p) => ({ A with scanStart := finPart p }, .ok p)
  | some c => (A, A.xNext (.fin c) A.minStep)

/-- Outcome of `_accumulate`, of a scan, or of a query. -/
structure Out (α : Type) where
  st : Accum
  calls : List TCall
  res : Except Err α

/-- `last_x`, `last_y` (`accumulator.py:41-46`) after `accumulated_points.domain` was read. -/
def lastOf (acc : Pts ℚ) (x : ℚ) : Except Err (Option ℚ) :=
  if acc.domVal.isEmpty then .ok none
  else if acc.domVal.hi < .fin x then acc.y acc.domVal.hi
  else .error .assertion

/-- `Accumulator._accumulate` (`accumulator.py:40-48`). -/
def accumulate (t : Tfm) (A : Accum) (x : ℚ) (y : Option ℚ) : Out Unit :=
  let A := { A with acc := A.acc.touch }
  match lastOf A.acc x with
  | .error e => ⟨A, [], .error e⟩
  | .ok last =>
    match t A.src A.acc x y last with
    | .error e => ⟨A, [(x, y, last)], .error e⟩
    | .ok v =>
      let r := A.acc.append (x, v) quiet
      match r.err with
      | some e => ⟨{ A with acc := r.st }, [(x, y, last)], .error e⟩
      | none => ⟨{ A with acc := r.st }, [(x, y, last)], .ok ()⟩

/-- The loop of `Scan.scan` (`scan.py:56-67`); the first argument bounds the iterations,
`none` means that they were not enough. -/
def scanLoop (t : Tfm) (x : ℚ) : ℕ → Accum → Option (Out Unit)
  | 0, _ => none
  | n + 1, A =>
    -- `continue_scan`: `self.current < x` (`scan.py:34-35`)
    if A.current.all (fun c => decide (c < x)) then
      match A.nextPos x with
      | (A, .error e) => some ⟨A, [], .error e⟩
      | (A, .ok none) => some ⟨A, [], .ok ()⟩
      | (A, .ok (some c)) =>
        let A := { A with src := A.src.touch }
        if !A.src.domVal.contains c then some ⟨A, [], .ok ()⟩
        else
          match c with
          | .fin c =>
            if A.current.any (fun k => decide (c ≤ k)) then some ⟨A, [], .error .exception⟩
            else
              match A.src.y (.fin c) with
              | .error e => some ⟨A, [], .error e⟩
              | .ok y =>
                let r := accumulate t A c y
                match r.res with
                | .error e => some ⟨r.st, r.calls, .error e⟩
                | .ok _ =>
                  match scanLoop t x n { r.st with current := some c } with
                  | none => none
                  | some o => some ⟨o.st, r.calls ++ o.calls, o.res⟩
          | _ => some ⟨A, [], .error .overflow⟩
    else some ⟨A, [], .ok ()⟩

/-- `Scan.scan` (`scan.py:52-67`) with the identity `offset_scan`.  Every iteration but the
last processes one more knot. -/
def scan (t : Tfm) (A : Accum) (x : ℚ) : Option (Out Unit) :=
  let A := if A.scanStart.any (fun s => decide (x < s)) then A.resetScan else A
  scanLoop t x (A.src.points.length + 2) A

/-- `Scan.y` (`scan.py:25-29`) with `scanned_y` of `Accumulator` (`accumulator.py:21-22`). -/
def query (t : Tfm) (A : Accum) (x : Ext) : Option (Out (Option ℚ)) :=
  let A := { A with src := A.src.touch }
  let (A, inside) :=
    if A.src.domVal.contains x then (A, true)
    else
      let A := A.touch
      (A, A.domVal.contains x)
  if !inside then some ⟨A, [], .ok none⟩
  else
    match x with
    | .fin q =>
      match A.scan t q with
      | none => none
      | some o =>
        match o.res with
        | .error e => some ⟨o.st, o.calls, .error e⟩
        | .ok _ => some ⟨{ o.st with acc := o.st.acc.touch }, o.calls, o.st.acc.y (.fin q)⟩
    | _ => some ⟨A, [], .error .overflow⟩

/-! ## Updates -/

/-- `Scan._update_interval` (`scan.py:113-114`). -/
def updateInterval (d : Iv) : Iv := ⟨d.lo, .pinf, d.loOpen, true⟩

/-- `Curve.begin_update` on the accumulator's own state (`curve.py:433-444`), with the
interval passed on to its observers, if any. -/
def gateBegin (A : Accum) (d : Iv) : Accum × List Iv :=
  if d.isEmpty || A.bIv.superset d then (A, [])
  else ({ A with bIv := Iv.union A.bIv d }, [d])

/-- `Curve.end_update` on the accumulator's own state (`curve.py:446-466`). -/
def gateEnd (A : Accum) (d : Iv) : Accum × List Iv :=
  if d.isEmpty || A.eIv.superset d then (A, [])
  else
    let e := Iv.union A.eIv d
    if !e.superset A.bIv then ({ A with eIv := e }, [])
    else ({ A with bIv := Iv.empty, eIv := Iv.empty, cache := none }, [e])

/-- An edit of the source reaches the already scanned part (`scan.py:101-102`). -/
def touches (d : Iv) (c : ℚ) : Bool := decide (d.lo < .fin c) || (decide (d.lo = .fin c) && !d.loOpen)

/-- `Accumulator.begin_update` (`accumulator.py:36-38`); the exception is the one of
`accumulated_points.reset`. -/
def beginUpdate (A : Accum) (d : Iv) : Accum × List Iv × Option Err :=
  let r := A.acc.reset (some d) quiet
  match r.err with
  | some e => ({ A with acc := r.st }, [], some e)
  | none =>
    let B := { A with acc := r.st }.gateBegin d
    (B.1, B.2, none)

/-- `scan.py:100-102`. -/
def dropScanned (A : Accum) (d : Iv) : Accum :=
  if A.current.any (fun c => touches d c) then A.resetScan else A

/-- `scan.py:104-105`. -/
def dropBackwards (A : Accum) : Accum :=
  match A.current, A.scanStart with
  | some c, some s => if c < s then A.resetScan else A
  | _, _ => A

/-- `Scan.begin_scan_update` (`scan.py:98-107`). -/
def onBegin (A : Accum) (d : Iv) : Accum × List Iv × Option Err :=
  let d := updateInterval d
  (A.dropScanned d).dropBackwards.beginUpdate d

/-- `Scan.end_scan_update` (`scan.py:109-111`). -/
def onEnd (A : Accum) (d : Iv) : Accum × List Iv := A.gateEnd (updateInterval d)

/-- One notification of the source. -/
def notify (A : Accum) (e : Pts.Ev ℚ) : Accum × Option Err :=
  match e with
  | .begin d _ => ((A.onBegin d).1, (A.onBegin d).2.2)
  | .fin d _ => ((A.onEnd d).1, none)

/-- The notifications of one edit, in order.  An exception in a callback would abort the edit
(`Accum.Sound.edit` shows that there is none). -/
def notifyAll (A : Accum) : List (Pts.Ev ℚ) → Accum × Option Err
  | [] => (A, none)
  | e :: es =>
    match (A.notify e).2 with
    | some err => ((A.notify e).1, some err)
    | none => (A.notify e).1.notifyAll es

/-- An edit of the source.  The callbacks of the accumulator do not look at the source, so
the order of their effects and those of the edit does not matter; other observers may read
`domain` (`r`). -/
def edit (A : Accum) (op : Spec.Op ℚ) (r : Pts.Reads) : Accum × Option Err :=
  let res := op.run A.src r
  { A with src := res.st }.notifyAll res.ev

/-! ## The transforms -/

/-- `EMA._ema_scan` (`ema.py:39-53`) for an `init` curve given by its values (`init_func.y`). -/
def emaTfm (alpha period : Option ℚ) (init : Option (ℚ → Option ℚ)) (minStep : ℚ) : Tfm :=
  fun src _ x y ema =>
    match y with
    | none => .ok ema
    | some y =>
      match ema with
      | none =>
        match init with
        | some f => .ok (f x)
        | none => .ok (some y)
      | some e =>
        match period with
        | some p =>
          match src.xPrevious (.fin x) (some minStep) with
          | .error er => .error er
          | .ok (some (.fin x0)) =>
            if p = 0 then .error .zeroDiv else .ok (some (e + |(x - x0) / p| * (y - e)))
          | .ok _ => .error .type      -- `x - None`
        | none =>
          match alpha with
          | some a => .ok (some (e + a * (y - e)))
          | none => .ok none           -- falls off the end

/-- `MIN_STEP` (`curve.py:12`) as a number. -/
def minStepQ : ℚ := 1 / 100000

/-- Area between two knots (`integral.py:35-48`): the line is set through `p1`, `p2` and
integrated.  (Two knots differ in `x`, so the area is a number.) -/
def segmentArea (mode : Interp) (x0 y0 x y : ℚ) : Except Err ℚ := do
  let (p1, p2) :=
    match mode with
    | .linear => ((x0, y0), (x, y))
    | .previous => ((x0, y0), (x, y0))
    | .next => ((x0, y), (x, y))
  let d ← Line.params { p1 := some p1, p2 := some p2 }
  match Line.partialIntegration d x0 x with
  | .fin a => .ok a
  | _ => .error .value

/-- `Integral._integral_scan` (`integral.py:22-51`). -/
def integralTfm (mode : Interp) : Tfm :=
  fun src acc x y sum =>
    match y with
    | none => .ok sum
    | some y =>
      let s := sum.getD 0
      match acc.xPrevious (.fin x) (some minStepQ) with
      | .error e => .error e
      | .ok none => .ok (some s)
      | .ok (some x0) =>
        match src.y x0, x0 with
        | .error e, _ => .error e
        | .ok none, _ => .ok (some s)
        | .ok (some y0), .fin x0 =>
          match segmentArea mode x0 y0 x y with
          | .error e => .error e
          | .ok a => .ok (some (s + a))
        | .ok (some _), _ => .error .overflow

/-- `Integral.y`: `scanned_y` adds the constant (`integral.py:16-20`). -/
def integralQuery (mode : Interp) (const : ℚ) (A : Accum) (x : Ext) : Option (Out (Option ℚ)) :=
  (A.query (integralTfm mode) x).map fun o => { o with res := o.res.map (Option.map (· + const)) }

/-- A transform that is a function of its arguments. -/
def plainTfm (f : ℚ → Option ℚ → Option ℚ → Except Err (Option ℚ)) : Tfm := fun _ _ => f

/-- The loop of `sample_points_from_x(x, limit, backward=True, open=True, min_step)`
(`curve.py:230-241`) on `Points`, the values only. -/
def backLoop (src : Pts ℚ) (minStep : ℚ) : ℕ → Ext → Except Err (List (Option ℚ))
  | 0, _ => .ok []
  | n + 1, x =>
    match src.xPrevious x (some minStep) with
    | .error e => .error e
    | .ok none => .ok []
    | .ok (some x1) =>
      match src.y x1 with
      | .error e => .error e
      | .ok none => .ok []
      | .ok (some y) =>
        match backLoop src minStep n x1 with
        | .error e => .error e
        | .ok ys => .ok (some y :: ys)

/-- The values before `x` in the window of `AccumulatorMap` (`accumulator_map.py:46-60`).  The number of points bounds the
rounds of sampling (`C142_ends`). -/
def windowBefore (src : Pts ℚ) (degree : Option ℕ) (period : Option ℚ) (minStep x : ℚ) :
    Except Err (List (Option ℚ)) :=
  match degree with
  | some n => if n = 1 then .ok [] else backLoop src minStep (n - 1) (.fin x)
  | none =>
    match period with
    | some p =>
      match src.samplePoints (some (Iv.closedOpen (x - p) x)) (some minStep) none (src.points.length + 1) with
      | none => .error .overflow
      | some (.error e) => .error e
      | some (.ok ps) => .ok (ps.map Prod.snd).reverse
    | none => .error .exception

/-- `AccumulatorMap._accumulator_map_scan` (`accumulator_map.py:44-63`) for a function of the
values. -/
def mapTfm (f : List (Option ℚ) → Except Err (Option ℚ)) (degree : Option ℕ) (period : Option ℚ)
    (minStep : ℚ) : Tfm :=
  fun src _ x y _ =>
    match windowBefore src degree period minStep x with
    | .error e => .error e
    | .ok ys => f (y :: ys)

/-- The loop of Python `min` (`max` with `better = >`): `None` cannot be compared. -/
def bestLoop (better : ℚ → ℚ → Bool) : Option ℚ → List (Option ℚ) → Except Err (Option ℚ)
  | a, [] => .ok a
  | some a, some b :: rest => bestLoop better (some (if better b a then b else a)) rest
  | _, _ :: _ => .error .type

/-- Python `min` or `max` of a list. -/
def pyBest (better : ℚ → ℚ → Bool) : List (Option ℚ) → Except Err (Option ℚ)
  | [] => .error .value
  | a :: rest => bestLoop better a rest

/-- `min` of a list. -/
def pyMin : List (Option ℚ) → Except Err (Option ℚ) := pyBest (fun b a => decide (b < a))

/-- `max` of a list. -/
def pyMax : List (Option ℚ) → Except Err (Option ℚ) := pyBest (fun b a => decide (a < b))

end Accum
end Curvepy
