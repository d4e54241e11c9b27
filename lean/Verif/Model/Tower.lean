import Verif.Model.AccumEvents
import Verif.Model.CurveScan
import Verif.Model.Machine

/-!
# Accumulators over curves that accumulate themselves

`p.ema(3).ema(3)`: the source of the outer average is a scan with a state of its own, which reading the outer one changes,
and edits of `p` reach the outer average through the announcements of the inner one.  The state of the outer accumulator is
kept beside that of its source.  The transform looks at its arguments only; values of the source that are not finite are not
modelled (`overflow`).
-/

namespace Curvepy

/-- State of an `Accumulator` (`accumulator.py:9-19`, `scan.py:11-17`, `curve.py:50-57`) without its source. -/
structure Layer where
  scan : CScan
  cache : Option Iv
  bIv : Iv
  eIv : Iv

namespace Layer
open Crv

variable {σ : Type}

/-- `Accumulator.__init__` (`accumulator.py:9-19`, `scan.py:11-17`). -/
def new (minStep : ℚ) (interp : Interp := .linear) (uniform : Bool := true) : Layer :=
  { scan := CScan.new minStep interp uniform, cache := none, bIv := Iv.empty, eIv := Iv.empty }

/-! ## Reading -/

/-- A computation of the source. -/
def below {α : Type} (p : Run σ α) : Run (Layer × σ) α := fun s => (p s.2).map fun r => (r.1, (s.1, r.2))

/-- The own state. -/
def get : Run (Layer × σ) Layer := fun s => some (.ok s.1, s)

/-- Change it. -/
def put (L : Layer) : Run (Layer × σ) Unit := fun s => some (.ok (), (L, s.2))

/-- `self.domain` with `get_domain = self.curve.domain` (`scan.py:8-9`, `curve.py:36-40`). -/
def dom (M : Machine σ) : Run (Layer × σ) Iv := do
  let L ← get
  match L.cache with
  | some d => pure d
  | none => do
    let d ← below M.dom
    put { L with cache := some d }
    pure d

/-- `Points.x_next` of the accumulated points; an infinite step is beyond them. -/
def ownNext (acc : Pts ℚ) (x : Ext) : Option Ext → Except Err (Option Ext)
  | some (.fin a) => acc.xNext x (some a)
  | _ => .ok none

/-- `Points.x_previous` of the accumulated points. -/
def ownPrevious (acc : Pts ℚ) (x : Ext) : Option Ext → Except Err (Option Ext)
  | some (.fin a) => acc.xPrevious x (some a)
  | _ => .ok none

/-- `a or b` for optional positions: `0` counts as false. -/
def orElse (a : Option Ext) (b : Run (Layer × σ) (Option Ext)) : Run (Layer × σ) (Option Ext) :=
  match a with
  | some x => if x = .fin 0 then b else pure (some x)
  | none => b

/-- `Accumulator.x_next` (`accumulator.py:32-34`). -/
def xNext (M : Machine σ) (x : Ext) (arg limit : Option Ext) : Run (Layer × σ) (Option Ext) := do
  let L ← get
  let m := resolve (some (.fin L.scan.minStep)) arg
  let a ← Run.lift (ownNext L.scan.acc x m)
  orElse a (below (M.xNext x m limit))

/-- `Accumulator.x_previous` (`accumulator.py:28-30`). -/
def xPrevious (M : Machine σ) (x : Ext) (arg limit : Option Ext) : Run (Layer × σ) (Option Ext) := do
  let L ← get
  let m := resolve (some (.fin L.scan.minStep)) arg
  let a ← Run.lift (ownPrevious L.scan.acc x m)
  orElse a (below (M.xPrevious x m limit))

/-- `Scan.init_scan` (`scan.py:37-43`). -/
def initScan (M : Machine σ) (x : ℚ) : Run (Layer × σ) (Option Ext) := do
  let d ← below M.dom
  if d.isEmpty || d.isNegInf then pure (some (.fin x))
  else do
    let own ← dom M
    if !own.contains d.lo then do
      let L ← get
      below (M.xNext d.lo (some (.fin L.scan.minStep)) none)
    else pure (some d.lo)

/-- The position to process next (`scan.py:57-61`). -/
def nextPos (M : Machine σ) (x : ℚ) : Run (Layer × σ) (Option Ext) := do
  let L ← get
  match L.scan.current with
  | none => do
    let p ← initScan M x
    let L ← get
    put { L with scan := { L.scan with scanStart := Accum.finPart p } }
    pure p
  | some k => xNext M (.fin k) (some (.fin L.scan.minStep)) (some (.fin x))

/-- `accumulated_points.append` (`accumulator.py:48`). -/
def append (x : ℚ) (v : Option ℚ) : Run (Layer × σ) Unit := do
  let L ← get
  let r := L.scan.acc.append (x, v) Accum.quiet
  put { L with scan := { L.scan with acc := r.st } }
  match r.err with
  | some e => Run.lift (.error e)
  | none => pure ()

/-- `Accumulator._accumulate` (`accumulator.py:40-48`). -/
def accumulate (t : PTfm) (x : ℚ) (y : Option ℚ) : Run (Layer × σ) Unit := do
  let L ← get
  put { L with scan := { L.scan with acc := L.scan.acc.touch } }
  let last ← Run.lift (Accum.lastOf L.scan.acc.touch x)
  let v ← Run.lift (t x y last)
  append x v

/-- The loop of `Scan.scan` (`scan.py:56-67`); the number bounds the iterations. -/
def scanLoop (M : Machine σ) (t : PTfm) (x : ℚ) : ℕ → Run (Layer × σ) Unit
  | 0 => Run.more
  | n + 1 => do
    let L ← get
    if L.scan.current.all (fun k => decide (k < x)) then
      match ← nextPos M x with
      | none => pure ()
      | some p =>
        let d ← below M.dom
        if !d.contains p then pure ()
        else
          match p with
          | .fin k =>
            if L.scan.current.any (fun j => decide (k ≤ j)) then Run.lift (.error .exception)
            else do
              let v ← below (M.y (.fin k))
              let y ← Run.lift (CScan.rational v)
              accumulate t k y
              let L ← get
              put { L with scan := { L.scan with current := some k } }
              scanLoop M t x n
          | _ => Run.lift (.error .overflow)
    else pure ()

/-- `Scan.scan` (`scan.py:52-67`) with `n` points to go through at most. -/
def scanTo (M : Machine σ) (t : PTfm) (n : ℕ) (x : ℚ) : Run (Layer × σ) Unit := do
  let L ← get
  if L.scan.scanStart.any (fun s => decide (x < s)) then put { L with scan := L.scan.resetScan } else pure ()
  scanLoop M t x (n + 2)

/-- `Scan.y` (`scan.py:25-29`) with `scanned_y` of `Accumulator` (`accumulator.py:21-22`). -/
def y (M : Machine σ) (t : PTfm) (n : ℕ) (x : Ext) : Run (Layer × σ) (Option Num) := do
  let d ← below M.dom
  let inside ← if d.contains x then pure true else do
    let own ← dom M
    pure (own.contains x)
  if !inside then pure none
  else
    match x with
    | .fin q => do
      scanTo M t n q
      let L ← get
      put { L with scan := { L.scan with acc := L.scan.acc.touch } }
      let v ← Run.lift (L.scan.acc.y (.fin q))
      pure (v.map .fin)
    | _ => Run.lift (.error .overflow)

/-- The accumulator as a curve. -/
def machine (M : Machine σ) (size : σ → ℕ) (t : PTfm) : Machine (Layer × σ) where
  dom := dom M
  minStep := do
    let L ← get
    pure (some (.fin L.scan.minStep))
  y x := fun s => y M t (size s.2) x s
  xNext := xNext M
  xPrevious := xPrevious M

/-- `self.scan(x)` (`scan.py:52-67`) for an end of the domain; infinite ends are not modelled. -/
def scanAt (M : Machine σ) (size : σ → ℕ) (t : PTfm) : Ext → Run (Layer × σ) Unit
  | .fin q => fun s => scanTo M t (size s.2) q s
  | _ => Run.lift (.error .overflow)

/-- `Scan.sample_points` (`scan.py:69-81`). -/
def samplePoints (M : Machine σ) (size : σ → ℕ) (t : PTfm) (domain : Option Iv) (minStep : Option Ext) (step : Option ℚ)
    (fuel : ℕ) : Run (Layer × σ) (List Sample) := do
  let own ← (machine M size t).minStep
  let m := resolve own minStep
  let d ← (machine M size t).sampleDomain domain
  if d.isEmpty then pure []
  else if d.isNegInf && d.isPosInf then Run.lift (.error .exception)
  else do
    scanAt M size t d.lo
    scanAt M size t d.hi
    (machine M size t).samplePoints (some d) m step fuel

/-! ## Updates

The callbacks do not look at the source, so those of `Model/Accumulator` are used with an empty one. -/

/-- As an accumulator without source. -/
def alone (L : Layer) : Accum :=
  { src := Pts.blank .linear false, acc := L.scan.acc, minStep := L.scan.minStep, scanStart := L.scan.scanStart,
    current := L.scan.current, cache := L.cache, bIv := L.bIv, eIv := L.eIv }

/-- And back. -/
def ofAlone (A : Accum) : Layer :=
  { scan := { acc := A.acc, minStep := A.minStep, scanStart := A.scanStart, current := A.current },
    cache := A.cache, bIv := A.bIv, eIv := A.eIv }

/-- One announcement of the source: the new state, what is announced in turn, and the exception. -/
def notify (L : Layer) : Accum.Passed → Layer × List Accum.Passed × Option Err
  | .begin d => (ofAlone (L.alone.onBegin d).1, (L.alone.onBegin d).2.1.map .begin, (L.alone.onBegin d).2.2)
  | .fin d => (ofAlone (L.alone.onEnd d).1, (L.alone.onEnd d).2.map .fin, none)

/-- All announcements of one edit, in order. -/
def notifyAll (L : Layer) : List Accum.Passed → Layer × List Accum.Passed × Option Err
  | [] => (L, [], none)
  | e :: es =>
    match (L.notify e).2.2 with
    | some err => ((L.notify e).1, (L.notify e).2.1, some err)
    | none =>
      let r := (L.notify e).1.notifyAll es
      (r.1, (L.notify e).2.1 ++ r.2.1, r.2.2)

end Layer

/-! ## Towers -/

/-- A curve over a list of points that can be edited: how to read it, the points, and what an edit of the points does to the
state and announces. -/
structure Live (σ : Type) where
  machine : Machine σ
  sample : Option Iv → Option Ext → Option ℚ → ℕ → Run σ (List Crv.Sample)
  src : σ → Pts ℚ
  edit : Spec.Op ℚ → Pts.Reads → σ → σ × List Accum.Passed × Option Err

/-- An accumulator over `Points`. -/
def Live.base (t : Tfm) : Live Accum where
  machine := Accum.machine t
  sample := Accum.samplePoints t
  src A := A.src
  edit op r A := ((A.edit op r).1, A.editPassed op r, (A.edit op r).2)

/-- An accumulator over such a curve. -/
def Live.over {σ : Type} (V : Live σ) (t : PTfm) : Live (Layer × σ) where
  machine := Layer.machine V.machine (fun s => (V.src s).points.length) t
  sample := Layer.samplePoints V.machine (fun s => (V.src s).points.length) t
  src s := V.src s.2
  edit op r s :=
    match V.edit op r s.2 with
    | (s', _, some e) => ((s.1, s'), [], some e)
    | (s', ps, none) => (((s.1.notifyAll ps).1, s'), (s.1.notifyAll ps).2)

/-- The parameters of one accumulator (`accumulator.py:9-19`); the transform looks at its arguments and does not raise. -/
structure Storey where
  f : ℚ → Option ℚ → Option ℚ → Option ℚ
  minStep : ℚ
  interp : Interp
  uniform : Bool

/-- Its transform. -/
def Storey.tfm (S : Storey) : PTfm := fun x y last => .ok (S.f x y last)

/-- The states of accumulators over each other, the last one over `Points`. -/
def TowerState : List Storey → Type
  | [] => Accum
  | _ :: ls => Layer × TowerState ls

/-- Accumulators over each other. -/
def tower (t : Tfm) : (ls : List Storey) → Live (TowerState ls)
  | [] => Live.base t
  | S :: ls => (tower t ls).over S.tfm

/-- They are made from the lowest on. -/
def towerNew (A : Accum) : (ls : List Storey) → TowerState ls
  | [] => A
  | S :: ls => (Layer.new S.minStep S.interp S.uniform, towerNew A ls)

end Curvepy
