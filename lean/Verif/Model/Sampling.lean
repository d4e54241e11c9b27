import Verif.Model.Line

/-!
# Sampling and searching a curve (`curve.py:168-381`)

Loops without a bound in the code have a fuel argument; `none` means that more steps are needed.
The positions at which loops look are those the curve's methods return.
-/

namespace Curvepy

/-- Python `round(q)` (halves to even), used at `curve.py:179`. -/
def pyRound (q : ℚ) : ℤ :=
  if q - ⌊q⌋ < 1 / 2 then ⌊q⌋
  else if 1 / 2 < q - ⌊q⌋ then ⌊q⌋ + 1
  else if ⌊q⌋ % 2 = 0 then ⌊q⌋ else ⌊q⌋ + 1

namespace Crv

/-- A sampled point. -/
abbrev Sample := Ext × Option Num

/-- `round(x / min_step)` (`curve.py:179`, `194`, `199`). -/
def bin (x m : Ext) : Except Err ℤ :=
  match x, m with
  | .fin q, .fin s => if s = 0 then .error .zeroDiv else .ok (pyRound (q / s))
  | .fin _, _ => .ok 0
  | _, .fin s => if s = 0 then .error .zeroDiv else .error .overflow
  | _, _ => .error .value

/-- The loop with a step (`curve.py:185-189`). -/
def stepLoop (c : Crv) (b step : ℚ) : ℕ → ℚ → Option (Except Err (List Sample))
  | 0, _ => none
  | n + 1, x =>
    if x ≤ b then
      match c.y (.fin x) with
      | .error e => some (.error e)
      | .ok y => (stepLoop c b step n (x + step)).map fun r => r.map ((.fin x, y) :: ·)
    else some (.ok [])

/-- The loop along `x_next` (`curve.py:191-202`); `x` is the position to be looked at. -/
def chainLoop (c : Crv) (m : Ext) (b : Ext) (endBin : ℤ) :
    ℕ → Option Ext → Option (Except Err (List Sample))
  | 0, _ => none
  | _ + 1, none => some (.ok [])
  | n + 1, some x =>
    if x ≤ b then
      match c.y x with
      | .error e => some (.error e)
      | .ok y =>
        match bin x m with
        | .error e => some (.error e)
        | .ok xBin =>
          if xBin = endBin then some (.ok [(x, y)])
          else
            match c.xNext x (some m) (some b) with
            | .error e => some (.error e)
            | .ok none => some (.ok [(x, y)])
            | .ok (some x1) =>
              match bin x1 m with
              | .error e => some (.error e)
              | .ok x1Bin =>
                if x1Bin ≤ xBin then some (.error .exception)
                else (chainLoop c m b endBin n (some x1)).map fun r => r.map ((x, y) :: ·)
    else some (.ok [])

/-- The end of the domain is added if it is closed and not there yet (`curve.py:204-205`);
`points[-1]` of no points raises. -/
def addEnd (c : Crv) (d : Iv) (ps : List Sample) : Except Err (List Sample) :=
  if d.hiOpen then .ok ps
  else
    match ps.getLast? with
    | none => .error .index
    | some p =>
      if p.1 = d.hi then .ok ps
      else
        match c.y d.hi with
        | .error e => .error e
        | .ok y => .ok (ps ++ [(d.hi, y)])

/-- The common domain (`curve.py:170-173`). -/
def sampleDomain (c : Crv) : Option Iv → Iv
  | none => c.dom
  | some d => Iv.inter c.dom d

/-- The bin of the end (`curve.py:179`); 0 stands for what is not used without a step. -/
def endBin (b : ℚ) : Option Ext → Except Err ℤ
  | some m => bin (.fin b) m
  | none => .ok 0

/-- The first point, unless the domain is open there (`curve.py:180-183`). -/
def firstSample (c : Crv) (a : ℚ) (loOpen : Bool) : Except Err (List Sample) :=
  if loOpen then .ok []
  else
    match c.y (.fin a) with
    | .error e => .error e
    | .ok y => .ok [(.fin a, y)]

/-- `Curve.sample_points` (`curve.py:168-209`). -/
def samplePoints (c : Crv) (domain : Option Iv) (minStep : Option Ext) (step : Option ℚ)
    (fuel : ℕ) : Option (Except Err (List Sample)) :=
  let m := resolve c.minStep minStep
  let d := sampleDomain c domain
  if d.isEmpty then some (.ok [])
  else if !d.isFinite then some (.error .exception)
  else
    match d.lo, d.hi with
    | .fin a, .fin b =>
      match endBin b m with
      | .error e => some (.error e)
      | .ok eBin =>
        match firstSample c a d.loOpen with
        | .error e => some (.error e)
        | .ok ps =>
          match step, m with
          | some s, _ => (stepLoop c b s fuel (a + s)).map fun r => r.map (ps ++ ·)
          | none, some m =>
            if .fin 0 < m then
              match c.xNext (.fin a) (some m) (some (.fin b)) with
              | .error e => some (.error e)
              | .ok x =>
                (chainLoop c m (.fin b) eBin fuel x).map fun r =>
                  match r with
                  | .error e => .error e
                  | .ok qs => addEnd c d (ps ++ qs)
            else some (.error .exception)
          | none, none => some (.error .exception)
    | _, _ => some (.error .exception)   -- unreachable: the domain is finite

/-- The loop of `sample_points_from_x` (`curve.py:229-240`); the first argument is the number of
points still to be collected. -/
def fromLoop (c : Crv) (backward : Bool) (m : Option Ext) : ℕ → Ext → Except Err (List Sample)
  | 0, _ => .ok []
  | n + 1, x => do
    let x1 ← if backward then c.xPrevious x m none else c.xNext x m none
    match x1 with
    | none => pure []
    | some x1 =>
      match ← c.y x1 with
      | none => pure []
      | some y => do
        let rest ← fromLoop c backward m n x1
        pure ((x1, some y) :: rest)

/-- `Curve.sample_points_from_x` (`curve.py:211-242`) for a position `x`. -/
def samplePointsFrom (c : Crv) (x : Ext) (limit : ℤ) (backward isOpen : Bool) (minStep : Option Ext) :
    Except Err (List Sample) := do
  let backward := if limit < 0 then !backward else backward
  let n := limit.natAbs
  let m := resolve c.minStep minStep
  if isOpen then fromLoop c backward m n x
  else
    match ← c.y x with
    | none => pure []
    | some _ => fromLoop c backward m (n - 1) x

/-- The loop of `get_range` (`curve.py:246-252`). -/
def rangeLoop : List (Option Num) → Option Num → Option Num → Except Err (Option Num × Option Num)
  | [], low, high => .ok (low, high)
  | v :: vs, low, high => do
    let low ← match low, v with
      | none, v => pure v
      | some l, some w => pure (if Num.lt w l then some w else some l)
      | some _, none => .error .type
    let high ← match high, v with
      | none, v => pure v
      | some h, some w => pure (if Num.lt h w then some w else some h)
      | some _, none => .error .type
    rangeLoop vs low high

/-- `Curve.get_range` (`curve.py:244-255`) of the sampled values; `none` is the empty interval,
otherwise the closed interval between the two. -/
def getRange (ps : List Sample) : Except Err (Option (Num × Num)) := do
  match ← rangeLoop (ps.map (·.2)) none none with
  | (some l, some h) => pure (some (l, h))
  | _ => pure none

/-! ## Searching -/

/-- What to do at a position: return it, return `None`, or go on. -/
inductive Decision where
  | stay
  | giveUp
  | move (forward : Bool)
deriving DecidableEq, Repr

/-- `minimise`: what to do given the backward and the forward slope (`curve.py:270-294`). -/
def minDecide : Option Num → Option Num → Decision
  | none, none => .stay
  | none, some d1 => if Num.le d1 (.fin 0) then .move true else .giveUp
  | some d0, none => if Num.le (.fin 0) d0 then .move false else .giveUp
  | some d0, some d1 =>
    if Num.lt (Num.mul d0 d1) (.fin 0) ∧ Num.le d0 (.fin 0) ∧ Num.le (.fin 0) d1 then .stay
    else if Num.lt (Num.mul d0 d1) (.fin 0) then .move (Num.lt d0.abs d1.abs)
    else .move (Num.lt d1 (.fin 0))

/-- `maximise` (`curve.py:321-345`). -/
def maxDecide : Option Num → Option Num → Decision
  | none, none => .stay
  | none, some d1 => if Num.le (.fin 0) d1 then .move true else .giveUp
  | some d0, none => if Num.le d0 (.fin 0) then .move false else .giveUp
  | some d0, some d1 =>
    if Num.lt (Num.mul d0 d1) (.fin 0) ∧ Num.le (.fin 0) d0 ∧ Num.le d1 (.fin 0) then .stay
    else if Num.lt (Num.mul d0 d1) (.fin 0) then .move (Num.lt d0.abs d1.abs)
    else .move (Num.lt (.fin 0) d1)

/-- One move (`curve.py:297-306`). -/
def moveOn (c : Crv) (minStep : Option Ext) (step : Option ℚ) (forward : Bool) (x : Ext) :
    Except Err (Option Ext) :=
  match step, forward with
  | some s, true => .ok (some (x.addQ s))
  | some s, false => .ok (some (x.addQ (-s)))
  | none, true => c.xNext x minStep none
  | none, false => c.xPrevious x minStep none

/-- The loop of `minimise`/`maximise` (`curve.py:261-307`, `309-358`): the result and the
positions at which the curve was evaluated.  The first argument is the number of iterations left.
`dY` is the curve's `d_y` with its default arguments.  Evaluating the curve at `None` raises. -/
def search (c : Crv) (decide : Option Num → Option Num → Decision)
    (dY : Ext → Bool → Except Err (Option Num)) (minStep : Option Ext) (step : Option ℚ) :
    ℕ → Option Ext → Option Ext → Except Err (Option Ext) × List Ext
  | 0, x, _ => (.ok x, [])
  | _ + 1, none, _ => (.error .type, [])
  | n + 1, some x, prev =>
    match c.y x with
    | .error e => (.error e, [x])
    | .ok none => (.ok prev, [x])
    | .ok (some _) =>
      match dY x false with
      | .error e => (.error e, [x])
      | .ok dy0 =>
        match dY x true with
        | .error e => (.error e, [x])
        | .ok dy1 =>
          match decide dy0 dy1 with
          | .stay => (.ok (some x), [x])
          | .giveUp => (.ok none, [x])
          | .move forward =>
            match moveOn c minStep step forward x with
            | .error e => (.error e, [x])
            | .ok x1 =>
              let r := search c decide dY minStep step n x1 (some x)
              (r.1, x :: r.2)

/-- `Curve.minimise` (`curve.py:257-307`). -/
def minimise (c : Crv) (dY : Ext → Bool → Except Err (Option Num)) (x : Ext)
    (minStep : Option Ext := some MIN_STEP) (step : Option ℚ := none) (maxIterations : ℕ := 1000) :
    Except Err (Option Ext) × List Ext :=
  search c minDecide dY minStep step maxIterations (some x) none

/-- `Curve.maximise` (`curve.py:309-358`). -/
def maximise (c : Crv) (dY : Ext → Bool → Except Err (Option Num)) (x : Ext)
    (minStep : Option Ext := some MIN_STEP) (step : Option ℚ := none) (maxIterations : ℕ := 1000) :
    Except Err (Option Ext) × List Ext :=
  search c maxDecide dY minStep step maxIterations (some x) none

/-- `Curve.regression` (`curve.py:360-381`) of sampled points with finite positions and values;
`fit` stands for `numpy.linalg.lstsq` on three or more points (slope and constant). -/
def regression (fit : List (ℚ × ℚ) → ℚ × ℚ) (ps : List (ℚ × Option ℚ)) :
    Except Err (Option LineData) :=
  match ps.mapM (fun p => p.2.map fun y => (p.1, y)) with
  | none => .ok none
  | some [] => .ok none
  | some [_] => .ok none
  | some [p, q] => (Line.mk { p1 := some p, p2 := some q }).map fun h => some h.data
  | some qs =>
    (Line.mk { const := some (fit qs).2, slope := some (.fin (fit qs).1) }).map fun h => some h.data

end Crv
end Curvepy
