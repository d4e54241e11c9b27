import Verif.Model.Sampling
import Verif.Model.Accumulator

/-!
# Curves that change while they are read

`Model/Sampling` and `Crv.dY` are about curves whose methods are functions.  Scans remember how far they got: here every
method may change a state, also if it raises.  The methods of `Curve` on top of them are written down once more, in the order
in which the code calls them; `Lemmas/Machine` shows when both agree.
-/

namespace Curvepy

/-- A computation that reads and changes a state, raises, or does not end within the fuel. -/
abbrev Run (σ α : Type) := ExceptT Err (StateT σ Option) α

/-- More steps are needed. -/
def Run.more {σ α : Type} : Run σ α := fun _ => none

/-- An outcome that needs no state. -/
def Run.lift {σ α : Type} (r : Except Err α) : Run σ α := fun s => some (r, s)

/-- What the methods of `Curve` are made of. -/
structure Machine (σ : Type) where
  dom : Run σ Iv
  minStep : Run σ (Option Ext)
  y : Ext → Run σ (Option Num)
  xNext : Ext → Option Ext → Option Ext → Run σ (Option Ext)
  xPrevious : Ext → Option Ext → Option Ext → Run σ (Option Ext)

namespace Machine
open Crv

variable {σ : Type}

/-- The loop with a step (`curve.py:185-189`). -/
def stepLoop (M : Machine σ) (b step : ℚ) : ℕ → ℚ → Run σ (List Sample)
  | 0, _ => Run.more
  | n + 1, x =>
    if x ≤ b then do
      let y ← M.y (.fin x)
      let r ← stepLoop M b step n (x + step)
      pure ((.fin x, y) :: r)
    else pure []

/-- The loop along `x_next` (`curve.py:191-202`). -/
def chainLoop (M : Machine σ) (m : Ext) (b : Ext) (endBin : ℤ) : ℕ → Option Ext → Run σ (List Sample)
  | 0, _ => Run.more
  | _ + 1, none => pure []
  | n + 1, some x =>
    if x ≤ b then do
      let y ← M.y x
      let xBin ← Run.lift (bin x m)
      if xBin = endBin then pure [(x, y)]
      else
        match ← M.xNext x (some m) (some b) with
        | none => pure [(x, y)]
        | some x1 => do
          let x1Bin ← Run.lift (bin x1 m)
          if x1Bin ≤ xBin then Run.lift (.error .exception)
          else
            let r ← chainLoop M m b endBin n (some x1)
            pure ((x, y) :: r)
    else pure []

/-- The end of the domain (`curve.py:204-205`). -/
def addEnd (M : Machine σ) (d : Iv) (ps : List Sample) : Run σ (List Sample) :=
  if d.hiOpen then pure ps
  else
    match ps.getLast? with
    | none => Run.lift (.error .index)
    | some p =>
      if p.1 = d.hi then pure ps
      else do
        let y ← M.y d.hi
        pure (ps ++ [(d.hi, y)])

/-- The first point (`curve.py:180-183`). -/
def firstSample (M : Machine σ) (a : ℚ) (loOpen : Bool) : Run σ (List Sample) :=
  if loOpen then pure []
  else do
    let y ← M.y (.fin a)
    pure [(.fin a, y)]

/-- The common domain (`curve.py:170-173`, `scan.py:71-74`). -/
def sampleDomain (M : Machine σ) : Option Iv → Run σ Iv
  | none => M.dom
  | some d => do
    let own ← M.dom
    pure (Iv.inter own d)

/-- `Curve.sample_points` (`curve.py:168-209`). -/
def samplePoints (M : Machine σ) (domain : Option Iv) (minStep : Option Ext) (step : Option ℚ) (fuel : ℕ) :
    Run σ (List Sample) := do
  let own ← M.minStep
  let m := resolve own minStep
  let d ← M.sampleDomain domain
  if d.isEmpty then pure []
  else if !d.isFinite then Run.lift (.error .exception)
  else
    match d.lo, d.hi with
    | .fin a, .fin b => do
      let eBin ← Run.lift (endBin b m)
      let ps ← M.firstSample a d.loOpen
      match step, m with
      | some s, _ => do
        let qs ← M.stepLoop b s fuel (a + s)
        pure (ps ++ qs)
      | none, some m =>
        if .fin 0 < m then do
          let x ← M.xNext (.fin a) (some m) (some (.fin b))
          let qs ← M.chainLoop m (.fin b) eBin fuel x
          M.addEnd d (ps ++ qs)
        else Run.lift (.error .exception)
      | none, none => Run.lift (.error .exception)
    | _, _ => Run.lift (.error .exception)

/-- The loop of `sample_points_from_x` (`curve.py:229-240`). -/
def fromLoop (M : Machine σ) (backward : Bool) (m : Option Ext) : ℕ → Ext → Run σ (List Sample)
  | 0, _ => pure []
  | n + 1, x => do
    match ← if backward then M.xPrevious x m none else M.xNext x m none with
    | none => pure []
    | some x1 =>
      match ← M.y x1 with
      | none => pure []
      | some y => do
        let rest ← fromLoop M backward m n x1
        pure ((x1, some y) :: rest)

/-- `Curve.sample_points_from_x` (`curve.py:211-242`). -/
def samplePointsFrom (M : Machine σ) (x : Ext) (limit : ℤ) (backward isOpen : Bool) (minStep : Option Ext) :
    Run σ (List Sample) := do
  let own ← M.minStep
  let backward := if limit < 0 then !backward else backward
  let n := limit.natAbs
  let m := resolve own minStep
  if isOpen then fromLoop M backward m n x
  else
    match ← M.y x with
    | none => pure []
    | some _ => fromLoop M backward m (n - 1) x

/-- `Curve.d_y` (`curve.py:91-112`). -/
def dY (M : Machine σ) (x : Ext) (forward : Bool := false) (minStep : Option Ext := some MIN_STEP)
    (limit : Option Ext := none) : Run σ (Option Num) := do
  let own ← M.minStep
  let m := resolve own minStep
  match ← if forward then M.xNext x m limit else M.xPrevious x m limit with
  | none => pure none
  | some x1 =>
    match ← M.y x1 with
    | none => pure none
    | some y1 =>
      match ← M.y x with
      | none => pure none
      | some y =>
        if x1 = x then
          let dy := if Num.le y y1 then Num.pinf else .ninf
          pure (some (if forward then dy else dy.neg))
        else do
          let q ← Run.lift (Num.div (Num.sub y1 y) (Num.sub (.ofExt x1) (.ofExt x)))
          pure (some q)

/-- One move (`curve.py:297-306`). -/
def moveOn (M : Machine σ) (minStep : Option Ext) (step : Option ℚ) (forward : Bool) (x : Ext) : Run σ (Option Ext) :=
  match step, forward with
  | some s, true => pure (some (x.addQ s))
  | some s, false => pure (some (x.addQ (-s)))
  | none, true => M.xNext x minStep none
  | none, false => M.xPrevious x minStep none

/-- The loop of `minimise`/`maximise` (`curve.py:261-307`, `309-358`). -/
def search (M : Machine σ) (decide : Option Num → Option Num → Decision) (minStep : Option Ext) (step : Option ℚ) :
    ℕ → Option Ext → Option Ext → Run σ (Option Ext)
  | 0, x, _ => pure x
  | _ + 1, none, _ => Run.lift (.error .type)
  | n + 1, some x, prev => do
    match ← M.y x with
    | none => pure prev
    | some _ => do
      let dy0 ← M.dY x false
      let dy1 ← M.dY x true
      match decide dy0 dy1 with
      | .stay => pure (some x)
      | .giveUp => pure none
      | .move forward => do
        let x1 ← M.moveOn minStep step forward x
        search M decide minStep step n x1 (some x)

/-- `Curve.minimise` (`curve.py:257-307`). -/
def minimise (M : Machine σ) (x : Ext) (minStep : Option Ext := some MIN_STEP) (step : Option ℚ := none)
    (maxIterations : ℕ := 1000) : Run σ (Option Ext) :=
  M.search minDecide minStep step maxIterations (some x) none

/-- `Curve.maximise` (`curve.py:309-358`). -/
def maximise (M : Machine σ) (x : Ext) (minStep : Option Ext := some MIN_STEP) (step : Option ℚ := none)
    (maxIterations : ℕ := 1000) : Run σ (Option Ext) :=
  M.search maxDecide minStep step maxIterations (some x) none

end Machine

namespace Accum
open Crv

/-- `x_next` for any `min_step`: an infinite one is beyond the points. -/
def xNextBy (A : Accum) (x : Ext) (arg : Option Ext) : Except Err (Option Ext) :=
  match resolve (some (.fin A.minStep)) arg with
  | some (.fin a) => A.xNext x a
  | _ => .ok none

/-- `x_previous` for any `min_step`. -/
def xPreviousBy (A : Accum) (x : Ext) (arg : Option Ext) : Except Err (Option Ext) :=
  match resolve (some (.fin A.minStep)) arg with
  | some (.fin a) => A.xPrevious x a
  | _ => .ok none

/-- An accumulator (`accumulator.py`, `scan.py`) over `Points` as a curve. -/
def machine (t : Tfm) : Machine Accum where
  dom := fun A => some (.ok A.touch.domVal, A.touch)
  minStep := fun A => some (.ok (some (.fin A.minStep)), A)
  y x := fun A => (A.query t x).map fun o => (o.res.map (Option.map .fin), o.st)
  xNext x m _ := fun A => some (A.xNextBy x m, A)
  xPrevious x m _ := fun A => some (A.xPreviousBy x m, A)

/-- `self.scan(x)` (`scan.py:52-67`) for an end of the domain; infinite ends do not occur. -/
def scanAt (t : Tfm) (x : Ext) : Run Accum Unit := fun A =>
  match x with
  | .fin q => (A.scan t q).map fun o => (o.res, o.st)
  | _ => some (.error .overflow, A)

/-- `Scan.sample_points` (`scan.py:69-81`). -/
def samplePoints (t : Tfm) (domain : Option Iv) (minStep : Option Ext) (step : Option ℚ) (fuel : ℕ) :
    Run Accum (List Sample) := do
  let own ← (machine t).minStep
  let m := resolve own minStep
  let d ← (machine t).sampleDomain domain
  if d.isEmpty then pure []
  else if d.isNegInf && d.isPosInf then Run.lift (.error .exception)
  else do
    scanAt t d.lo
    scanAt t d.hi
    (machine t).samplePoints (some d) m step fuel

end Accum
end Curvepy
