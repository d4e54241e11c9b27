import Verif.Model.RoundedLine

/-!
# Steps, derivatives and offsets with rounded arithmetic

`Curve.x_next`, `Curve.x_previous`, `Curve.d_y`, `Curve.differential` and `Offset` without duration when every operation
rounds its result with `fl`.
-/

namespace Curvepy

/-- A position that was computed. -/
def Ext.rounded (fl : ℚ → ℚ) : Ext → Ext
  | .fin q => .fin (fl q)
  | e => e

namespace Crv

/-- `Curve.x_next` (`curve.py:117-127`). -/
def baseNextR (fl : ℚ → ℚ) (dom : Iv) (own : Option Ext) (x : Ext) (arg limit : Option Ext) : Except Err (Option Ext) :=
  match resolve own arg with
  | none => .error .type
  | some m =>
    let x1 := if m.isInf then dom.hi else (step x m).rounded fl
    let x1 := match limit with
      | some l => if l < x1 then l else x1
      | none => x1
    if !dom.contains x1 (enforceStart := false) then .ok none else .ok (some x1)

/-- `Curve.x_previous` (`curve.py:129-139`). -/
def basePreviousR (fl : ℚ → ℚ) (dom : Iv) (own : Option Ext) (x : Ext) (arg limit : Option Ext) : Except Err (Option Ext) :=
  match resolve own arg with
  | none => .error .type
  | some m =>
    let x1 := if m.isInf then dom.lo else (stepBack x m).rounded fl
    let x1 := match limit with
      | some l => if x1 < l then l else x1
      | none => x1
    if !dom.contains x1 (enforceEnd := false) then .ok none else .ok (some x1)

/-- `Generic(y_func, domain, min_step)` (`generic.py:4-16`). -/
def genericR (fl : ℚ → ℚ) (f : Ext → Except Err (Option Num)) (dom : Iv := Iv.infinite) (minStep : Option Ext := some MIN_STEP) :
    Crv where
  dom := dom
  minStep := minStep
  y x := if !dom.contains x then .ok none else f x
  xNext := baseNextR fl dom minStep
  xPrevious := basePreviousR fl dom minStep

/-- `Curve.d_y` (`curve.py:91-112`). -/
def dYR (fl : ℚ → ℚ) (c : Crv) (x : Ext) (forward : Bool := false) (minStep : Option Ext := some MIN_STEP)
    (limit : Option Ext := none) : Except Err (Option Num) := do
  let m := resolve c.minStep minStep
  let x1 ← if forward then c.xNext x m limit else c.xPrevious x m limit
  match x1 with
  | none => pure none
  | some x1 =>
    match ← c.y x1 with
    | none => pure none
    | some y1 =>
      match ← c.y x with
      | none => pure none
      | some y =>
        if x1 = x then
          let dy := if Num.le y y1 then Num.pinf else .ninf
          pure (some (if forward then dy else dy.neg))
        else do
          let q ← Num.div ((Num.sub y1 y).rounded fl) ((Num.sub (.ofExt x1) (.ofExt x)).rounded fl)
          pure (some (q.rounded fl))

/-- `Curve.differential` (`curve.py:671-675`). -/
def differentialR (fl : ℚ → ℚ) (c : Crv) (forward : Bool := false) : Except Err Crv :=
  c.map 2 fun x _ => c.dYR fl x forward

/-- `_offset_interval` (`offset.py:117-127`) without duration; bounds are never `None`. -/
def offsetIntervalR (fl : ℚ → ℚ) (k : ℚ) (d : Iv) : Iv :=
  ⟨(d.lo.addQ k).rounded fl, (d.hi.addQ k).rounded fl, d.loOpen, d.hiOpen⟩

/-- `Offset(func, offset)` (`offset.py:8-106`) without duration. -/
def offsetR (fl : ℚ → ℚ) (c : Crv) (k : ℚ) : Crv where
  dom := offsetIntervalR fl k c.dom
  minStep := none
  y x :=
    let x0 := (x.addQ (-k)).rounded fl
    if !c.dom.contains x0 then .ok none else c.y x0
  xNext x m l := do
    match ← c.xNext ((x.addQ (-k)).rounded fl) m l with
    | none => pure none
    | some x1 => if !c.dom.contains x1 then pure none else pure (some ((x1.addQ k).rounded fl))
  xPrevious x m l := do
    match ← c.xPrevious ((x.addQ (-k)).rounded fl) m l with
    | none => pure none
    | some x1 => if !c.dom.contains x1 then pure none else pure (some ((x1.addQ k).rounded fl))

/-- `Offset.d_y` (`offset.py:38-49`) without duration. -/
def offsetDYR (fl : ℚ → ℚ) (c : Crv) (k : ℚ) (x : Ext) (forward : Bool := false) (minStep : Option Ext := some MIN_STEP)
    (limit : Option Ext := none) : Except Err (Option Num) :=
  let x0 := (x.addQ (-k)).rounded fl
  if !c.dom.contains x0 then .ok none else c.dYR fl x0 forward minStep limit

end Crv
end Curvepy
