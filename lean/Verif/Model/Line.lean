import Verif.Model.Observer
import Verif.Model.Curve

/-!
# Curves that are edited by assigning parameters: `Constant` and `Line`

Model of `constant.py:18-25` (the setter of `value`) and of `line.py`.  (The readers' view of
`Constant` is `Crv.constant`.)  Equality of values is equality (`nan`, which differs from itself, is
not assigned).  Arguments of `Line.set` that are neither numbers nor `None` are not modelled.
-/

namespace Curvepy

/-- What an observer is told, and the data that it can read at that moment. -/
inductive Note (D : Type) where
  | begin (iv : Iv) (seen : D)
  | finish (iv : Iv) (seen : D)
deriving DecidableEq, Repr

/-- A curve with data `D` and its pending updates. -/
structure Held (D : Type) where
  gate : Gate
  data : D
deriving DecidableEq, Repr

namespace Held
variable {D : Type}

/-- `begin_update(dom)`, assign, `end_update(dom)` (`constant.py:23-25`, `line.py:60-63`), on a curve
whose domain does not depend on the data. -/
def edit (h : Held D) (dom : Iv) (new : D) : Held D × List (Note D) :=
  let b := h.gate.begin dom
  let e := b.1.finish dom
  (⟨e.1, new⟩,
    (match b.2 with | some d => [.begin d h.data] | none => []) ++
    (match e.2 with | some d => [.finish d new] | none => []))

end Held

namespace Constant

/-- `c.value = v` (`constant.py:19-25`) for a constant on `dom`. -/
def setValue {V : Type} [DecidableEq V] (dom : Iv) (h : Held V) (v : V) : Held V × List (Note V) :=
  if v = h.data then (h, []) else h.edit dom v

/-- Several assignments in a row; the announcements of each. -/
def setAll {V : Type} [DecidableEq V] (dom : Iv) : Held V → List V → Held V × List (List (Note V))
  | h, [] => (h, [])
  | h, v :: vs =>
    let r := setValue dom h v
    let s := setAll dom r.1 vs
    (s.1, r.2 :: s.2)

/-- `Constant.x` (`constant.py:49-52`). -/
def x (value y : Num) : Option ℚ := if y = value then some 0 else none

end Constant

/-- The parameters of a line (`line.py:13-14`). -/
structure LineData where
  ref : ℚ × ℚ
  slope : Num
deriving DecidableEq, Repr

namespace Line

/-- Arguments of `Line(...)` and `Line.set(...)` (`line.py:36`). -/
structure Args where
  const : Option ℚ := none
  slope : Option Num := none
  p1 : Option (ℚ × ℚ) := none
  p2 : Option (ℚ × ℚ) := none
  points : Option (List (ℚ × ℚ)) := none

/-- The part of `Line.set` that works out the parameters (`line.py:37-55`). -/
def params (a : Args) : Except Err LineData := do
  let (p1, p2) ← match a.points with
    | none => pure (a.p1, a.p2)
    | some l => do
      let q1 ← pyGet l 0
      let q2 ← pyGet l 1
      pure (some q1, some q2)
  -- `p1` or the point `(0, const)`, whose second part may be `None`
  let ref : ℚ × Option ℚ := match p1 with
    | none => (0, a.const)
    | some q => (q.1, some q.2)
  let slope ← match p2 with
    | none => pure a.slope
    | some q =>
      match ref.2 with
      | none => .error .type
      | some r =>
        if q.1 ≠ ref.1 then pure (some (Num.fin ((q.2 - r) / (q.1 - ref.1))))
        else if r ≤ q.2 then pure (some Num.pinf)
        else pure (some Num.ninf)
  match ref.2, slope with
  | none, _ => .error .exception
  | some _, none => .error .exception
  | some r, some s => .ok ⟨(ref.1, r), s⟩

/-- `Line.set` (`line.py:36-63`). -/
def set (h : Held LineData) (a : Args) : Held LineData × List (Note LineData) × Option Err :=
  match params a with
  | .error e => (h, [], some e)
  | .ok d =>
    if d.ref.1 = h.data.ref.1 ∧ d.ref.2 = h.data.ref.2 ∧ d.slope = h.data.slope then (h, [], none)
    else
      let r := h.edit Iv.infinite d
      (r.1, r.2, none)

/-- `Line(...)` (`line.py:11-15`). -/
def mk (a : Args) : Except Err (Held LineData) :=
  match set ⟨Gate.init, ⟨(0, 0), .fin 0⟩⟩ a with
  | (h, _, none) => .ok h
  | (_, _, some e) => .error e

/-- `Line.y` (`line.py:65-66`). -/
def y (d : LineData) (x : Num) : Num :=
  Num.add (.fin d.ref.2) (Num.mul d.slope (Num.sub x (.fin d.ref.1)))

/-- `Line.const` (`line.py:17-19`). -/
def const (d : LineData) : Num := y d (.fin 0)

/-- `Line.d_y` (`line.py:68-69`). -/
def dY (d : LineData) : Num := d.slope

/-- `Line.x` (`line.py:71-72`). -/
def x (d : LineData) (y : Num) : Except Err Num := do
  let q ← Num.div (Num.sub y (.fin d.ref.2)) d.slope
  pure (Num.add (.fin d.ref.1) q)

/-- `Line.partial_integration` (`line.py:74-83`) between two numbers. -/
def partialIntegration (d : LineData) (a b : ℚ) : Num :=
  if a = b then .fin 0
  else
    let const := const d
    let slope := d.slope
    let ia := Num.add (Num.mul (Num.mul slope (.fin (1 / 2))) (.fin (a ^ 2)))
      (Num.mul const (.fin a))
    let ib := Num.add (Num.mul (Num.mul slope (.fin (1 / 2))) (.fin (b ^ 2)))
      (Num.mul const (.fin b))
    Num.sub ib ia

/-- A line as seen by its readers; `min_step` is infinite (`line.py:12`). -/
def crv (d : LineData) : Crv where
  dom := Iv.infinite
  minStep := some .pinf
  y := fun x => .ok (some (y d (.ofExt x)))
  xNext := Crv.baseNext Iv.infinite (some .pinf)
  xPrevious := Crv.basePrevious Iv.infinite (some .pinf)

end Line
end Curvepy
