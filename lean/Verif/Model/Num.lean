import Verif.Model.Py
import Verif.Model.Ext

/-!
# Python numbers

Values of curves.  Finite numbers are exact rationals (DESIGN.md, trusted base); the special values
of IEEE arithmetic are kept because `divide_many` (`curve.py:799`) and `d_y` (`curve.py:107`)
produce infinities.
-/

namespace Curvepy

/-- A Python number. -/
inductive Num where
  | fin (q : ℚ)
  | pinf
  | ninf
  | nan
deriving DecidableEq, Repr

namespace Num

/-- `-a`. -/
def neg : Num → Num
  | fin q => fin (-q)
  | pinf => ninf
  | ninf => pinf
  | nan => nan

/-- `abs(a)`. -/
def abs : Num → Num
  | fin q => fin |q|
  | nan => nan
  | _ => pinf

/-- `a + b`. -/
def add : Num → Num → Num
  | fin a, fin b => fin (a + b)
  | nan, _ => nan
  | _, nan => nan
  | pinf, ninf => nan
  | ninf, pinf => nan
  | pinf, _ => pinf
  | ninf, _ => ninf
  | fin _, pinf => pinf
  | fin _, ninf => ninf

/-- `a - b`. -/
def sub (a b : Num) : Num := add a (neg b)

/-- Infinity with the sign of `q`, `nan` for 0. -/
def infOf (q : ℚ) : Num := if q = 0 then nan else if 0 < q then pinf else ninf

/-- `a * b`. -/
def mul : Num → Num → Num
  | fin a, fin b => fin (a * b)
  | nan, _ => nan
  | _, nan => nan
  | pinf, pinf => pinf
  | pinf, ninf => ninf
  | ninf, pinf => ninf
  | ninf, ninf => pinf
  | pinf, fin b => infOf b
  | ninf, fin b => infOf (-b)
  | fin a, pinf => infOf a
  | fin a, ninf => infOf (-a)

/-- `a / b`; `ZeroDivisionError` for every `a` if `b` is 0. -/
def div : Num → Num → Except Err Num
  | a, fin b =>
    if b = 0 then .error .zeroDiv
    else
      match a with
      | fin a => .ok (fin (a / b))
      | pinf => .ok (infOf b)
      | ninf => .ok (infOf (-b))
      | nan => .ok nan
  | nan, _ => .ok nan
  | _, nan => .ok nan
  | fin _, _ => .ok (fin 0)
  | _, _ => .ok nan

/-- `a < b`. -/
def lt : Num → Num → Bool
  | fin a, fin b => decide (a < b)
  | nan, _ => false
  | _, nan => false
  | ninf, ninf => false
  | ninf, _ => true
  | fin _, pinf => true
  | _, _ => false

/-- `a <= b`. -/
def le : Num → Num → Bool
  | fin a, fin b => decide (a ≤ b)
  | nan, _ => false
  | _, nan => false
  | ninf, _ => true
  | _, pinf => true
  | _, _ => false

/-- A position as a number. -/
def ofExt : Ext → Num
  | .fin q => fin q
  | .pinf => pinf
  | .ninf => ninf

end Num
end Curvepy
