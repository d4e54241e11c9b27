import Verif.Model.CurveIntegral
import Verif.Model.Sma
import Mathlib.Data.Rat.Floor

/-!
# Arguments of the averages; averages of curves that have no beginning

`SMA.__init__`, `SMA.get_domain` over any curve, `EMA._ema_scan` with numbers that need not be finite, `Curve.sma`,
`Curve.ema` and `Curve.smma`.
-/

namespace Curvepy
namespace Sma

/-- The arguments `degree` and `is_period` of `SMA.__init__` (`sma.py:36-47`); `none` is `None`. -/
def parseWindow (degree : Option ℚ) (isPeriod : Bool) : Except Err Window :=
  if isPeriod then
    match degree with
    | none => .error .exception
    | some p => if p ≤ 0 then .error .exception else .ok (.period p)
  else
    match degree with
    | none => .error .type
    | some q => if pyInt q ≤ 0 then .error .exception else .ok (.degree (pyInt q).toNat)

/-- `n` steps ahead along any curve, `None` if there are not that many (`sma.py:25-28`). -/
def forwardBy (c : Crv) (m : ℚ) : ℕ → Ext → Except Err (Option Ext)
  | 0, x => .ok (some x)
  | n + 1, x =>
    match c.xNext x (some (.fin m)) none with
    | .error e => .error e
    | .ok none => .ok none
    | .ok (some x1) => forwardBy c m n x1

/-- The end of `SMA.get_domain` (`sma.py:31-34`) with numbers that need not be finite. -/
def domainFromBy (d : Iv) (p : Num) : Iv :=
  match Num.add (.ofExt d.lo) p with
  | .nan => Iv.empty
  | .fin q => if d.hi < .fin q then Iv.empty else ⟨.fin q, d.hi, false, false⟩
  | .pinf => if d.hi < .pinf then Iv.empty else ⟨.pinf, d.hi, false, false⟩
  | .ninf => ⟨.ninf, d.hi, false, false⟩

/-- `SMA.get_domain` (`sma.py:13-34`) over any curve. -/
def domainBy (c : Crv) (w : Window) (m : ℚ) : Except Err Iv :=
  if c.dom.isEmpty then .ok Iv.empty
  else
    match w with
    | .period p =>
      match c.xPrevious (c.dom.lo.addQ p) (some (.fin m)) none with
      | .error e => .error e
      | .ok none => .ok (domainFromBy c.dom (.fin p))
      | .ok (some x) => .ok (domainFromBy c.dom (Num.sub (.ofExt x) (.ofExt c.dom.lo)))
    | .degree n =>
      match forwardBy c m (n - 1) c.dom.lo with
      | .error e => .error e
      | .ok none => .ok Iv.empty
      | .ok (some x) => .ok (domainFromBy c.dom (Num.sub (.ofExt x) (.ofExt c.dom.lo)))

/-- The first lines of `SMA.y` (`sma.py:64-67`); `rest` is what follows them. -/
def yBy {α : Type} (c : Crv) (w : Window) (m : ℚ) (rest : Ext → Except Err (Option α)) (x : Ext) : Except Err (Option α) := do
  let d ← domainBy c w m
  if !d.contains x then return none
  rest x

end Sma

namespace CScan

/-- `EMA._ema_scan` (`ema.py:39-53`) with `alpha` and an `init` curve. -/
def emaFrom (a : ℚ) (init : ℚ → Except Err (Option ℚ)) : PTfm := fun x y ema =>
  match y, ema with
  | none, e => .ok e
  | some _, none => init x
  | some y, some e => .ok (some (e + a * (y - e)))

/-- The same with a period, once there is an average (`ema.py:47-51`), with numbers that need not be finite. -/
def emaPeriodStep (c : Crv) (period m x : ℚ) (y ema : Num) : Except Err Num := do
  match ← c.xPrevious (.fin x) (some (.fin m)) none with
  | none => .error .type
  | some x0 =>
    let a ← Num.div (Num.sub (.fin x) (.ofExt x0)) (.fin period)
    return Num.add ema (Num.mul a.abs (Num.sub y ema))

end CScan
end Curvepy
