import Verif.Model.Smma
import Verif.Model.RoundedSma

/-!
# `Curve.smma` with rounded arithmetic

The smoothed average when every operation on values rounds its result with `fl`: the fraction `1 / degree`, the steps of the
EMA, and the SMA that it asks for its first value (`Model/RoundedSma`).
-/

namespace Curvepy

namespace Smma
open Accum Sma

/-- `EMA._ema_scan` (`ema.py:39-53`) with `alpha = 1 / degree` and `init` the SMA (`curve.py:596-601`), like `smmaTfm`. -/
def smmaTfmR (fl : ℚ → ℚ) (n fuel : ℕ) : STfm Accum := fun S src x y ema =>
  match y with
  | none => some (S, src, .ok ema)
  | some y =>
    match ema with
    | none => (smaYR fl (.degree n) fuel { S with src := src } (.fin x)).map fun o => (o.st, o.st.src, o.res)
    | some e => some (S, src, .ok (some (fl (e + fl (fl (1 / (n : ℚ)) * fl (y - e))))))

/-- `y`. -/
def queryR (fl : ℚ → ℚ) (n fuel : ℕ) (S : Smma) (x : Ext) : Option (Smma × Except Err (Option ℚ)) :=
  (S.ema.queryS (smmaTfmR fl n fuel) S.sma x).map fun o => (⟨o.st, o.own⟩, o.res)

end Smma
end Curvepy
