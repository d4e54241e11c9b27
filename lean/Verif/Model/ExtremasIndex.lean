import Verif.Model.Extremas

/-!
# The index of a position among extremas

Model of `Extremas._i`.
-/

namespace Curvepy
namespace Extr

/-- `_i` (`extremas.py:137-148`). -/
def index (es : List (ℚ × ℚ)) (x : ℚ) : Except Err (Option ℚ) :=
  if !(interval es).contains (.fin x) then .ok none
  else if .fin x = (interval es).lo then .ok (some 0)
  else if .fin x = (interval es).hi then .ok (some ((es.length : ℤ) - 1 : ℤ))
  else do
    let i : ℤ := bisectRight es x
    let p1 ← pyGet es (i - 1)
    let p2 ← pyGet es i
    if p2.1 - p1.1 = 0 then .error .zeroDiv
    else
      let u := (x - p1.1) / (p2.1 - p1.1)
      pure (some (i + u))

end Extr
end Curvepy
