import Verif.Model.RoundedSmma
import Verif.Props.Smma
import Verif.Props.RoundedSma

/-!
# Smoothed moving averages with rounded arithmetic
-/

namespace Curvepy
namespace Spec
open Smma

/-- The smoothed averages obtained from the constructor by queries, edits of the source and reads of the two domains.  The
first `n` points of the source always have values. -/
inductive SmoothingR (fl : ℚ → ℚ) (n : ℕ) (m : ℚ) (u : Bool) : Smma → Prop where
  | new {s : Pts ℚ} {S : Smma} (hs : Honest s) (hf : AllFit m u s.points) (hl : StartsWhole n s.points)
      (h : Smma.new s n m u = .ok S) : SmoothingR fl n m u S
  | query {S S' : Smma} {fuel : ℕ} {x : Ext} {r : Except Err (Option ℚ)} (h : SmoothingR fl n m u S)
      (ho : S.queryR fl n (fuel + 1) x = some (S', r)) : SmoothingR fl n m u S'
  | edit {S : Smma} {op : Op ℚ} {r : Pts.Reads} (h : SmoothingR fl n m u S) (hl : op.Legal)
      (he : lateError (op.run S.ema.src r).err = false) (ht : Truthful (op.run S.ema.src r).st)
      (hf : AllFit m u (op.run S.ema.src r).st.points) (hd : StartsWhole n (op.run S.ema.src r).st.points) :
      SmoothingR fl n m u (S.edit op r)
  | read {S : Smma} (h : SmoothingR fl n m u S) : SmoothingR fl n m u S.touch
  | readSource {S : Smma} (h : SmoothingR fl n m u S) : SmoothingR fl n m u S.touchSource

end Spec
end Curvepy
