import Verif.Spec.Sma
import Verif.Model.RoundedSma

/-!
# Histories of a simple moving average with rounded arithmetic
-/

namespace Curvepy
namespace Spec
open Sma

/-- The averages obtained from the constructor by queries (also ones that raised), edits of the source and
reads of the two domains. -/
inductive AveragingR (fl : ℚ → ℚ) (w : Window) (m : ℚ) (u : Bool) : Accum → Prop where
  | new {s : Pts ℚ} {A : Accum} (hs : Honest s) (hf : AllFit m u s.points) (h : Sma.new s w m u = .ok A) :
      AveragingR fl w m u A
  | query {A : Accum} {fuel : ℕ} {x : Ext} {o : Accum.Out (Option ℚ)} (h : AveragingR fl w m u A)
      (ho : smaYR fl w fuel A x = some o) : AveragingR fl w m u o.st
  | edit {A : Accum} {op : Op ℚ} {r : Pts.Reads} (h : AveragingR fl w m u A) (hl : op.Legal)
      (he : lateError (op.run A.src r).err = false) (ht : Truthful (op.run A.src r).st)
      (hf : AllFit m u (op.run A.src r).st.points) : AveragingR fl w m u (A.edit op r).1
  | read {A : Accum} (h : AveragingR fl w m u A) : AveragingR fl w m u (smaTouch w A).1
  | readSource {A : Accum} (h : AveragingR fl w m u A) : AveragingR fl w m u { A with src := A.src.touch }

end Spec
end Curvepy
