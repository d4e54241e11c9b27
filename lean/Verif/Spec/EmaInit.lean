import Verif.Model.EmaInit
import Verif.Spec.Accumulator
import Verif.Spec.History

/-!
# Averages that take their first value from another curve
-/

namespace Curvepy
namespace Spec

/-- The fraction of the way that an average goes: always the same, or the gap over the period. -/
inductive Fraction : Option ℚ → Option ℚ → (ℚ → ℚ → ℚ) → Prop where
  | alpha (a : ℚ) : Fraction (some a) none fun _ _ => a
  | period {per : ℚ} (h : per ≠ 0) : Fraction none (some per) fun x0 x => (x - x0) / |per|

/-- The values of a list of points. -/
def valuesOf (s : Pts ℚ) : ℚ → Option ℚ := valueAt s.interp s.points

/-- The averages obtained from the constructor by queries, edits of the source, edits of the other curve, and reads of the domains; with
the values that the other curve has had, the present ones first. -/
inductive Primed (alpha period : Option ℚ) (m : ℚ) (u : Bool) : List (ℚ → Option ℚ) → EmaInit → Prop where
  | new {s I : Pts ℚ} (hs : Honest s) (hf : Fit m u s.points) (hI : Honest I) :
      Primed alpha period m u [valuesOf I] (EmaInit.new s I m u)
  | query {H : List (ℚ → Option ℚ)} {E E' : EmaInit} {x : Ext} {r : Except Err (Option ℚ)} (h : Primed alpha period m u H E)
      (ho : E.query alpha period x = some (E', r)) : Primed alpha period m u H E'
  | edit {H : List (ℚ → Option ℚ)} {E : EmaInit} {op : Op ℚ} {r : Pts.Reads} (h : Primed alpha period m u H E) (hl : op.Legal)
      (he : lateError (op.run E.ema.src r).err = false) (ht : Truthful (op.run E.ema.src r).st)
      (hf : Fit m u (op.run E.ema.src r).st.points) : Primed alpha period m u H (E.edit op r)
  | editInit {H : List (ℚ → Option ℚ)} {E : EmaInit} {op : Op ℚ} {r : Pts.Reads} (h : Primed alpha period m u H E) (hl : op.Legal)
      (he : lateError (op.run E.init r).err = false) (ht : Truthful (op.run E.init r).st) :
      Primed alpha period m u (valuesOf (op.run E.init r).st :: H) (E.editInit op r)
  | read {H : List (ℚ → Option ℚ)} {E : EmaInit} (h : Primed alpha period m u H E) : Primed alpha period m u H E.touch
  | readSource {H : List (ℚ → Option ℚ)} {E : EmaInit} (h : Primed alpha period m u H E) : Primed alpha period m u H E.touchSource

end Spec
end Curvepy
