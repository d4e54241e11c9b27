import Verif.Model.Reset
import Verif.Spec.AccumHistory
import Verif.Spec.EmaInit
import Verif.Spec.Sma

/-!
# Histories in which everything is calculated anew from time to time
-/

namespace Curvepy
namespace Spec
open Accum

/-- Accumulators obtained from the constructor by queries with a transform that follows the rule, edits and reads, and by starting
anew: after that the transform and the rule may be others. -/
inductive Renewed (m : ℚ) (i : Interp) (u : Bool) : Tfm → Rule → Accum → Prop where
  | new {t : Tfm} {g : Rule} {s : Pts ℚ} (hg : Follows m t g) (hs : Honest s) (hf : Fit m u s.points) :
      Renewed m i u t g (Accum.new s m i u)
  | query {t : Tfm} {g : Rule} {A : Accum} {x : Ext} {o : Out (Option ℚ)} (h : Renewed m i u t g A) (ho : A.query t x = some o) :
      Renewed m i u t g o.st
  | edit {t : Tfm} {g : Rule} {A : Accum} {op : Op ℚ} {r : Pts.Reads} (h : Renewed m i u t g A) (hl : op.Legal)
      (he : lateError (op.run A.src r).err = false) (ht : Truthful (op.run A.src r).st)
      (hf : Fit m u (op.run A.src r).st.points) : Renewed m i u t g (A.edit op r).1
  | read {t : Tfm} {g : Rule} {A : Accum} (h : Renewed m i u t g A) : Renewed m i u t g A.touch
  | readSource {t : Tfm} {g : Rule} {A : Accum} (h : Renewed m i u t g A) : Renewed m i u t g { A with src := A.src.touch }
  | anew {t t' : Tfm} {g g' : Rule} {A : Accum} (h : Renewed m i u t g A) (hg : Follows m t' g') :
      Renewed m i u t' g' A.recalculate.1

/-- Simple moving averages, with the same. -/
inductive AveragingAnew (w : Sma.Window) (m : ℚ) (u : Bool) : Accum → Prop where
  | new {s : Pts ℚ} {A : Accum} (hs : Honest s) (hf : AllFit m u s.points) (h : Sma.new s w m u = .ok A) : AveragingAnew w m u A
  | query {A : Accum} {fuel : ℕ} {x : Ext} {o : Accum.Out (Option ℚ)} (h : AveragingAnew w m u A)
      (ho : Sma.smaY w fuel A x = some o) : AveragingAnew w m u o.st
  | edit {A : Accum} {op : Op ℚ} {r : Pts.Reads} (h : AveragingAnew w m u A) (hl : op.Legal)
      (he : lateError (op.run A.src r).err = false) (ht : Truthful (op.run A.src r).st)
      (hf : AllFit m u (op.run A.src r).st.points) : AveragingAnew w m u (A.edit op r).1
  | read {A : Accum} (h : AveragingAnew w m u A) : AveragingAnew w m u (Sma.smaTouch w A).1
  | readSource {A : Accum} (h : AveragingAnew w m u A) : AveragingAnew w m u { A with src := A.src.touch }
  | anew {A : Accum} (h : AveragingAnew w m u A) : AveragingAnew w m u A.recalculate.1

/-- Averages with an `init` curve, with the values that this curve has had since all was last calculated anew, the present ones first. -/
inductive PrimedAnew (alpha period : Option ℚ) (m : ℚ) (u : Bool) : List (ℚ → Option ℚ) → EmaInit → Prop where
  | new {s I : Pts ℚ} (hs : Honest s) (hf : Fit m u s.points) (hI : Honest I) :
      PrimedAnew alpha period m u [valuesOf I] (EmaInit.new s I m u)
  | query {H : List (ℚ → Option ℚ)} {E E' : EmaInit} {x : Ext} {r : Except Err (Option ℚ)} (h : PrimedAnew alpha period m u H E)
      (ho : E.query alpha period x = some (E', r)) : PrimedAnew alpha period m u H E'
  | edit {H : List (ℚ → Option ℚ)} {E : EmaInit} {op : Op ℚ} {r : Pts.Reads} (h : PrimedAnew alpha period m u H E) (hl : op.Legal)
      (he : lateError (op.run E.ema.src r).err = false) (ht : Truthful (op.run E.ema.src r).st)
      (hf : Fit m u (op.run E.ema.src r).st.points) : PrimedAnew alpha period m u H (E.edit op r)
  | editInit {H : List (ℚ → Option ℚ)} {E : EmaInit} {op : Op ℚ} {r : Pts.Reads} (h : PrimedAnew alpha period m u H E) (hl : op.Legal)
      (he : lateError (op.run E.init r).err = false) (ht : Truthful (op.run E.init r).st) :
      PrimedAnew alpha period m u (valuesOf (op.run E.init r).st :: H) (E.editInit op r)
  | read {H : List (ℚ → Option ℚ)} {E : EmaInit} (h : PrimedAnew alpha period m u H E) : PrimedAnew alpha period m u H E.touch
  | readSource {H : List (ℚ → Option ℚ)} {E : EmaInit} (h : PrimedAnew alpha period m u H E) :
      PrimedAnew alpha period m u H E.touchSource
  | anew {H : List (ℚ → Option ℚ)} {E : EmaInit} (h : PrimedAnew alpha period m u H E) :
      PrimedAnew alpha period m u [valuesOf E.init] E.recalculate.1

end Spec
end Curvepy
