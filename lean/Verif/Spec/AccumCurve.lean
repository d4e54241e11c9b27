import Verif.Spec.Accumulator
import Verif.Model.Sampling

/-!
# The curve accumulated over a list of knots, as a curve without any state
-/

namespace Curvepy
namespace Spec

/-- The next knot at least `a` after `x`. -/
def knotAfter (pts : List (Pt ℚ)) (x : Ext) (a : ℚ) : Option Ext :=
  match x with
  | .ninf => pts.head?.map fun p => .fin p.1
  | .fin q => (firstFrom pts (q + a)).map .fin
  | .pinf => none

/-- The last knot at least `a` before `x`. -/
def knotBefore (pts : List (Pt ℚ)) (x : Ext) (a : ℚ) : Option Ext :=
  match x with
  | .pinf => pts.getLast?.map fun p => .fin p.1
  | .fin q => (lastUpTo pts (q - a)).map .fin
  | .ninf => none

/-- The step in force: the larger of the two; `none` stands for an infinite one. -/
def stepOf (m : ℚ) : Option Ext → Option ℚ
  | none => some m
  | some (.fin a) => some (max a m)
  | some .ninf => some m
  | some .pinf => none

/-- Values: the fold over the knots; positions: the knots. -/
def accumulatedCurve (g : Rule) (i : Interp) (m : ℚ) (pts : List (Pt ℚ)) : Crv where
  dom := span pts
  minStep := some (.fin m)
  y x := (accumulatedAt g i pts x).map (Option.map .fin)
  xNext x arg _ := .ok ((stepOf m arg).bind (knotAfter pts x))
  xPrevious x arg _ := .ok ((stepOf m arg).bind (knotBefore pts x))

/-- An outcome on the domain `d`, if what has to be accumulated up to its end can be. -/
def ifFolded {α : Type} (g : Rule) (pts : List (Pt ℚ)) (d : Iv) (r : Option (Except Err α)) : Option (Except Err α) :=
  if d.isEmpty then r
  else
    match d.hi with
    | .fin q =>
      match runRule g [] [] (upTo q pts) with
      | (_, none) => r
      | (_, some e) => some (.error e)
    | _ => r

end Spec
end Curvepy
