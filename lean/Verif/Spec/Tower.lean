import Verif.Model.Tower
import Verif.Spec.AccumCurve
import Verif.Spec.CurveScan
import Verif.Spec.AccumHistory

/-!
# What accumulating over accumulated curves means
-/

namespace Curvepy
namespace Spec

/-- The knots with what the rule writes at them. -/
def foldedBy (g : Rule) (pts : List (Pt ℚ)) : List (Pt ℚ) := (runRule g [] [] pts).1

/-- The rule never raises. -/
def NeverRaises (g : Rule) : Prop := ∀ pts, (runRule g [] [] pts).2 = none

/-- The curve through the knots. -/
def knotCurve (i : Interp) (m : ℚ) (pts : List (Pt ℚ)) : Crv where
  dom := span pts
  minStep := some (.fin m)
  y x := .ok ((valueAtE i pts x).map .fin)
  xNext x arg _ := .ok ((stepOf m arg).bind (knotAfter pts x))
  xPrevious x arg _ := .ok ((stepOf m arg).bind (knotBefore pts x))

/-- Fold after fold, the last one first. -/
def towerKnots (g : Rule) : List Storey → List (Pt ℚ) → List (Pt ℚ)
  | [], pts => foldedBy g pts
  | S :: ls, pts => foldedBy (plainRule S.tfm) (towerKnots g ls pts)

/-- How the highest one interpolates. -/
def towerInterp (i : Interp) : List Storey → Interp
  | [] => i
  | S :: _ => S.interp

/-- Its step. -/
def towerStep (m : ℚ) : List Storey → ℚ
  | [] => m
  | S :: _ => S.minStep

/-- The largest of the steps. -/
def towerWidest (m : ℚ) : List Storey → ℚ
  | [] => m
  | S :: ls => max S.minStep (towerWidest m ls)

/-- No accumulator has a smaller step than the one below. -/
def Widening (m : ℚ) : List Storey → Prop
  | [] => True
  | S :: ls => towerStep m ls ≤ S.minStep ∧ Widening m ls

/-- The points can be accumulated by all of them. -/
def TowerFit (m : ℚ) (u : Bool) (ls : List Storey) (pts : List (Pt ℚ)) : Prop :=
  Fit m u pts ∧ ∀ S ∈ ls, Fit S.minStep S.uniform pts

/-- Something is read, at any height. -/
def TowerMove (t : Tfm) : (ls : List Storey) → TowerState ls → TowerState ls → Prop
  | [], A, B => Top (Live.base t) A B
  | S :: ls, s, s' => Top ((tower t ls).over S.tfm) s s' ∨ (s'.1 = s.1 ∧ TowerMove t ls s.2 s'.2)
where
  /-- A value, the next or previous position, the domain, or samples. -/
  Top {σ : Type} (V : Live σ) (s s' : σ) : Prop :=
    (∃ x v, V.machine.y x s = some (v, s')) ∨ (∃ x m l v, V.machine.xNext x m l s = some (v, s')) ∨
    (∃ x m l v, V.machine.xPrevious x m l s = some (v, s')) ∨ (∃ v, V.machine.dom s = some (v, s')) ∨
    ∃ d m c n v, V.sample d m c n s = some (v, s')

/-- Accumulators over each other after any reads and edits of the points. -/
inductive TowerUsed (t : Tfm) (m : ℚ) (i : Interp) (u : Bool) (ls : List Storey) : TowerState ls → Prop where
  | new {s : Pts ℚ} (hs : Honest s) (hf : TowerFit m u ls s.points) :
      TowerUsed t m i u ls (towerNew (Accum.new s m i u) ls)
  | read {s s' : TowerState ls} (h : TowerUsed t m i u ls s) (hr : TowerMove t ls s s') : TowerUsed t m i u ls s'
  | edit {s : TowerState ls} {op : Op ℚ} {r : Pts.Reads} (h : TowerUsed t m i u ls s) (hl : op.Legal)
      (he : lateError (op.run ((tower t ls).src s) r).err = false) (ht : Truthful (op.run ((tower t ls).src s) r).st)
      (hf : TowerFit m u ls (op.run ((tower t ls).src s) r).st.points) :
      TowerUsed t m i u ls ((tower t ls).edit op r s).1

end Spec
end Curvepy
