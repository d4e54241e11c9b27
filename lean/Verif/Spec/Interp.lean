import Verif.Model.Points

/-!
# What a curve through points means

Specification of interpolation, neighbouring knots and equal spacing, by plain recursion on
the list of points: no index arithmetic, no bisection, no state.
-/

namespace Curvepy
namespace Spec
variable {V : Type}

/-- Value strictly between two neighbouring knots. -/
def between [Lerp V] (mode : Interp) (p q : Pt V) (x : ℚ) : Option V :=
  match mode with
  | .previous => p.2
  | .next => q.2
  | .linear =>
    match p.2, q.2 with
    | some a, some b => some (Lerp.lerp ((x - p.1) / (q.1 - p.1)) a b)
    | _, _ => none

/-- Value at `x` of the curve through the knots (ascending): walk the knots. -/
def valueAt [Lerp V] (mode : Interp) : List (Pt V) → ℚ → Option V
  | [], _ => none
  | [p], x => if x = p.1 then p.2 else none
  | p :: q :: ps, x =>
    if x < p.1 then none
    else if x = p.1 then p.2
    else if x < q.1 then between mode p q x
    else valueAt mode (q :: ps) x

/-- Value at any position; a curve through points is undefined at `±inf`. -/
def valueAtE [Lerp V] (mode : Interp) (pts : List (Pt V)) : Ext → Option V
  | .fin x => valueAt mode pts x
  | _ => none

/-- Strictly ascending in `x`. -/
def Ascending (pts : List (Pt V)) : Prop := pts.Pairwise (fun p q => p.1 < q.1)

/-- All gaps between neighbours are the same. -/
def EquallySpaced (pts : List (Pt V)) : Prop :=
  ∃ d : ℚ, pts.IsChain (fun p q => q.1 - p.1 = d)

/-- The first knot at or after `a`. -/
def firstFrom (pts : List (Pt V)) (a : ℚ) : Option ℚ :=
  (pts.find? (fun p => decide (a ≤ p.1))).map Prod.fst

/-- The last knot at or before `a`. -/
def lastUpTo (pts : List (Pt V)) (a : ℚ) : Option ℚ :=
  (pts.reverse.find? (fun p => decide (p.1 ≤ a))).map Prod.fst

/-- `[first x, last x]`, or empty. -/
def span (pts : List (Pt V)) : Iv :=
  match pts.head?, pts.getLast? with
  | some p, some q => ⟨.fin p.1, .fin q.1, false, false⟩
  | _, _ => Iv.empty

end Spec
end Curvepy
