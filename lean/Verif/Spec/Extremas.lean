import Verif.Model.Extremas
import Verif.Spec.Accumulator

/-!
# Extremas, as documented

An excursion is a maximal run of points on one side of the reference.  Its extremum is the first of its most
distant points.  The last excursion may not be over.
-/

namespace Curvepy
namespace Spec

/-- A point with its distance from the reference. -/
structure Dev where
  x : ℚ
  y : ℚ
  phase : ℚ
deriving DecidableEq

/-- The points that deviate enough. -/
def deviating (ref : ℚ → Option ℚ) (dev : ℚ) : List (Pt ℚ) → List Dev
  | [] => []
  | (x, some y) :: ps =>
    match ref x with
    | some y0 => if dev < |y / y0 - 1| then ⟨x, y, y - y0⟩ :: deviating ref dev ps else deviating ref dev ps
    | none => deviating ref dev ps
  | (_, none) :: ps => deviating ref dev ps

/-- All on one side. -/
def Side (up : Bool) (r : List Dev) : Prop := ∀ p ∈ r, if up then 0 < p.phase else p.phase < 0

/-- A division into excursions: not empty, each on one side, neighbours on opposite sides. -/
structure Excursions (l : List Dev) (rs : List (List Dev × Bool)) : Prop where
  all : (rs.map Prod.fst).flatten = l
  side : ∀ r ∈ rs, r.1 ≠ [] ∧ Side r.2 r.1
  alternate : rs.IsChain fun a b => a.2 ≠ b.2

/-- `e` is the first of the most distant points of an excursion. -/
def IsPeak (r : List Dev × Bool) (e : ℚ × ℚ) : Prop :=
  ∃ a p b, r.1 = a ++ p :: b ∧ e = (p.x, p.y) ∧
    (∀ q ∈ a, if r.2 then q.y < p.y else p.y < q.y) ∧
    (∀ q ∈ b, if r.2 then q.y ≤ p.y else p.y ≤ q.y)

/-- The reference is never zero at a point with a value. -/
def RefFine (ref : ℚ → Option ℚ) (pts : List (Pt ℚ)) : Prop :=
  ∀ p ∈ pts, p.2.isSome → ref p.1 ≠ some 0

/-- Extremas obtained from the constructor by queries and edits of the source that only add points at
its end.  The gaps of the source are at least `m` and the reference is fine at its points. -/
inductive Scanned (ref : ℚ → Option ℚ) (dev m : ℚ) : Extr → Prop where
  | new {s : Pts ℚ} (hs : Honest s) (hg : Gapped m s.points) (hf : RefFine ref s.points) :
      Scanned ref dev m (Extr.new s ref dev m)
  | query {A B : Extr} {x : Ext} {v : Except Err (Option ℚ)} (h : Scanned ref dev m A)
      (hq : A.query x = some (B, v)) : Scanned ref dev m B
  | edit {A : Extr} {op : Op ℚ} {r : Pts.Reads} (h : Scanned ref dev m A) (hl : op.Legal)
      (he : lateError (op.run A.src r).err = false) (ht : Truthful (op.run A.src r).st)
      (hg : Gapped m (op.run A.src r).st.points) (hf : RefFine ref (op.run A.src r).st.points)
      (hadd : A.src.points <+: (op.run A.src r).st.points) : Scanned ref dev m (A.edit op r).1

end Spec
end Curvepy
