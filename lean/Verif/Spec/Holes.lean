import Verif.Spec.Sma
import Verif.Model.Smma

/-!
# Averages over points of which some have no value
-/

namespace Curvepy
namespace Spec

/-- The area between two neighbours, if both have values. -/
def jointArea (p q : Pt ℚ) : ℚ :=
  match p.2, q.2 with
  | some y, some z => (q.1 - p.1) * ((y + z) / 2)
  | _, _ => 0

/-- The sum of these areas. -/
def partArea : List (Pt ℚ) → ℚ
  | p :: q :: ps => jointArea p q + partArea (q :: ps)
  | _ => 0

/-- Some point has a value. -/
def Valued (l : List (Pt ℚ)) : Bool := l.any fun p => p.2.isSome

/-- The points from number `j` to number `k`. -/
def stretch (P : List (Pt ℚ)) (j k : ℕ) : List (Pt ℚ) := (P.take (k + 1)).drop j

/-- How far the first and the last are apart. -/
def apartBy (l : List (Pt ℚ)) : ℚ :=
  match l.head?, l.getLast? with
  | some p, some q => q.1 - p.1
  | _, _ => 0

/-- How much of this lies between neighbours that both have values. -/
def coveredBy : List (Pt ℚ) → ℚ
  | p :: q :: ps => (if p.2.isSome && q.2.isSome then q.1 - p.1 else 0) + coveredBy (q :: ps)
  | _ => 0

/-- The number of the first point with a value that is at least number `n - 1`. -/
def startAt (n : ℕ) (P : List (Pt ℚ)) : Option ℕ :=
  (List.range P.length).find? fun k => decide (n ≤ k + 1) && (P[k]?.any fun p => p.2.isSome)

/-- The average of the window that ends there, then a part `1 / n` of the way to each further value. -/
def smoothedOver (n : ℕ) (P : List (Pt ℚ)) : Option ℚ :=
  (startAt n P).map fun k =>
    ((P.drop (k + 1)).filterMap Prod.snd).foldl (fun s y => s + (y - s) / n)
      (partArea (stretch P (k + 1 - n) k) / apartBy (stretch P (k + 1 - n) k))

/-- The first point has a value, and so has, if any from number `n - 1` on, one up to number `2(n - 1)`. -/
def StartsFirm (n : ℕ) (P : List (Pt ℚ)) : Prop :=
  (∀ p, P.head? = some p → p.2 ≠ none) ∧
    ∀ (k : ℕ) p, P[k]? = some p → p.2 ≠ none → 2 * n ≤ k + 1 → ∃ (i : ℕ) (q : Pt ℚ), P[i]? = some q ∧ q.2 ≠ none ∧ n ≤ i + 1 ∧ i + 1 < 2 * n

/-- The smoothed averages obtained from the constructor by queries, edits of the source and reads of the two domains. -/
inductive SmoothingOver (n : ℕ) (m : ℚ) (u : Bool) : Smma → Prop where
  | new {s : Pts ℚ} {S : Smma} (hs : Honest s) (hf : AllFit m u s.points) (hl : StartsFirm n s.points)
      (h : Smma.new s n m u = .ok S) : SmoothingOver n m u S
  | query {S S' : Smma} {fuel : ℕ} {x : Ext} {r : Except Err (Option ℚ)} (h : SmoothingOver n m u S)
      (ho : S.query n (fuel + 1) x = some (S', r)) : SmoothingOver n m u S'
  | edit {S : Smma} {op : Op ℚ} {r : Pts.Reads} (h : SmoothingOver n m u S) (hl : op.Legal)
      (he : lateError (op.run S.ema.src r).err = false) (ht : Truthful (op.run S.ema.src r).st)
      (hf : AllFit m u (op.run S.ema.src r).st.points) (hd : StartsFirm n (op.run S.ema.src r).st.points) :
      SmoothingOver n m u (S.edit op r)
  | read {S : Smma} (h : SmoothingOver n m u S) : SmoothingOver n m u S.touch
  | readSource {S : Smma} (h : SmoothingOver n m u S) : SmoothingOver n m u S.touchSource

end Spec
end Curvepy
