import Verif.Spec.MetHistory

/-!
# Accumulating with a view of all points so far, also of those passed over
-/

namespace Curvepy
namespace Accum
open Spec

/-- What to write at the last of the given points of the source, knowing what was written before. -/
abbrev PastRule := List (Pt ℚ) → List (Pt ℚ) → Except Err (Option ℚ)

/-- The points up to a position. -/
def through (pts : List (Pt ℚ)) (x : ℚ) : List (Pt ℚ) := pts.filter fun p => decide (p.1 ≤ x)

/-- As a rule for the points met. -/
def pastRule (h : PastRule) (pts : List (Pt ℚ)) : Rule := fun knots out =>
  match knots.getLast? with
  | none => .ok none
  | some p => h (through pts p.1) out

/-- On sources with `P`, the transform does at each point met what the rule says. -/
def FollowsPast (P : List (Pt ℚ) → Prop) (m : ℚ) (t : Tfm) (h : PastRule) : Prop :=
  ∀ (src acc : Pts ℚ) (seen rest : List (Pt ℚ)) (p : Pt ℚ), Honest src → Honest acc → P src.points →
    met m src.points = seen ++ p :: rest → acc.points.map Prod.fst = seen.map Prod.fst →
    t src acc p.1 p.2 (lastOut acc.points) = h (through src.points p.1) acc.points

/-- Accumulators obtained from the constructor by queries (also ones that raised), edits of the source and reads of the
two domains, while the source always has `P`. -/
inductive Roamed (P : List (Pt ℚ) → Prop) (t : Tfm) (m : ℚ) (i : Interp) (u : Bool) : Accum → Prop where
  | new {s : Pts ℚ} (hs : Honest s) (hf : Paced m u s.points) (hP : P s.points) : Roamed P t m i u (Accum.new s m i u)
  | query {A : Accum} {x : Ext} {o : Out (Option ℚ)} (h : Roamed P t m i u A)
      (ho : A.query t x = some o) : Roamed P t m i u o.st
  | edit {A : Accum} {op : Op ℚ} {r : Pts.Reads} (h : Roamed P t m i u A) (hl : op.Legal)
      (he : lateError (op.run A.src r).err = false) (ht : Truthful (op.run A.src r).st)
      (hf : Paced m u (op.run A.src r).st.points) (hP : P (op.run A.src r).st.points) :
      Roamed P t m i u (A.edit op r).1
  | read {A : Accum} (h : Roamed P t m i u A) : Roamed P t m i u A.touch
  | readSource {A : Accum} (h : Roamed P t m i u A) : Roamed P t m i u { A with src := A.src.touch }

/-- The points that someone meets who walks back from `a` in steps of at least `m`; latest first. -/
def metBack (m : ℚ) : ℚ → List (Pt ℚ) → List (Pt ℚ)
  | _, [] => []
  | a, p :: ps => if p.1 + m ≤ a then p :: metBack m p.1 ps else metBack m a ps

/-- A moving average with a period: the time is counted from the last point at least `m` before, met or not. -/
def emaPast (m per : ℚ) (init : Option (ℚ → Option ℚ)) : PastRule := fun past out =>
  match past.reverse with
  | [] => .ok none
  | p :: before => .ok (emaStep (fun x0 x => (x - x0) / |per|) init (metBack m p.1 before).head? (lastOut out) p)

/-- A function of the value here and of the `n - 1` values that someone meets who walks back in steps of at least `m`, until
a missing one. -/
def fewPast (m : ℚ) (n : ℕ) (f : List (Option ℚ) → Except Err (Option ℚ)) : PastRule := fun past _ =>
  match past.reverse with
  | [] => .ok none
  | p :: before => f (p.2 :: (((metBack m p.1 before).take (n - 1)).map Prod.snd).takeWhile Option.isSome)

/-- A function of the value here and of all values at most `per` before. -/
def recentPast (per : ℚ) (f : List (Option ℚ) → Except Err (Option ℚ)) : PastRule := fun past _ =>
  match past.reverse with
  | [] => .ok none
  | p :: before => f (p.2 :: (before.filter fun q => decide (p.1 - per ≤ q.1)).map Prod.snd)

/-- The points that someone meets who walks back from the last one up to `x`, beginning with it; latest first. -/
def walkBack (m : ℚ) (pts : List (Pt ℚ)) (x : ℚ) : List (Pt ℚ) :=
  match (through pts x).reverse with
  | [] => []
  | p :: before => p :: metBack m p.1 before

/-- The gaps are at least `m` on average. -/
def Loose (m : ℚ) (pts : List (Pt ℚ)) : Prop :=
  ∀ p q : Pt ℚ, pts.head? = some p → pts.getLast? = some q → p.1 + m * (pts.length - 1 : ℕ) ≤ q.1

end Accum
end Curvepy
