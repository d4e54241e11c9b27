import Verif.Model.Trend

/-!
# Trend lines, as documented
-/

namespace Curvepy
namespace Spec

/-- Sorted by `x`. -/
def SortedX (a : List XY) : Prop := a.Pairwise fun p q => p.1 ≤ q.1

/-- Sorted by `x`, each `x` once. -/
def StrictX (a : List XY) : Prop := a.Pairwise fun p q => p.1 < q.1

/-- The first point of a list at `x`. -/
def firstAt (ps : List XY) (x : ℚ) : Option XY := ps.find? fun q => decide (q.1 = x)

/-- The point `r` lies on the straight line through `p` and `q`. -/
def OnLine (l : Chord) (r : XY) : Prop := (l.2.1 - l.1.1) * (r.2 - l.1.2) = (l.2.2 - l.1.2) * (r.1 - l.1.1)

/-- The two lines have the same direction (a point counts as having any). -/
def Parallel (l k : Chord) : Prop := (l.2.1 - l.1.1) * (k.2.2 - k.1.2) = (l.2.2 - l.1.2) * (k.2.1 - k.1.1)

/-- Lines obtained from the constructor by appending points and by updates, in any order and with any
underlying points. -/
inductive Grown : TLine → Prop where
  | new (w : ℚ) (u : Bool) (m : ℕ) (d s : ℚ) (r a : Option ℚ) (g : ℚ) : Grown (TLine.new w u m d s r a g)
  | append {t t' : TLine} {p : XY} {under : List XY} {b : Bool} (h : Grown t)
      (e : t.didAppend p under = .ok (t', b)) : Grown t'
  | update {t t' : TLine} {dom : Iv} {under : List XY} (h : Grown t)
      (e : t.beginUpdate dom under = .ok t') : Grown t'

/-- Tolerances are not negative. -/
structure Tolerant (t : TLine) : Prop where
  abs : ∀ a, t.yAbs = some a → 0 ≤ a
  rel : ∀ r, t.yRel = some r → 0 ≤ r

/-! ### Predictions -/

open Trend

/-- The last extremum of a series of points of interest. -/
def lastExtremum (ms : List Mark) : Option XY :=
  ((ms.filter fun m => decide (m.kind = .extrema)).getLast?).map (·.pt)

/-- The line was touched often enough before it was first crossed at `i`. -/
structure Opening (t : TLine) (a : List Mark) (i : Mark) : Prop where
  first : ∀ m ∈ a, m.kind ≠ .intersection
  enough : t.minPoints ≤ (a.filter fun m => decide (m.kind = .tangent)).length
  crossed : i.kind = .intersection

/-- After the crossing the line was retested in time, last at `r`; `e` is the last extremum before that; since
then there were only extremas. -/
structure Retested (t : TLine) (o : XY) (a : List Mark) (i : Mark) (b : List Mark) (e : XY) (r : Mark)
    (c : List Mark) : Prop where
  opening : Opening t a i
  once : ∀ m ∈ b, m.kind ≠ .intersection
  last : lastExtremum b = some e
  touched : r.kind = .tangent
  inTime : r.pt.1 ≤ i.pt.1 + (i.pt.1 - o.1) / t.gold
  since : ∀ m ∈ c, m.kind = .extrema

/-- The point is beyond the line from the origin `o` through `e`, out of tolerance. -/
def Confirms (t : TLine) (o e q : XY) : Prop :=
  ∃ y, lineY (o, e) q.1 = some y ∧ if t.upper then t.tolMax y ≤ q.2 else q.2 ≤ t.tolMin y

/-- The value predicted from the crossing `i` and the extremum `e`. -/
def predictedY (t : TLine) (i e : XY) : ℚ := i.2 + (e.2 - i.2) * (t.gold * t.gold)

/-- The point reaches the predicted value, within tolerance. -/
def Reaches (t : TLine) (i e q : XY) : Prop :=
  if t.upper then t.tolMin (predictedY t i e) ≤ q.2 else q.2 ≤ t.tolMax (predictedY t i e)

/-- The series of points of interest ends with the success of the prediction at `p`. -/
def Succeeds (t : TLine) (o : XY) (ms : List Mark) (p : XY) : Prop :=
  ∃ a i b e r c q, ms = a ++ i :: (b ++ r :: (c ++ [q])) ∧ Retested t o a i b e r (c ++ [q]) ∧
    (∃ m ∈ c ++ [q], Confirms t o e m.pt) ∧ Reaches t i.pt e q.pt ∧ p = q.pt

/-- Calls of `update_prediction`, each with points of interest and underlying points. -/
def predictions (t : TLine) (d : Pred) : List (List Mark × List XY) → Except Err Pred
  | [] => .ok d
  | c :: cs => do
    let d ← t.predict d c.1 c.2
    predictions t d cs

/-! ### Scans -/

/-- Trends obtained from the constructor by scanning points and by updates. -/
inductive TrdScanned : Trd → Prop where
  | new (w : ℚ) (m : ℕ) (d s : ℚ) (r a : Option ℚ) (g : ℚ) : TrdScanned (Trd.new w m d s r a g)
  | scan {s s' : Trd} {n : ℕ} {x : ℚ} {y : Option ℚ} (h : TrdScanned s)
      (e : s.trendScan n x y = .ok (.done s')) : TrdScanned s'
  | update {s s' : Trd} {dom : Iv} (h : TrdScanned s) (e : s.beginUpdate dom = .ok s') : TrdScanned s'

/-- A new trend after the scans of `k` points. -/
inductive Begun : ℕ → Trd → Prop where
  | new (w : ℚ) (m : ℕ) (d s : ℚ) (r a : Option ℚ) (g : ℚ) : Begun 0 (Trd.new w m d s r a g)
  | scan {k : ℕ} {s s' : Trd} {n : ℕ} {x : ℚ} {y : Option ℚ} (h : Begun k s)
      (e : s.trendScan n x y = .ok (.done s')) : Begun (k + 1) s'

/-- The scan of a point does not end, neither with a result nor with an exception. -/
def Endless (s : Trd) (x : ℚ) (y : Option ℚ) : Prop :=
  ∀ n, ∃ s' l p, s.trendScan n x y = .ok (.more s' l p)

end Spec
end Curvepy
