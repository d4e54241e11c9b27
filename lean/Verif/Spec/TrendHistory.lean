import Verif.Spec.Accumulator
import Verif.Spec.Trend
import Verif.Model.TrendScan

/-!
# Histories of trends over a source
-/

namespace Curvepy
namespace Spec

/-- The trend `s` results from the scans of some points, one after another, beginning with the trend `t0`. -/
inductive ScansTo (t0 : Trd) : List (Pt ℚ) → Trd → Prop where
  | nil : ScansTo t0 [] t0
  | snoc {pre : List (Pt ℚ)} {p : Pt ℚ} {s u : Trd} {n : ℕ} (h : ScansTo t0 pre s)
      (e : s.trendScan n p.1 p.2 = .ok (.done u)) : ScansTo t0 (pre ++ [p]) u

/-- The points with a value. -/
def valued (pts : List (Pt ℚ)) : List XY := pts.filterMap fun p => p.2.map fun y => (p.1, y)

/-- From the first to the last of some points. -/
def extent (ps : List XY) : ℚ :=
  match ps.head?, ps.getLast? with
  | some p, some q => q.1 - p.1
  | _, _ => 0

/-- How many points are far enough from the point before them. -/
def spaced (d : ℚ) (ps : List XY) : ℕ := (ps.zip ps.tail).countP fun c => decide (d ≤ c.2.1 - c.1.1)

/-- A line that a trend returns at a position, or at all if there is none: it has a chord, is wide enough and has
enough points far enough apart, and its search interval contains the position. -/
structure Offered (s : Trd) (x : Option ℚ) (t : TLine) : Prop where
  line : t.line ≠ none
  width : t.minWidth ≤ extent t.trend
  wide : s.minWidth ≤ extent t.trend
  points : t.minPoints ≤ t.trend.length
  apart : t.minPoints ≤ 1 + spaced t.minDist t.trend
  covers : ∀ z, x = some z → t.search.contains (.fin z) = true

/-- Edits that add points at the end. -/
def Appends : Op ℚ → Prop
  | .append _ => True
  | .appendList _ => True
  | _ => False

/-- Trends obtained from a new trend `t0` over a source by queries and allowed edits of the source.  The gaps of the
source are at least `m`. -/
inductive Fed (allowed : Op ℚ → Prop) (t0 : Trd) (m : ℚ) : TScan → Prop where
  | new {s : Pts ℚ} (hs : Honest s) (hg : Gapped m s.points) : Fed allowed t0 m (TScan.new s t0 m)
  | query {A B : TScan} {n : ℕ} {x : ℚ} {v : Option (List TLine)} (h : Fed allowed t0 m A)
      (hq : A.query n x = some (.ok (B, v))) : Fed allowed t0 m B
  | edit {A B : TScan} {op : Op ℚ} {r : Pts.Reads} (h : Fed allowed t0 m A) (ha : allowed op) (hl : op.Legal)
      (he : lateError (op.run A.src r).err = false) (ht : Truthful (op.run A.src r).st)
      (hg : Gapped m (op.run A.src r).st.points) (hB : A.edit op r = .ok B) : Fed allowed t0 m B

end Spec
end Curvepy
