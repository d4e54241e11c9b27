import Verif.Model.Ext

/-!
# Intervals

Model of the part of `intervalpy.Interval` that curvepy uses.  `intervalpy` is a third
party dependency whose source is not in /repo; what is below is its *assumed* contract
(trusted base): an interval is a convex set of positions given by two bounds and two
open/closed flags, `union` is the smallest single interval covering its arguments.
That this contract is the set-theoretic one is proved in `Verif/Lemmas/Interval.lean`.
-/

namespace Curvepy
open Ext

/-- `intervalpy.Interval` (imported at `curve.py:8`): `start`, `end`, `start_open`,
`end_open`. -/
structure Iv where
  lo : Ext
  hi : Ext
  loOpen : Bool
  hiOpen : Bool
deriving DecidableEq, Repr

namespace Iv

/-- `Interval.empty()`, used e.g. at `curve.py:55`. -/
def empty : Iv := ⟨fin 0, fin 0, true, true⟩

/-- `Interval.infinite()`, `constant.py:32`.  It contains `inf` itself: `test/constant_test.py`
expects `Constant(1).x_next(0) == math.inf`. -/
def infinite : Iv := ⟨ninf, pinf, false, false⟩

/-- `Interval.closed(a, b)`, `points.py:76`. -/
def closed (a b : ℚ) : Iv := ⟨fin a, fin b, false, false⟩

/-- `Interval.open(a, b)`. -/
def opened (a b : ℚ) : Iv := ⟨fin a, fin b, true, true⟩

/-- `Interval.open_closed(a, b)`; the value built at `points.py:78`. -/
def openClosed (a b : ℚ) : Iv := ⟨fin a, fin b, true, false⟩

/-- `Interval.closed_open(a, b)`, `accumulator_map.py:55`. -/
def closedOpen (a b : ℚ) : Iv := ⟨fin a, fin b, false, true⟩

/-- `Interval.point(a)`, `points.py:94`. -/
def point (a : ℚ) : Iv := closed a a

/-- The lower-bound half of membership. -/
def geLo (i : Iv) (x : Ext) : Bool := if i.loOpen then decide (i.lo < x) else decide (i.lo ≤ x)

/-- The upper-bound half of membership. -/
def leHi (i : Iv) (x : Ext) : Bool := if i.hiOpen then decide (x < i.hi) else decide (x ≤ i.hi)

/-- `Interval.is_empty`. -/
def isEmpty (i : Iv) : Bool :=
  decide (i.hi < i.lo) || (decide (i.lo = i.hi) && (i.loOpen || i.hiOpen))

/-- `Interval.contains(x, enforce_start, enforce_end)` (`curve.py:125`, `points.py:228`).
Nothing is contained in an empty interval. -/
def contains (i : Iv) (x : Ext) (enforceStart enforceEnd : Bool := true) : Bool :=
  !i.isEmpty && (!enforceStart || i.geLo x) && (!enforceEnd || i.leHi x)

/-- Does the lower bound of `a` admit everything the lower bound of `b` admits? -/
def loLe (a b : Iv) : Bool :=
  decide (a.lo < b.lo) || (decide (a.lo = b.lo) && (!a.loOpen || b.loOpen))

/-- Does the upper bound of `a` admit everything the upper bound of `b` admits? -/
def hiGe (a b : Iv) : Bool :=
  decide (b.hi < a.hi) || (decide (a.hi = b.hi) && (!a.hiOpen || b.hiOpen))

/-- `Interval.is_superset_of` (`curve.py:434`). -/
def superset (a b : Iv) : Bool :=
  b.isEmpty || (!a.isEmpty && loLe a b && hiGe a b)

/-- `Interval.union([a, b])` (`curve.py:436`): the smallest interval covering both. -/
def union (a b : Iv) : Iv :=
  if a.isEmpty then (if b.isEmpty then empty else b)
  else if b.isEmpty then a
  else
    { lo := if loLe a b then a.lo else b.lo
      loOpen := if loLe a b then a.loOpen else b.loOpen
      hi := if hiGe a b then a.hi else b.hi
      hiOpen := if hiGe a b then a.hiOpen else b.hiOpen }

/-- `Interval.union(list)` (`aggregate.py:11`, `piecewise.py:7`). -/
def unionAll : List Iv → Iv
  | [] => empty
  | i :: is => union i (unionAll is)

/-- Bounds of the intersection, before emptiness is normalised. -/
def interRaw (a b : Iv) : Iv :=
  { lo := if loLe a b then b.lo else a.lo
    loOpen := if loLe a b then b.loOpen else a.loOpen
    hi := if hiGe a b then b.hi else a.hi
    hiOpen := if hiGe a b then b.hiOpen else a.hiOpen }

/-- `Interval.intersection([a, b])` (`curve.py:173`). -/
def inter (a b : Iv) : Iv :=
  if a.isEmpty || b.isEmpty then empty
  else if (interRaw a b).isEmpty then empty else interRaw a b

/-- `Interval.intersection(list)` (`aggregate.py:13`). -/
def interAll : List Iv → Iv
  | [] => infinite
  | i :: is => inter i (interAll is)

/-- `Interval.intersects` (`curve.py:439`). -/
def intersects (a b : Iv) : Bool := !(inter a b).isEmpty

/-- `Interval.is_negative_infinite` (`points.py:313`). -/
def isNegInf (i : Iv) : Bool := !i.isEmpty && decide (i.lo = ninf)

/-- `Interval.is_positive_infinite` (`points.py:327`). -/
def isPosInf (i : Iv) : Bool := !i.isEmpty && decide (i.hi = pinf)

/-- `Interval.is_finite` (`curve.py:176`). -/
def isFinite (i : Iv) : Bool := !i.isEmpty && !i.isNegInf && !i.isPosInf

end Iv
end Curvepy
