import Verif.Model.Points
import Mathlib.Data.List.Sort

/-!
# `curvepy/trend.py`

Geometry of lines, sorted insertion, the class `TrendLine` and the scanning part of the class `Trend`.

Simplifications: numbers are exact rationals; `GOLD` (`const.py:3`) is any rational, `GOLD_2` its square;
`numpy.polyfit(x, y, 1)` is the least squares line, with an exception where that is not unique (all `x`
equal); the parameters that Python compares without a `None` check are given; the attributes
`prediction_line` and `prediction_trend_line`, which are only written, are left out; when a function raises,
the attributes assigned before are not modelled.
-/

namespace Curvepy

/-- A point of the plane. -/
abbrev XY := ℚ × ℚ

/-- A line through two points. -/
abbrev Chord := XY × XY

namespace Trend

/-- `EPSILON_ZERO` (`trend.py:14`). -/
def eps : ℚ := 1 / 100000000000000

/-- Using `None` as a number raises. -/
def need {α : Type} : Option α → Except Err α
  | some a => .ok a
  | none => .error .type

/-- `_line_y` (`trend.py:1021-1031`). -/
def lineY (l : Chord) (x : ℚ) : Option ℚ :=
  if l.2.1 = l.1.1 then
    if l.1.1 = x then some l.1.2 else none
  else
    let m := (l.2.2 - l.1.2) / (l.2.1 - l.1.1)
    some (l.1.2 + m * (x - l.1.1))

/-- `_line_x` (`trend.py:1033-1045`). -/
def lineX (l : Chord) (y : ℚ) : Option ℚ :=
  if l.2.1 = l.1.1 then some l.1.1
  else
    let m := (l.2.2 - l.1.2) / (l.2.1 - l.1.1)
    if m = 0 then
      if l.1.2 = y then some l.1.1 else none
    else some (l.1.1 + (y - l.1.2) / m)

/-- `det` (`trend.py:971-972`). -/
def det (a b : ℚ × ℚ) : ℚ := a.1 * b.2 - a.2 * b.1

/-- `_line_intersection` (`trend.py:967-981`). -/
def lineIntersection (l k : Chord) : Option XY :=
  let xdiff := (l.1.1 - l.2.1, k.1.1 - k.2.1)
  let ydiff := (l.1.2 - l.2.2, k.1.2 - k.2.2)
  let div := det xdiff ydiff
  if div = 0 then none
  else
    let d := (det l.1 l.2, det k.1 k.2)
    some (det d xdiff / div, det d ydiff / div)

/-- `_average_point_of_2` (`trend.py:1075-1076`). -/
def averageOf2 (p q : XY) : XY := ((p.1 + q.1) / 2, (p.2 + q.2) / 2)

/-- The search loop of `_insort_point_left` (`trend.py:1066-1069`). -/
def bisectLoop (a : List XY) (x : ℚ) (lo hi : ℕ) : Except Err ℕ :=
  if _h : lo < hi then
    match a[(lo + hi) / 2]? with
    | none => .error .index
    | some q => if q.1 < x then bisectLoop a x ((lo + hi) / 2 + 1) hi else bisectLoop a x lo ((lo + hi) / 2)
  else .ok lo
termination_by hi - lo
decreasing_by all_goals omega

/-- `_insort_point_left` (`trend.py:1051-1073`). -/
def insort (a : List XY) (p : XY) (lo : ℤ := 0) (hi : Option ℕ := none) (noRepeat : Bool := false) :
    Except Err (List XY) :=
  if lo < 0 then .error .value
  else do
    let i ← bisectLoop a p.1 lo.toNat (hi.getD a.length)
    if noRepeat && decide (i < a.length) && decide ((a[i]?.map (·.1)) = some p.1) then pure a
    else pure (a.insertIdx (min i a.length) p)

/-- `_insort_points_left` (`trend.py:1047-1049`) with the default bounds. -/
def insortAll (a : List XY) (ps : List XY) (noRepeat : Bool := false) : Except Err (List XY) :=
  ps.foldlM (fun a p => insort a p (noRepeat := noRepeat)) a

/-- `_is_value_within_tolerance` of the module (`trend.py:1012-1019`). -/
def within (y y0 : Option ℚ) (rel tol : Option ℚ) : Bool :=
  match y, y0 with
  | some y, some y0 =>
    if (match tol with | some t => decide (|y - y0| > t) | none => false) then false
    else if (match rel with
        | some r => decide (|y0| > eps) && decide (|y| > eps) && decide (|y / y0 - 1| > r)
        | none => false) then false
    else true
  | _, _ => false

/-- `_is_point_on_line` (`trend.py:1006-1010`). -/
def pointOnLine (l : Chord) (p : XY) (rel tol : Option ℚ) : Bool := within (some p.2) (lineY l p.1) rel tol

/-- `_is_coincident_points` (`trend.py:1001-1004`). -/
def coincident (ps : List XY) (rel tol : Option ℚ) : Except Err Bool :=
  match ps with
  | [p, q, r] => .ok (pointOnLine (p, r) q rel tol)
  | _ => .error .exception

/-- `_is_strictly_convex_points` (`trend.py:983-999`). -/
def convex (ps : List XY) (rel tol : Option ℚ) : Except Err Bool :=
  match ps with
  | [p, q, r] =>
    match lineY (p, r) q.1 with
    | none => .ok false
    | some y0 =>
      if (match tol with | some t => decide (y0 - q.2 < t) | none => false) then .ok false
      else if (match rel with
          | some t => decide (|y0| > eps) && decide (|q.2| > eps) && decide (y0 / q.2 - 1 < t)
          | none => false) then .ok false
      else .ok true
  | _ => .error .exception

/-- Least squares slope and intercept; what `numpy.polyfit(x, y, 1)` computes (`trend.py:933-939`). -/
def polyfit (ps : List XY) : Except Err (ℚ × ℚ) :=
  let n : ℚ := ps.length
  let sx := (ps.map (·.1)).sum
  let sy := (ps.map (·.2)).sum
  let sxx := (ps.map fun p => p.1 * p.1).sum
  let sxy := (ps.map fun p => p.1 * p.2).sum
  let d := n * sxx - sx * sx
  if d = 0 then .error .value
  else
    let m := (n * sxy - sx * sy) / d
    .ok (m, (sy - m * sx) / n)

/-- `_line_fit` (`trend.py:941-954`). -/
def lineFit (ps : List XY) : Except Err (Option Chord) :=
  match ps with
  | [] => .ok none
  | [_] => .ok none
  | [p, q] => .ok (some (p, q))
  | p :: q :: rest => do
    let f ← polyfit (p :: q :: rest)
    let x1 := ((q :: rest).getLast (by simp)).1
    pure (some ((p.1, f.1 * p.1 + f.2), (x1, f.1 * x1 + f.2)))

/-- `prediction_phase` (`trend.py:248-252`). -/
inductive Phase where
  | none
  | intersected
  | retested
  | confirmed
  | fulfilled
deriving DecidableEq, Repr

/-- The prediction attributes (`trend.py:678-699`). -/
structure Pred where
  phase : Phase
  origin : Option XY
  intersection : Option XY
  extrema : Option XY
  retest : Option XY
  retestXMax : Option ℚ
  confirmation : Option Chord
  y : Option ℚ
  yMin : Option ℚ
  yMax : Option ℚ
  xMin : Option ℚ
  xMax : Option ℚ
  failed : Bool
  succeeded : Bool
  successPoint : Option XY
  valid : Bool
  lastExtrema : Option XY
  xProcessed : Option ℚ
  tangents : ℕ
deriving DecidableEq, Repr

/-- `reset_prediction` (`trend.py:678-699`). -/
def Pred.reset : Pred :=
  { phase := .none, origin := Option.none, intersection := Option.none, extrema := Option.none,
    retest := Option.none, retestXMax := Option.none, confirmation := Option.none, y := Option.none,
    yMin := Option.none, yMax := Option.none, xMin := Option.none, xMax := Option.none, failed := false,
    succeeded := false, successPoint := Option.none, valid := false, lastExtrema := Option.none,
    xProcessed := Option.none, tangents := 0 }

/-- Type of a point of interest (`trend.py:707-709`). -/
inductive Kind where
  | extrema
  | tangent
  | intersection
deriving DecidableEq, Repr

/-- A point of interest (`trend.py:715-718`). -/
structure Mark where
  pt : XY
  kind : Kind
deriving DecidableEq, Repr

end Trend

open Trend

/-- State of `TrendLine` (`trend.py:318-340`). -/
structure TLine where
  minWidth : ℚ
  upper : Bool
  minPoints : ℕ
  minDist : ℚ
  searchRel : ℚ
  yRel : Option ℚ
  yAbs : Option ℚ
  gold : ℚ
  trend : List XY
  boundary : List XY
  tangents : List XY
  line : Option Chord
  search : Iv
  intersections : List XY
  extremas : List XY
  tolUpper : Option Chord
  tolLower : Option Chord
  pred : Pred
deriving DecidableEq, Repr

namespace TLine

/-- `TrendLine.__init__` (`trend.py:318-340`). -/
def new (minWidth : ℚ) (upper : Bool) (minPoints : ℕ) (minDist searchRel : ℚ) (yRel yAbs : Option ℚ)
    (gold : ℚ) : TLine :=
  { minWidth := minWidth, upper := upper, minPoints := minPoints, minDist := minDist, searchRel := searchRel,
    yRel := yRel, yAbs := yAbs, gold := gold, trend := [], boundary := [], tangents := [], line := none,
    search := Iv.empty, intersections := [], extremas := [], tolUpper := none, tolLower := none,
    pred := Pred.reset }

/-- `is_ready` (`trend.py:279-282`). -/
def isReady (t : TLine) : Bool := t.line.isSome

/-- `width` (`trend.py:289-291`). -/
def width (t : TLine) : ℚ :=
  match t.trend with
  | p :: q :: rest => ((q :: rest).getLast (by simp)).1 - p.1
  | _ => 0

/-- The loop of `is_valid` (`trend.py:267-272`): the count reached. -/
def distanceLoop (minDist : ℚ) (minPoints : ℕ) : ℕ → List XY → ℕ
  | n, p :: q :: rest =>
    if q.1 - p.1 ≥ minDist then
      if n + 1 ≥ minPoints then n + 1 else distanceLoop minDist minPoints (n + 1) (q :: rest)
    else distanceLoop minDist minPoints n (q :: rest)
  | n, _ => n

/-- `is_valid` (`trend.py:258-277`). -/
def isValid (t : TLine) : Bool :=
  if !t.isReady || decide (t.width < t.minWidth) || decide (t.trend.length < t.minPoints) then false
  else if distanceLoop t.minDist t.minPoints 1 t.trend < t.minPoints then false
  else true

/-- `is_empty` (`trend.py:284-287`). -/
def isEmpty (t : TLine) : Bool := t.trend.isEmpty

/-- `y` (`trend.py:376-378`): only used when the line is ready. -/
def y (t : TLine) (x : ℚ) : Except Err ℚ := do
  let l ← need t.line
  need (lineY l x)

/-- `_value_tolerance_min` (`trend.py:840-852`). -/
def tolMin (t : TLine) (y : ℚ) : ℚ :=
  let m := t.yAbs.map fun a => y - a
  let m := match t.yRel with
    | some r =>
      if |y| > eps then
        match m with
        | none => some (y * (1 - r))
        | some m => some (max m (y * (1 - r)))
      else m
    | none => m
  m.getD y

/-- `_value_tolerance_max` (`trend.py:854-866`). -/
def tolMax (t : TLine) (y : ℚ) : ℚ :=
  let m := t.yAbs.map fun a => y + a
  let m := match t.yRel with
    | some r =>
      if |y| > eps then
        match m with
        | none => some (y * (1 + r))
        | some m => some (min m (y * (1 + r)))
      else m
    | none => m
  m.getD y

/-- `_is_value_within_tolerance` of `TrendLine` (`trend.py:835-838`). -/
def withinTol (t : TLine) (y ref : Option ℚ) : Bool :=
  match y, ref with
  | some y, some ref => decide (y < t.tolMin ref) || decide (y > t.tolMax ref)
  | _, _ => false

/-- `_calculate_trend_tolerance_line` (`trend.py:878-894`). -/
def tolLine (t : TLine) (upper : Bool) : Except Err (Option Chord) :=
  if t.trend.length < 2 then .ok none
  else do
    let l ← need t.line
    if upper then pure (some ((l.1.1, t.tolMax l.1.2), (l.2.1, t.tolMax l.2.2)))
    else pure (some ((l.1.1, t.tolMin l.1.2), (l.2.1, t.tolMin l.2.2)))

/-- `is_point_on_trend` (`trend.py:384-387`), `_y_min` and `_y_max` (`trend.py:868-872`). -/
def onTrend (t : TLine) (p : XY) : Except Err Bool :=
  if t.line.isNone || !t.search.contains (.fin p.1) then .ok false
  else do
    let low ← need t.tolLower
    let lo ← need (lineY low p.1)
    if p.2 ≥ lo then do
      let upp ← need t.tolUpper
      let hi ← need (lineY upp p.1)
      pure (decide (p.2 ≤ hi))
    else pure false

/-- `is_line_coincident` (`trend.py:391-395`). -/
def lineCoincident (t other : TLine) : Except Err Bool := do
  let l ← need other.line
  if !(← t.onTrend l.1) then pure false
  else if !(← t.onTrend l.2) then pure false
  else pure true

/-- What `set_trend_with_boundary_points` works on (`trend.py:399-400`). -/
structure Prune where
  extremas : List XY
  boundary : List XY
  coincident : List XY
  removed : Bool
deriving DecidableEq, Repr

/-- One round of the inner loop (`trend.py:407-417`). -/
def pruneAt (t : TLine) (s : Prune) (i : ℕ) : Except Err Prune := do
  let ps := (s.extremas.drop i).take 3
  let isCo ← Trend.coincident ps t.yRel t.yAbs
  let isConvex ← convex ps t.yRel t.yAbs
  if isCo || isConvex == t.upper then
    match s.extremas[i + 1]? with
    | none => .error .index
    | some p =>
      pure { extremas := s.extremas.eraseIdx (i + 1)
             boundary := if isCo then s.boundary else s.boundary.eraseIdx (i + 1)
             coincident := if isCo && decide ((s.coincident.getLast?.map (·.1)) ≠ some p.1)
               then s.coincident ++ [p] else s.coincident
             removed := true }
  else pure s

/-- `for i in reversed(range(0, n))` (`trend.py:406-417`). -/
def prunePass (t : TLine) : ℕ → Prune → Except Err Prune
  | 0, s => pure s
  | n + 1, s => do
    let s ← pruneAt t s n
    prunePass t n s

/-- `while did_remove` (`trend.py:403-417`).  A round that removes something shortens `extremas`, so the
fuel given by `setTrend` is never used up. -/
def pruneLoop (t : TLine) : ℕ → Prune → Except Err Prune
  | 0, s => pure s
  | n + 1, s => do
    let s ← prunePass t (s.extremas.length - 2) { s with removed := false }
    if s.removed then pruneLoop t n s else pure s

/-- Removal of points which are too close together, one round (`trend.py:421-423`). -/
def thinAt (t : TLine) (es : List XY) (i : ℕ) : List XY :=
  match es[i]?, es[i + 1]?, es[i + 2]? with
  | some p0, some p1, some p2 =>
    if p1.1 - p0.1 < t.minDist || p2.1 - p1.1 < t.minDist then es.eraseIdx (i + 1) else es
  | _, _, _ => es

/-- Removal of points which are too close together (`trend.py:420-423`). -/
def thin (t : TLine) : ℕ → List XY → List XY
  | 0, es => es
  | n + 1, es => thin t n (thinAt t es n)

/-- `line_fitness` (`trend.py:435-439`). -/
def fitness (boundary : List XY) (l : Chord) : Except Err ℚ :=
  boundary.foldlM (fun e p => do
    let y ← need (lineY l p.1)
    pure (e + (p.2 - y) ^ 2)) 0

/-- The first of the lines with the least fitness (`trend.py:441-442`). -/
def fittest (boundary : List XY) : List Chord → Except Err (Option (Chord × ℚ))
  | [] => .ok none
  | l :: ls => do
    let f ← fitness boundary l
    match ← fittest boundary ls with
    | none => pure (some (l, f))
    | some (k, g) => if g < f then pure (some (k, g)) else pure (some (l, f))

/-- `add_coincident_points` (`trend.py:444-456`). -/
def addCoincident (t : TLine) (l : List XY) (co : List XY) : Except Err (List XY) :=
  match l with
  | [] => .ok []
  | [p] => .ok [p]
  | [p, q] => .ok (p :: (co.filter fun r => pointOnLine (p, q) r t.yRel t.yAbs) ++ [q])
  | _ => .error .exception

/-- The two extremas kept (`trend.py:425-442`). -/
def finalLine (boundary es : List XY) : Except Err (List XY) :=
  if es.length > 2 then do
    match ← fittest boundary (es.zip es.tail) with
    | none => pure es
    | some (l, _) => pure [l.1, l.2]
  else pure es

/-- `set_trend_with_boundary_points` (`trend.py:398-459`). -/
def setTrend (t : TLine) : Except Err TLine := do
  let s ← pruneLoop t t.boundary.length
    { extremas := t.boundary, boundary := t.boundary, coincident := [], removed := true }
  let final ← finalLine s.boundary (thin t (s.extremas.length - 2) s.extremas)
  let ps ← addCoincident t final s.coincident
  pure { t with boundary := s.boundary, trend := ps }

/-- `update_interval` (`trend.py:526-571`). -/
def updateInterval (t : TLine) : TLine :=
  match t.line with
  | none =>
    match t.trend with
    | [p] => { t with search := Iv.point p.1 }
    | _ => { t with search := Iv.empty }
  | some (p0, p1) =>
    if p0.1 = p1.1 then { t with search := Iv.point p0.1 }
    else if t.searchRel ≤ 0 then { t with search := Iv.closed p0.1 p1.1 }
    else
      let inter := match t.intersections.head? with
        | some i => if i.1 ≤ p0.1 then none else some i
        | none => none
      let len := match inter with
        | none => (p1.1 - p0.1) * t.searchRel
        | some i => if t.trend.length ≥ t.minPoints then (p1.1 - p0.1) * t.searchRel else i.1 - p0.1
      { t with search := Iv.closedOpen p0.1 (p0.1 + len) }

/-- `process_points_on_trend` (`trend.py:586-596`): the closest point. -/
def closest (t : TLine) (ps : List XY) : Except Err (Option (XY × ℚ)) :=
  ps.foldlM (fun c p => do
    let y ← t.y p.1
    let d := |y - p.2|
    match c with
    | none => pure (some (p, d))
    | some (q, e) => if d < e then pure (some (p, d)) else pure (some (q, e))) none

/-- Variables of `update_points_of_interest` (`trend.py:598-608`). -/
structure Poi where
  previousPhase : ℚ
  phasePoint : XY
  found : Bool
  intersections : List XY
  tangents : List XY
  on : List XY
  newExtremas : List XY
  extrema : Option XY
  extremaDist : ℚ

/-- `process_points_on_trend(points_on_trend, tangent_insert_index)` (`trend.py:586-596`). -/
def flush (t : TLine) (ti : ℕ) (s : Poi) : Except Err Poi := do
  match ← closest t s.on with
  | none => pure s
  | some (p, _) => pure { s with tangents := s.tangents.insertIdx ti p }

/-- Nothing is on the trend any more, or the points ran out (`trend.py:628-630`, `658-659`). -/
def flushIf (t : TLine) (ti : ℕ) (s : Poi) : Except Err Poi :=
  if s.on.length ≠ 0 then flush t ti s else pure s

/-- `if extrema is not None: new_extremas.insert(0, extrema)` (`trend.py:624-626`, `643-645`). -/
def pushExtrema (s : Poi) : Poi :=
  match s.extrema with
  | some e => { s with newExtremas := e :: s.newExtremas, extrema := none }
  | none => s

/-- The point where the line is crossed between two points (`trend.py:637-639`). -/
def crossing (l : Chord) (q p : XY) : XY :=
  match lineIntersection l (q, p) with
  | none => averageOf2 q p
  | some i => if i.1 < l.1.1 then averageOf2 q p else i

/-- A change of side (`trend.py:633-645`). -/
def crossAt (t : TLine) (ii : ℕ) (s : Poi) (p : XY) (phase : ℚ) : Except Err Poi :=
  if s.previousPhase ≠ 0 ∧ phase * s.previousPhase < 0 then do
    let l ← need t.line
    pure (pushExtrema { s with intersections := s.intersections.insertIdx ii (crossing l s.phasePoint p),
                               found := true })
  else pure s

/-- The most distant point since the last change (`trend.py:647-653`). -/
def distAt (s : Poi) (p : XY) (phase : ℚ) : Poi :=
  let dist := if phase > 0 then p.2 else -p.2
  if s.extrema.isNone ∨ dist > s.extremaDist then { s with extrema := some p, extremaDist := dist } else s

/-- One round of the loop (`trend.py:622-656`). -/
def poiAt (t : TLine) (ii ti : ℕ) (s : Poi) (p : XY) : Except Err Poi := do
  if ← t.onTrend p then pure (pushExtrema { s with on := p :: s.on })
  else
    let s ← flushIf t ti s
    let y ← t.y p.1
    let phase := p.2 - y
    let s ← crossAt t ii { s with on := [] } p phase
    let s := distAt s p phase
    pure { s with previousPhase := phase, phasePoint := p }

/-- The loop over the underlying points, last one first (`trend.py:617-656`). -/
def poiLoop (t : TLine) (ii ti : ℕ) (iv : Iv) : List XY → Poi → Except Err Poi
  | [], s => pure s
  | p :: rest, s =>
    if !iv.contains (.fin p.1) then pure s
    else do
      let s ← poiAt t ii ti s p
      poiLoop t ii ti iv rest s

/-- Points are looked at down to the last intersection or tangent point (`trend.py:610-615`). -/
def poiInterval (t : TLine) : Iv :=
  let iv := match t.intersections.getLast? with
    | some i => Iv.inter t.search ⟨.fin i.1, .pinf, false, false⟩
    | none => t.search
  match t.tangents.getLast? with
  | some i => Iv.inter iv ⟨.fin i.1, .pinf, true, false⟩
  | none => iv

/-- The new extremas follow the known ones, of which the last may be outdated (`trend.py:663-671`). -/
def mergeExtremas (iv : Iv) (old new : List XY) : List XY :=
  if new.length ≠ 0 then
    match old.getLast? with
    | none => new
    | some e => (if iv.lo ≤ .fin e.1 then old.dropLast else old) ++ new
  else old

/-- The variables at the start of the loop (`trend.py:599-608`). -/
def poiStart (t : TLine) : Poi :=
  { previousPhase := 0, phasePoint := (0, 0), found := false, intersections := t.intersections,
    tangents := t.tangents, on := [], newExtremas := [], extrema := none, extremaDist := 0 }

/-- After the loop (`trend.py:661-676`). -/
def poiEnd (t : TLine) (s : Poi) : TLine × Bool :=
  let u := { t with intersections := s.intersections, tangents := s.tangents,
                    extremas := mergeExtremas t.poiInterval t.extremas s.newExtremas }
  if s.found then (u.updateInterval, true) else (u, false)

/-- `update_points_of_interest` (`trend.py:578-676`). -/
def updatePoi (t : TLine) (under : List XY) : Except Err (TLine × Bool) :=
  if !t.isReady || under.length == 0 then .ok (t, false)
  else do
    let s ← poiLoop t t.intersections.length t.tangents.length t.poiInterval under.reverse t.poiStart
    let s ← flushIf t t.tangents.length s
    pure (poiEnd t (pushExtrema s))

/-- `update_prediction_target` (`trend.py:720-740`). -/
def target (t : TLine) (d : Pred) : Except Err (Pred × Bool) :=
  match d.intersection with
  | none => .error .exception
  | some i =>
    match d.lastExtrema with
    | none => .ok (d, false)
    | some e => do
      let o ← need d.origin
      let y := i.2 + (e.2 - i.2) * (t.gold * t.gold)
      pure ({ d with extrema := some e, confirmation := some (o, e), y := some y, yMin := some (t.tolMin y),
                     yMax := some (t.tolMax y), xMin := some e.1, xMax := some (e.1 + (e.1 - o.1) * t.gold),
                     valid := decide (y > 0) }, true)

/-- Confirmation by an extremum (`trend.py:777-783`). -/
def confirm (t : TLine) (d : Pred) (p : XY) : Except Err Pred :=
  if d.phase = .retested then do
    let c ← need d.confirmation
    let cy ← need (lineY c p.1)
    if (t.upper && decide (p.2 ≥ t.tolMax cy)) || (!t.upper && decide (p.2 ≤ t.tolMin cy)) then
      pure { d with phase := .confirmed }
    else pure d
  else pure d

/-- Fulfilment or timeout at an extremum (`trend.py:785-794`). -/
def fulfil (t : TLine) (d : Pred) (p : XY) : Except Err Pred :=
  if d.phase = .confirmed then do
    let lo ← need d.yMin
    let hi ← need d.yMax
    if (t.upper && decide (p.2 ≥ lo)) || (!t.upper && decide (p.2 ≤ hi)) then
      pure { d with phase := .fulfilled, succeeded := true, successPoint := some p }
    else
      let xm ← need d.xMax
      if p.1 ≥ xm then pure { d with failed := true } else pure d
  else pure d

/-- An extremum after the intersection (`trend.py:768-794`). -/
def seeExtrema (t : TLine) (d : Pred) (p : XY) : Except Err Pred := do
  let d := { d with lastExtrema := some p }
  if d.phase = .intersected then
    let r ← target t d
    if r.2 then pure r.1 else pure { r.1 with failed := true }
  else
    let d ← confirm t d p
    fulfil t d p

/-- A tangent point after the intersection (`trend.py:795-806`). -/
def seeTangent (t : TLine) (d : Pred) (p : XY) : Except Err Pred := do
  let xm ← need d.retestXMax
  if p.1 > xm then pure { d with failed := true }
  else
    let r ← target t d
    if r.2 then pure { r.1 with phase := .retested, retest := some p } else pure { r.1 with failed := true }

/-- A point before the intersection (`trend.py:752-765`). -/
def seeBefore (t : TLine) (d : Pred) (m : Mark) : Except Err Pred :=
  match m.kind with
  | .tangent => .ok { d with tangents := d.tangents + 1 }
  | .extrema => .ok d
  | .intersection =>
    if d.tangents < t.minPoints then .ok { d with failed := true, valid := false }
    else do
      let o ← need d.origin
      if t.gold = 0 then .error .zeroDiv
      else pure { d with phase := .intersected, intersection := some m.pt,
                         retestXMax := some (m.pt.1 + (m.pt.1 - o.1) / t.gold) }

/-- One point of interest that is neither skipped nor after the outcome (`trend.py:752-810`). -/
def predAt (t : TLine) (d : Pred) (m : Mark) : Except Err Pred :=
  if d.phase = .none then seeBefore t d m
  else match m.kind with
    | .extrema => seeExtrema t d m.pt
    | .tangent => seeTangent t d m.pt
    | .intersection => .ok { d with failed := true }

/-- The loop of `update_prediction` (`trend.py:745-810`). -/
def predLoop (t : TLine) : List Mark → Pred → Except Err Pred
  | [], d => .ok d
  | m :: ms, d =>
    if (match d.xProcessed with | some x => decide (m.pt.1 < x) | none => false) then predLoop t ms d
    else if d.succeeded || d.failed then .ok d
    else do
      let d ← predAt t d m
      predLoop t ms d

/-- The timeouts of `update_prediction` (`trend.py:817-822`). -/
def timeouts (d : Pred) (last : ℚ) : Except Err Pred :=
  if d.phase = .retested ∨ d.phase = .confirmed ∨ d.phase = .fulfilled then do
    let xm ← need d.xMax
    pure (if last ≥ xm then { d with failed := true } else d)
  else if d.phase = .intersected then do
    let xm ← need d.retestXMax
    pure (if last ≥ xm then { d with failed := true } else d)
  else pure d

/-- `sorted(.., key=lambda p: p[0])`, which is stable (`trend.py:718`). -/
def sortMarks (ms : List Mark) : List Mark := ms.insertionSort fun a b => a.pt.1 ≤ b.pt.1

/-- The points of interest in order (`trend.py:711-718`). -/
def marks (t : TLine) : Except Err (List Mark) := do
  let es ← t.extremas.filterM fun p => do
    let y ← t.y p.1
    pure (if t.upper then decide (p.2 > y) else decide (p.2 < y))
  pure (sortMarks (es.map (⟨·, .extrema⟩) ++ t.tangents.map (⟨·, .tangent⟩) ++
    t.intersections.map (⟨·, .intersection⟩)))

/-- `update_prediction` on given points of interest (`trend.py:742-822`). -/
def predict (t : TLine) (d : Pred) (ms : List Mark) (under : List XY) : Except Err Pred :=
  match ms.getLast? with
  | none => .ok d
  | some m => do
    let d ← predLoop t ms d
    if !d.succeeded && !d.failed then do
      let d := { d with xProcessed := some m.pt.1 }
      match under.getLast? with
      | none => .error .index
      | some p => timeouts d p.1
    else pure d

/-- `update_prediction` (`trend.py:701-822`). -/
def updatePrediction (t : TLine) (under : List XY) : Except Err TLine :=
  if !t.isValid then .ok t
  else do
    let l ← need t.line
    let ms ← marks t
    let d ← predict t { t.pred with origin := some l.1 } ms under
    pure { t with pred := d }

/-- The trend points are chosen anew unless the line is valid (`trend.py:515-516`). -/
def renew (t : TLine) : Except Err TLine := if !t.isValid then setTrend t else .ok t

/-- `update_trend` (`trend.py:514-524`). -/
def updateTrend (t : TLine) (under : List XY) : Except Err TLine := do
  let t ← renew t
  let l ← lineFit t.trend
  let t := { t with line := l }
  let up ← tolLine t true
  let t := { t with tolUpper := up }
  let lo ← tolLine t false
  let t := { t with tolLower := lo }
  let t := { t with intersections := [], tangents := [], extremas := [] }
  let r ← updatePoi t under
  let t := { r.1.updateInterval with pred := Pred.reset }
  updatePrediction t under

/-- `did_append_point` (`trend.py:461-480`). -/
def didAppend (t : TLine) (p : XY) (under : List XY) : Except Err (TLine × Bool) :=
  if t.isReady && !t.search.contains (.fin p.1) then .ok (t, false)
  else if !t.isValid then do
    let b ← insort t.boundary p (noRepeat := true)
    let t ← updateTrend { t with boundary := b } under
    pure (t, true)
  else do
    if ← t.onTrend p then
      let b ← insort t.boundary p (noRepeat := true)
      let tr ← insort t.trend p (noRepeat := true)
      let t ← updateTrend { t with boundary := b, trend := tr } under
      pure (t, true)
    else
      let r ← updatePoi t under
      let t ← updatePrediction r.1 under
      pure (t, r.2)

/-- `remove_stale` on reversed points (`trend.py:489-498`, `96-102`). -/
def staleLoop (dom : Iv) : List XY → List XY
  | [] => []
  | p :: rest =>
    if dom.contains (.fin p.1) then staleLoop dom rest
    else if .fin p.1 < dom.lo then p :: rest
    else p :: staleLoop dom rest

/-- `remove_stale` (`trend.py:489-498`). -/
def removeStale (dom : Iv) (ps : List XY) : List XY := (staleLoop dom ps.reverse).reverse

/-- `TrendLine.begin_update` (`trend.py:482-512`). -/
def beginUpdate (t : TLine) (dom : Iv) (under : List XY) : Except Err TLine :=
  if !t.search.intersects dom then .ok t
  else
    let t' := { t with trend := removeStale dom t.trend, boundary := removeStale dom t.boundary,
                       intersections := removeStale dom t.intersections,
                       tangents := removeStale dom t.tangents, extremas := removeStale dom t.extremas }
    if t'.trend.length ≠ t.trend.length ∨ t'.boundary.length ≠ t.boundary.length ∨
        t'.intersections.length ≠ t.intersections.length ∨ t'.tangents.length ≠ t.tangents.length ∨
        t'.extremas.length ≠ t.extremas.length then updateTrend t' under
    else .ok t'

end TLine

/-- State of `Trend` (`trend.py:26-47`), without the inherited scan. -/
structure Trd where
  minWidth : ℚ
  minPoints : ℕ
  minDist : ℚ
  searchRel : ℚ
  yRel : Option ℚ
  yAbs : Option ℚ
  gold : ℚ
  points : List XY
  upper : List (List TLine)
  lower : List (List TLine)
deriving DecidableEq, Repr

namespace Trd

/-- `Trend.__init__` (`trend.py:26-47`). -/
def new (minWidth : ℚ) (minPoints : ℕ) (minDist searchRel : ℚ) (yRel yAbs : Option ℚ) (gold : ℚ) : Trd :=
  { minWidth := minWidth, minPoints := minPoints, minDist := minDist, searchRel := searchRel,
    yRel := if yRel.isNone && yAbs.isNone then some (1 / 100) else yRel, yAbs := yAbs, gold := gold,
    points := [], upper := [[]], lower := [[]] }

/-- `_create_line` (`trend.py:221-230`). -/
def createLine (s : Trd) (isUpper : Bool) : TLine :=
  TLine.new s.minWidth isUpper s.minPoints 0 s.searchRel s.yRel s.yAbs s.gold

/-- `_has_coincident_line` (`trend.py:238-244`) from position `j` on; `self` is the position of `line`, if it
is one of the lines. -/
def hasCoincident (line : TLine) (self : Option ℕ) : ℕ → List TLine → Except Err Bool
  | _, [] => .ok false
  | j, o :: rest =>
    if self == some j || !o.isReady || !line.search.intersects o.search then hasCoincident line self (j + 1) rest
    else do
      if ← o.lineCoincident line then pure true else hasCoincident line self (j + 1) rest

/-- `_has_coincident_nested_line` (`trend.py:232-236`) from level `k` on; the line is at `(level, i)`. -/
def hasCoincidentNested (line : TLine) (level i : ℕ) : ℕ → List (List TLine) → Except Err Bool
  | _, [] => .ok false
  | k, ls :: rest => do
    if ← hasCoincident line (if k = level then some i else none) 0 ls then pure true
    else hasCoincidentNested line level i (k + 1) rest

/-- Variables of `_append_point_and_validate` (`trend.py:178-179`). -/
structure Vals where
  lines : List TLine
  remove : List ℕ
  newPts : List XY

/-- One round of the loop of `_append_point_and_validate` (`trend.py:181-201`). -/
def validateAt (points : List XY) (nested : List (List TLine)) (level : ℕ) (p : XY) (s : Vals) (i : ℕ) :
    Except Err Vals :=
  match s.lines[i]? with
  | none => .ok s
  | some line => do
    let r ← line.didAppend p points
    let s := { s with lines := s.lines.set i r.1 }
    if r.2 then
      if r.1.isValid then
        if !line.isValid then
          if ← hasCoincidentNested r.1 level i 0 (nested.set level s.lines) then
            pure { s with remove := s.remove ++ [i] }
          else
            match r.1.trend.head?, r.1.trend.getLast? with
            | some a, some b => do
              let n ← insort s.newPts a (noRepeat := true)
              let n ← insort n b (noRepeat := true)
              pure { s with newPts := n }
            | _, _ => .error .index
        else pure s
      else if r.1.isReady && !line.isReady then
        if ← hasCoincident r.1 (some i) 0 s.lines then pure { s with remove := s.remove ++ [i] } else pure s
      else pure s
    else pure s

/-- The last line is still too young for another one (`trend.py:211-214`). -/
def young (lines : List TLine) (p : XY) : Except Err Bool :=
  match lines.getLast? with
  | none => .ok false
  | some l =>
    if !l.isReady then .ok true
    else match l.trend.head? with
      | none => .error .index
      | some q => .ok (decide (p.1 - q.1 < l.minWidth))

/-- `_try_fork_line` (`trend.py:210-219`). -/
def tryFork (s : Trd) (isUpper : Bool) (lines : List TLine) (p : XY) : Except Err (List TLine) := do
  let skip ← young lines p
  if skip then pure lines
  else do
    let r ← (s.createLine isUpper).didAppend p s.points
    pure (lines ++ [r.1])

/-- `_append_point_and_validate` (`trend.py:177-208`). -/
def appendValidate (s : Trd) (isUpper : Bool) (level : ℕ) (p : XY) : Except Err (Trd × List XY) := do
  let nested := if isUpper then s.upper else s.lower
  match nested[level]? with
  | none => .error .index
  | some lines => do
    let v ← (List.range lines.length).foldlM (validateAt s.points nested level p) ⟨lines, [], []⟩
    let lines := v.remove.reverse.foldl (fun ls i => ls.eraseIdx i) v.lines
    let lines ← tryFork s isUpper lines p
    let nested := nested.set level lines
    pure (if isUpper then { s with upper := nested } else { s with lower := nested }, v.newPts)

/-- One level of the loop of `_trend_scan` (`trend.py:160-166`). -/
def scanLevel (s : Trd) (level : ℕ) (pts : List XY) : Except Err (Trd × List XY) :=
  pts.foldlM (fun r p => do
    let u ← appendValidate r.1 true level p
    let all ← insortAll r.2 u.2
    let l ← appendValidate u.1 false level p
    let all ← insortAll all l.2
    pure (l.1, all)) (s, [])

/-- Where the loop of `_trend_scan` stands. -/
inductive Loop where
  | done (s : Trd)
  | more (s : Trd) (level : ℕ) (pts : List XY)
deriving DecidableEq, Repr

/-- One round of the loop of `_trend_scan` (`trend.py:159-175`). -/
def scanStep (s : Trd) (level : ℕ) (pts : List XY) : Except Err Loop :=
  if level < s.upper.length then do
    let r ← scanLevel s level pts
    if r.2.length = 0 then pure (.done r.1)
    else
      let s := if r.1.upper.length = level + 1 then
          { r.1 with upper := r.1.upper ++ [[]], lower := r.1.lower ++ [[]] } else r.1
      pure (.more s (level + 1) r.2)
  else pure (.done s)

/-- The loop of `_trend_scan` (`trend.py:159-175`), at most `n` rounds. -/
def scanLoop : ℕ → Trd → ℕ → List XY → Except Err Loop
  | 0, s, level, pts => .ok (.more s level pts)
  | n + 1, s, level, pts => do
    match ← scanStep s level pts with
    | .done s => pure (.done s)
    | .more s level pts => scanLoop n s level pts

/-- `_trend_scan` (`trend.py:147-175`), at most `n` rounds of its loop. -/
def trendScan (n : ℕ) (s : Trd) (x : ℚ) (y : Option ℚ) : Except Err Loop :=
  match y with
  | none => .ok (.done s)
  | some y => scanLoop n { s with points := s.points ++ [(x, y)] } 0 [(x, y)]

/-- `update_line_array` (`trend.py:111-116`). -/
def updateLines (dom : Iv) (points : List XY) (lines : List TLine) : Except Err (List TLine) := do
  let ls ← lines.reverse.mapM fun l => l.beginUpdate dom points
  pure (ls.reverse.filter fun l => !l.isEmpty)

/-- `update_nested_line_array` (`trend.py:104-109`). -/
def updateNested (dom : Iv) (points : List XY) (nested : List (List TLine)) :
    Except Err (List (List TLine)) := do
  let ls ← nested.reverse.mapM (updateLines dom points)
  match ls.reverse with
  | [] => pure []
  | l :: rest => pure (l :: rest.filter fun l => decide (l.length ≠ 0))

/-- `Trend.begin_update` (`trend.py:93-120`), without the inherited part. -/
def beginUpdate (s : Trd) (dom : Iv) : Except Err Trd := do
  let pts := TLine.removeStale dom s.points
  let up ← updateNested dom pts s.upper
  let lo ← updateNested dom pts s.lower
  pure { s with points := pts, upper := up, lower := lo }

/-- `_line_filter` (`trend.py:138-145`). -/
def lineFilter (s : Trd) (l : TLine) (x : Option ℚ) : Bool :=
  if !l.isValid then false
  else if (match x with | some x => !l.search.contains (.fin x) | none => false) then false
  else if l.width < s.minWidth then false
  else true

/-- `_scanned_upper` (`trend.py:122-128`). -/
def scannedUpper (s : Trd) (x : Option ℚ) : List TLine := s.upper.flatten.filter fun l => s.lineFilter l x

/-- `_scanned_lower` (`trend.py:130-136`). -/
def scannedLower (s : Trd) (x : Option ℚ) : List TLine := s.lower.flatten.filter fun l => s.lineFilter l x

/-- `scanned_y` (`trend.py:63-64`); with no position, `lines` (`trend.py:49-51`). -/
def scannedY (s : Trd) (x : Option ℚ) : List TLine := s.scannedLower x ++ s.scannedUpper x

end Trd
end Curvepy
