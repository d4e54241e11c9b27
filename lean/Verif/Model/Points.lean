import Verif.Model.Interval
import Verif.Model.Py

/-!
# `curvepy/points.py`

The class `Points`, function by function.  Reading `self.domain` fills the domain cache
(`curve.py:36-40`); this is the operation `touch`.  Exceptions are values.  A mutator returns
the state reached (also when it raised: what was assigned before the `raise` stays), the
update events delivered to observers, each with a snapshot of the curve at the time of the
call, and the exception if any.

Simplifications: numbers are exact rationals; `points` arguments are lists of pairs; an
observer callback may read the curve (that is what `Reads` is for) but not edit it.
-/

namespace Curvepy

/-- Values that can be linearly interpolated: `(1.0 - u) * y1 + u * y2` (`points.py:240`). -/
class Lerp (V : Type) where
  lerp : ℚ → V → V → V

/-- Numbers interpolate as in `points.py:240`. -/
instance : Lerp ℚ := ⟨fun u a b => (1 - u) * a + u * b⟩

/-- `Points.interpolation` (`points.py:5-7`, `points.py:18-25`). -/
inductive Interp where
  | previous
  | linear
  | next
deriving DecidableEq, Repr

/-- A point `(x, y)`; `y` may be `None`. -/
abbrev Pt (V : Type) := ℚ × Option V

/-- Instance state of `Points` (`points.py:38-53` and `curve.py:50-57`).
`equal` is `_is_equally_spaced` (`None` before the first `set` is modelled by `false`, it is
only used as a truth value), `force` is `_force_equally_spaced`, `cache` is `_domain`, `bIv`
and `eIv` are `_begin_update_interval` and `_end_update_interval`. -/
structure Pts (V : Type) where
  interp : Interp
  force : Bool
  equal : Bool
  interval : Option ℚ
  points : List (Pt V)
  minStep : Option ℚ
  cache : Option Iv
  bIv : Iv
  eIv : Iv

namespace Pts
variable {V : Type}

/-- Does a begin (end) callback read `curve.domain`?  (Callbacks are user code;
`accumulator.py:36-38`, `scan.py:98-107` do read it.) -/
structure Reads where
  atBegin : Bool
  atEnd : Bool

/-- One delivered update notification (`curve.py:437-444`, `curve.py:459-466`) with the curve
as a callback sees it. -/
inductive Ev (V : Type) where
  | begin (iv : Iv) (snap : Pts V)
  | fin (iv : Iv) (snap : Pts V)

/-- Outcome of a mutator: state, notifications in order, exception. -/
structure Res (V : Type) where
  st : Pts V
  ev : List (Ev V)
  err : Option Err

/-- `Points.get_domain` on a list of points (`points.py:33-36`). -/
def getDomain (pts : List (Pt V)) : Iv :=
  match pts with
  | [] => Iv.empty
  | p :: ps => Iv.closed p.1 ((p :: ps).getLast (by simp)).1

/-- The value of `self.domain` (`curve.py:36-40`). -/
def domVal (s : Pts V) : Iv := s.cache.getD (getDomain s.points)

/-- Reading `self.domain` caches it (`curve.py:36-40`). -/
def touch (s : Pts V) : Pts V := { s with cache := some s.domVal }

/-- `Points.is_uniform` (`points.py:27-31`). -/
def isUniform (s : Pts V) : Bool := if s.force then true else s.equal

/-- `Curve.is_updating` (`curve.py:46-48`). -/
def isUpdating (s : Pts V) : Bool := !s.bIv.isEmpty

/-- Loop of `_bisect_points` (`points.py:358-361`). -/
def bisectGo (a : List (Pt V)) (x : ℚ) (lo hi : ℕ) : ℕ :=
  if lo < hi then
    let mid := (lo + hi) / 2
    match a[mid]? with
    | none => lo   -- unreachable: `mid < hi ≤ len(a)`
    | some p => if p.1 < x then bisectGo a x (mid + 1) hi else bisectGo a x lo mid
  else lo
termination_by hi - lo

/-- `_bisect_points(a, x)` (`points.py:343-362`) with the default `lo`, `hi`. -/
def bisect (a : List (Pt V)) (x : ℚ) : ℕ := bisectGo a x 0 a.length

/-- `Points.x_index` (`points.py:284-299`), for finite `x`. -/
def xIndex (s : Pts V) (x : ℚ) : Except Err ℚ :=
  if s.isUniform then
    match s.interval with
    | none => .ok 0
    | some d =>
      match s.points with
      | [] => .error .index
      | p :: _ => if d = 0 then .error .zeroDiv else .ok ((x - p.1) / d)
  else
    let i1 := bisect s.points x
    if i1 = 0 then .ok 0
    else if s.points.length ≤ i1 then .ok ((i1 : ℚ) - 1)
    else
      match s.points[i1 - 1]?, s.points[i1]? with
      | some p0, some p1 =>
        if p1.1 - p0.1 = 0 then .error .zeroDiv
        else .ok (((i1 - 1 : ℕ) : ℚ) + (x - p0.1) / (p1.1 - p0.1))
      | _, _ => .error .index

/-- `Points.y` (`points.py:227-246`). -/
def y [Lerp V] (s : Pts V) (x : Ext) : Except Err (Option V) :=
  if !s.domVal.contains x then .ok none
  else
    match x with
    | .fin q => do
      let i_ ← s.xIndex q
      let u := pyMod1 i_
      let i := pyInt i_
      if u = 0 then
        let p ← pyGet s.points i
        pure p.2
      else
        match s.interp with
        | .linear => do
          let p1 ← pyGet s.points i
          let p2 ← pyGet s.points (i + 1)
          match p1.2, p2.2 with
          | some y1, some y2 => pure (some (Lerp.lerp u y1 y2))
          | _, _ => pure none
        | .previous => do
          let p ← pyGet s.points i
          pure p.2
        | .next => do
          let p ← pyGet s.points (i + 1)
          pure p.2
    | _ => .error .overflow

/-- `Points.y_start` (`points.py:248-251`). -/
def yStart (s : Pts V) : Except Err (Option V) :=
  if s.domVal.isEmpty then .ok none else do
    let p ← pyGet s.points 0
    pure p.2

/-- `Points.y_end` (`points.py:253-256`). -/
def yEnd (s : Pts V) : Except Err (Option V) :=
  if s.domVal.isEmpty then .ok none else do
    let p ← pyGet s.points (-1)
    pure p.2

/-- `Curve.resolve_min_step` (`curve.py:158-166`). -/
def resolveMinStep (own arg : Option ℚ) : Option ℚ :=
  match arg, own with
  | none, none => none
  | none, some m => some m
  | some a, none => some a
  | some a, some m => some (max a m)

/-- `Points.x_next` (`points.py:260-270`).  `min_step` is finite; `limit` is ignored by the
code.  `x + None` is a `TypeError`. -/
def xNext (s : Pts V) (x : Ext) (minStep : Option ℚ) : Except Err (Option Ext) :=
  if s.domVal.isEmpty then .ok none
  else
    match resolveMinStep s.minStep minStep with
    | none => .error .type
    | some m =>
      if !s.domVal.contains (x.addQ m) (enforceStart := false) then .ok none
      else
        match x with
        | .ninf => .ok (some s.domVal.lo)
        | .pinf => .error .overflow
        | .fin q => do
          let i ← s.xIndex (q + m)
          let p ← pyGet s.points (max 0 ⌈i⌉)
          pure (some (.fin p.1))

/-- `Points.x_previous` (`points.py:272-282`). -/
def xPrevious (s : Pts V) (x : Ext) (minStep : Option ℚ) : Except Err (Option Ext) :=
  if s.domVal.isEmpty then .ok none
  else
    match resolveMinStep s.minStep minStep with
    | none => .error .type
    | some m =>
      if !s.domVal.contains (x.addQ (-m)) (enforceEnd := false) then .ok none
      else
        match x with
        | .pinf => .ok (some s.domVal.hi)
        | .ninf => .error .overflow
        | .fin q => do
          let i ← s.xIndex (q - m)
          let p ← pyGet s.points (min ((s.points.length : ℤ) - 1) ⌊i⌋)
          pure (some (.fin p.1))

/-- First loop of `_domain_indexes` (`points.py:317-325`), on the points from index `i` on. -/
def startScan (dom : Iv) : List (Pt V) → ℕ → ℕ
  | [], i => i
  | p :: ps, i =>
    if dom.hi ≤ .fin p.1 then i
    else if dom.contains (.fin p.1) then i
    else startScan dom ps (i + 1)

/-- Second loop of `_domain_indexes` (`points.py:331-339`); the argument is `i + 1`, the
result is `end_i`. -/
def endScan (dom : Iv) (pts : List (Pt V)) : ℕ → Except Err ℕ
  | 0 => .ok 0
  | n + 1 =>
    match pts[n]? with
    | none => .error .index
    | some p =>
      if .fin p.1 ≤ dom.lo then .ok (n + 1)
      else if dom.contains (.fin p.1) then .ok (n + 1)
      else endScan dom pts n

/-- `Points._domain_indexes` (`points.py:301-341`). -/
def domainIndexes (s : Pts V) (domain : Iv) : Except Err (ℤ × ℤ) :=
  let len := s.points.length
  if domain.superset s.domVal then .ok (0, len)
  else
    let dom := Iv.inter domain s.domVal
    if dom.isEmpty then .ok (0, 0)
    else do
      let startI : ℤ ←
        if dom.isNegInf then pure 0
        else
          match dom.lo with
          | .fin a => do
            let i ← s.xIndex a
            let i0 := (max 0 ⌊i⌋).toNat
            pure ((startScan dom (s.points.drop i0) i0 : ℕ) : ℤ)
          | _ => .error .overflow
      let endI : ℤ ←
        if dom.isPosInf then pure (len : ℤ)
        else
          match dom.hi with
          | .fin b => do
            let i ← s.xIndex b
            let j : ℤ := min (len : ℤ) ⌈i⌉
            if j < 0 then pure (j + 1)
            else do
              let e ← endScan dom s.points (j.toNat + 1)
              pure (e : ℤ)
          | _ => .error .overflow
      pure (startI, endI)

/-- `Points.sample_points` without `step`/`min_step` (`points.py:177-196`; the branch at
lines 183-185, irregular sampling, is modelled in `Model/Sampling.lean`). -/
def samplePlain (s : Pts V) (domain : Iv) : Except Err (List (Pt V)) :=
  if s.domVal.isEmpty then .ok []
  else if domain.superset s.domVal then .ok s.points
  else
    let dom := Iv.inter s.domVal domain
    if dom.isEmpty then .ok []
    else do
      let (i0, i1) ← s.domainIndexes dom
      pure (pySlice s.points i0 i1)

/-- `Points._did_change_points` (`points.py:198-202`): the new value of `interval`. -/
def intervalOf (pts : List (Pt V)) : Option ℚ :=
  match pts with
  | [] => none
  | [_] => none
  | p :: q :: ps =>
    some ((((q :: ps).getLast (by simp)).1 - p.1) / (((q :: ps).length : ℕ) : ℚ))

/-- `Points._did_change_points` (`points.py:198-202`). -/
def didChange (s : Pts V) : Pts V := { s with interval := intervalOf s.points }

/-- `Points._points_equally_spaced` (`points.py:204-225`). -/
def pointsEquallySpaced (interval : Option ℚ) (old new : List (Pt V)) : Except Err Bool :=
  if new.length = 0 ∨ old.length + new.length < 2 then .ok true
  else do
    let n0 ← pyGet new 0
    let nl ← pyGet new (-1)
    let (start, steps) ←
      if old.length ≠ 0 then do
        let ol ← pyGet old (-1)
        pure (ol.1, (new.length : ℚ))
      else pure (n0.1, (new.length : ℚ) - 1)
    let d ←
      match interval with
      | some d => pure d
      | none =>
        if old.length = 1 then do
          let ol ← pyGet old (-1)
          pure (n0.1 - ol.1)
        else do
          let n1 ← pyGet new 1
          pure (n1.1 - n0.1)
    pure (decide (nl.1 = start + d * steps))

/-- `Curve.begin_update` (`curve.py:433-444`), seen from the curve's own state. -/
def beginUpdate (s : Pts V) (d : Iv) (r : Reads) : Pts V × List (Ev V) :=
  if d.isEmpty || s.bIv.superset d then (s, [])
  else
    let s1 := { s with bIv := Iv.union s.bIv d }
    (if r.atBegin then s1.touch else s1, [.begin d s1])

/-- `Curve.end_update` (`curve.py:446-466`), seen from the curve's own state. -/
def endUpdate (s : Pts V) (d : Iv) (r : Reads) : Pts V × List (Ev V) :=
  if d.isEmpty || s.eIv.superset d then (s, [])
  else
    let e := Iv.union s.eIv d
    if !e.superset s.bIv then ({ s with eIv := e }, [])
    else
      let s1 := { s with bIv := Iv.empty, eIv := Iv.empty, cache := none }
      (if r.atEnd then s1.touch else s1, [.fin e s1])

/-- `Points.set` (`points.py:159-175`). -/
def set (s : Pts V) (pts : List (Pt V)) (updateDomain : Option Iv) (r : Reads) : Res V :=
  let (s, ud) :=
    match updateDomain with
    | some d => (s, d)
    | none =>
      let s := s.touch
      match pts with
      | [] => (s, s.domVal)
      | p :: ps =>
        (s, Iv.union s.domVal (Iv.closed p.1 ((p :: ps).getLast (by simp)).1))
  let (s1, ev1) := s.beginUpdate ud r
  match pointsEquallySpaced s1.interval [] pts with
  | .error e => ⟨s1, ev1, some e⟩
  | .ok b =>
    let s2 := { s1 with equal := b }
    if s2.force && !b then ⟨s2, ev1, some .nonRegular⟩
    else
      let s3 := didChange { s2 with points := pts }
      let (s4, ev2) := s3.endUpdate ud r
      ⟨s4, ev1 ++ ev2, none⟩

/-- `Points.append_list` (`points.py:61-85`). -/
def appendList (s : Pts V) (ps : List (Pt V)) (r : Reads) : Res V :=
  match s.points with
  | [] => s.set ps none r
  | o :: os =>
    match ps with
    | [] => ⟨s, [], none⟩
    | p :: ps' =>
      if p.1 ≤ ((o :: os).getLast (by simp)).1 then ⟨s, [], some .nonAscending⟩
      else
        let lastX := ((p :: ps').getLast (by simp)).1
        let s := s.touch
        let dom : Iv :=
          if s.domVal.isEmpty then Iv.closed p.1 lastX
          else ⟨s.domVal.hi, .fin lastX, true, false⟩
        let (s1, ev1) := s.beginUpdate dom r
        match pointsEquallySpaced s1.interval s1.points (p :: ps') with
        | .error e => ⟨s1, ev1, some e⟩
        | .ok b =>
          let s2 := { s1 with equal := b }
          if s2.force && !b then ⟨s2, ev1, some .nonRegular⟩
          else
            let s3 := didChange { s2 with points := s2.points ++ (p :: ps') }
            let (s4, ev2) := s3.endUpdate dom r
            ⟨s4, ev1 ++ ev2, none⟩

/-- `Points.append` (`points.py:55-59`). -/
def append (s : Pts V) (p : Pt V) (r : Reads) : Res V := s.appendList [p] r

/-- `Points.replace` (`points.py:87-109`). -/
def replace (s : Pts V) (p : Pt V) (orAppend : Bool) (r : Reads) : Res V :=
  let s := s.touch
  if !s.domVal.contains (.fin p.1) then
    if orAppend then s.append p r else ⟨s, [], some .outOfBounds⟩
  else
    let ud := Iv.point p.1
    let (s1, ev1) := s.beginUpdate ud r
    match s1.xIndex p.1 with
    | .error e => ⟨s1, ev1, some e⟩
    | .ok i_ =>
      let i := ⌈i_⌉
      match pyGet s1.points i with
      | .error e => ⟨s1, ev1, some e⟩
      | .ok np =>
        if p.1 ≠ np.1 then
          if s1.force then ⟨s1, ev1, some .betweenPoints⟩
          else
            let s2 := didChange { s1 with points := pyInsert s1.points i p, equal := false }
            let (s3, ev2) := s2.endUpdate ud r
            ⟨s3, ev1 ++ ev2, none⟩
        else
          match pySet s1.points i p with
          | .error e => ⟨s1, ev1, some e⟩
          | .ok pts =>
            let s2 := didChange { s1 with points := pts }
            let (s3, ev2) := s2.endUpdate ud r
            ⟨s3, ev1 ++ ev2, none⟩

/-- `Points.reset` (`points.py:111-157`). -/
def reset (s : Pts V) (domain : Option Iv) (r : Reads) : Res V :=
  if s.points.length = 0 then ⟨s, [], none⟩
  else
    match domain with
    | none => s.set [] none r
    | some d =>
      let s := s.touch
      if !s.domVal.intersects d then ⟨s, [], none⟩
      else if d.superset s.domVal then s.set [] none r
      else
        match s.domainIndexes d with
        | .error e => ⟨s, [], some e⟩
        | .ok (i0, i1) =>
          if i0 = i1 then ⟨s, [], none⟩
          else
            let head0 := pySlice s.points 0 i0
            let tail0 := pySlice s.points i1 s.points.length
            let head :=
              match head0.getLast? with
              | some p => if d.contains (.fin p.1) then head0.dropLast else head0
              | none => head0
            let tail :=
              match tail0 with
              | p :: ps => if d.contains (.fin p.1) then ps else p :: ps
              | [] => []
            if head.length + tail.length = 0 then s.set [] none r
            else
              match s.points.head?, s.points.getLast? with
              | some p0, some pl =>
                let (a, ao) :=
                  match head.getLast? with
                  | some h => (h.1, true)
                  | none => (p0.1, false)
                let (b, bo) :=
                  match tail.head? with
                  | some t => (t.1, true)
                  | none => (pl.1, false)
                s.set (head ++ tail) (some ⟨.fin a, .fin b, ao, bo⟩) r
              | _, _ => ⟨s, [], some .index⟩

/-- State before the first `set` in `Points.__init__` (`points.py:42-52`). -/
def blank (interp : Interp) (uniform : Bool) : Pts V :=
  { interp := interp, force := uniform, equal := false, interval := none, points := [],
    minStep := none, cache := none, bIv := Iv.empty, eIv := Iv.empty }

/-- `Points(points, interpolation, uniform)` (`points.py:38-53`); a fresh object has no
observers. -/
def new (points : List (Pt V)) (interp : Interp := .linear) (uniform : Bool := true) :
    Except Err (Pts V) :=
  let r := (blank interp uniform).set points none ⟨false, false⟩
  match r.err with
  | none => .ok r.st
  | some e => .error e

end Pts
end Curvepy
