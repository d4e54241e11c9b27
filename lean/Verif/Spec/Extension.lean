import Verif.Model.Extension

namespace Curvepy
namespace Spec

/-- A curve on its domain, `low` below it (if wanted by `start`) and `high` above it. -/
def extended (c : Crv) (start stop : Bool) (low high : Option (Ext → Option Num)) (x : Ext) :
    Except Err (Option Num) :=
  if c.dom.contains x then c.y x
  else if c.dom.isEmpty then .ok none
  else if start ∧ x ≤ c.dom.lo then .ok (low.bind fun f => f x)
  else if stop ∧ c.dom.hi ≤ x then .ok (high.bind fun f => f x)
  else .ok none

/-- The value, if there is one and nothing is raised. -/
def valueOr (r : Except Err (Option Num)) : Option Num :=
  match r with
  | .ok v => v
  | .error _ => none

/-- The line through `(x, y)` with slope `d`. -/
def lineThrough (x y d : Num) (t : Ext) : Num := Num.add y (Num.mul d (Num.sub (.ofExt t) x))

/-- The tangent at `x`, if the curve has a value and a slope there. -/
def tangentLine (c : Crv) (x : Ext) (forward : Bool) : Option (Ext → Option Num) :=
  match valueOr (c.y x), valueOr (c.dY x forward) with
  | some y, some d => some fun t => some (lineThrough (.ofExt x) y d t)
  | _, _ => none

/-- The edge used at the start: an open bound is moved by `step` if that stays inside. -/
def firstEdge (step : ℚ) (d : Iv) : Ext :=
  if d.loOpen = true ∧ d.contains (d.lo.addQ step) = true then d.lo.addQ step else d.lo

/-- The edge used at the end. -/
def lastEdge (step : ℚ) (d : Iv) : Ext :=
  if d.hiOpen = true ∧ d.contains (d.hi.addQ (-step)) = true then d.hi.addQ (-step) else d.hi

/-- A domain, reaching to infinity where it is extended. -/
def reach (d : Iv) (low high : Bool) : Iv where
  lo := if low then .ninf else d.lo
  loOpen := if low then false else d.loOpen
  hi := if high then .pinf else d.hi
  hiOpen := if high then false else d.hiOpen

/-- Reading does not raise. -/
def Quiet (r : Except Err (Option Num)) : Prop := ∃ v, r = .ok v

/-- The two curves have the same edges, as far as they are extended. -/
structure SameEdges (start stop : Bool) (low high : Crv → Option (Ext → Option Num)) (c c' : Crv) :
    Prop where
  empty : c'.dom.isEmpty = c.dom.isEmpty
  lo : start = true → c'.dom.lo = c.dom.lo ∧ c'.dom.loOpen = c.dom.loOpen
  hi : stop = true → c'.dom.hi = c.dom.hi ∧ c'.dom.hiOpen = c.dom.hiOpen
  low : start = true → c.dom.isEmpty = false → low c' = low c
  high : stop = true → c.dom.isEmpty = false → high c' = high c

/-- What happens to an extension. -/
inductive ExtEvent where
  /-- `f(x)` -/
  | read (x : Ext)
  /-- `f.domain` -/
  | domain
  /-- the curve was edited; what `is_in_extension` answers about the edit -/
  | change (c : Crv) (inExtension : Bool)

/-- One event. -/
def extStep {F : Type} (K : Extn.Kind F) (p : Crv × Extn F) : ExtEvent → Crv × Extn F
  | .read x => (p.1, (Extn.y K p.1 p.2 x).1)
  | .domain => (p.1, (Extn.domain K p.1 p.2).1)
  | .change c b => (c, (Extn.sourceEnd K c p.2 b).1)

/-- Events one after the other. -/
def extRun {F : Type} (K : Extn.Kind F) : Crv × Extn F → List ExtEvent → Crv × Extn F
  | p, [] => p
  | p, e :: es => extRun K (extStep K p e) es

/-- Every curve in the history satisfies `good`; an edit that `is_in_extension` denies leaves the edges
alone. -/
def Told (good : Crv → Prop) (same : Crv → Crv → Prop) : Crv → List ExtEvent → Prop
  | c, [] => good c
  | c, .change c' b :: es => good c ∧ (b = true ∨ same c c') ∧ Told good same c' es
  | c, _ :: es => good c ∧ Told good same c es

end Spec
end Curvepy
