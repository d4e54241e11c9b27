import Verif.Model.Line

/-!
# Extensions

Model of `extension/extension.py`, `extension/constant.py` and `extension/tangent.py` (without
regression).  The sine extension is in `Model/Sin`.

Simplifications: `Interval.get_lt()` and `get_gt()` are assumed to return what is below and above an
interval (nothing for an empty one); what `is_in_extension` (`extension.py:115-118`) answers rests on
comparison operators of intervals that are not known here, so its answer is an argument of `sourceEnd`.
The two functions are `Constant` or `Line`, whose domain is infinite; what they announce to the observers
of the extension is left out.
-/

namespace Curvepy

/-- The attributes of an extension (`extension.py:16-42`). -/
structure Extn (F : Type) where
  /-- `start`, `end` -/
  start : Bool
  stop : Bool
  /-- `start_func`, `end_func`; of no meaning without `start`, `end` -/
  startF : F
  stopF : F
  startValid : Bool
  stopValid : Bool
  raiseOnEmpty : Bool
  /-- `extension_interval` -/
  iv : Iv
  stale : Bool
  ivStale : Bool
deriving DecidableEq, Repr

namespace Extn
variable {F : Type}

/-- What subclasses override: `create_extension_func`, the `y` of that function, `update_extension`. -/
structure Kind (F : Type) where
  create : F
  value : F → Ext → Option Num
  update : Crv → Extn F → Extn F × Option Err

/-- `Extension.__init__` (`extension.py:16-42`). -/
def mk' (K : Kind F) (c : Crv) (start : Bool := true) (stop : Bool := true)
    (raiseOnEmpty : Bool := false) : Extn F where
  start := start && !c.dom.isNegInf
  stop := stop && !c.dom.isPosInf
  startF := K.create
  stopF := K.create
  startValid := true
  stopValid := true
  raiseOnEmpty := raiseOnEmpty
  iv := Iv.empty
  stale := true
  ivStale := true

/-- `Interval.get_lt()`: what is below (assumed). -/
def below (d : Iv) : Iv := if d.isEmpty then Iv.empty else ⟨.ninf, d.lo, false, !d.loOpen⟩

/-- `Interval.get_gt()`: what is above (assumed). -/
def above (d : Iv) : Iv := if d.isEmpty then Iv.empty else ⟨d.hi, .pinf, !d.hiOpen, false⟩

/-- The check at `extension.py:150-152` and `161-163`. -/
def check (s : Extn F) : Option Err :=
  if ((s.start && !s.iv.isNegInf) || (s.stop && !s.iv.isPosInf)) && s.raiseOnEmpty then some .exception
  else none

/-- The interval chosen at `extension.py:141-148`. -/
def interval (c : Crv) (s : Extn F) : Iv :=
  if s.start && s.startValid && s.stop && s.stopValid then Iv.unionAll [Iv.infinite, Iv.infinite]
  else if s.start && s.startValid then Iv.interAll [Iv.infinite, below c.dom]
  else if s.stop && s.stopValid then Iv.interAll [Iv.infinite, above c.dom]
  else Iv.empty

/-- The end of `_update_extension_interval` (`extension.py:141-152`). -/
def setInterval (c : Crv) (s : Extn F) : Extn F × Option Err :=
  let s := { s with iv := interval c s }
  (s, check s)

/-- `_update_extension_if_needed` (`extension.py:154-164`); the nested call of
`_update_extension_interval` finds `_extension_interval_stale` set and `_extension_stale` not. -/
def updateIfNeeded (K : Kind F) (c : Crv) (s : Extn F) : Extn F × Option Err :=
  if !s.stale then (s, none)
  else
    match K.update c { s with stale := false, ivStale := true } with
    | (s, some e) => (s, some e)
    | (s, none) =>
      match check s with
      | some e => (s, some e)
      | none => setInterval c { s with ivStale := false }

/-- `_update_extension_interval` (`extension.py:134-152`). -/
def updateInterval (K : Kind F) (c : Crv) (s : Extn F) : Extn F × Option Err :=
  if !s.ivStale then (s, none)
  else
    let s := { s with ivStale := false }
    if s.stale then
      match updateIfNeeded K c s with
      | (s, some e) => (s, some e)
      | (s, none) => setInterval c s
    else setInterval c s

/-- `y_extension` (`extension.py:73-83`). -/
def yExtension (K : Kind F) (c : Crv) (s : Extn F) (x : Ext) : Option Num :=
  if c.dom.isEmpty then none
  else if s.start && decide (x ≤ c.dom.lo) then K.value s.startF x
  else if s.stop && decide (c.dom.hi ≤ x) then K.value s.stopF x
  else none

/-- `y` (`extension.py:85-91`). -/
def y (K : Kind F) (c : Crv) (s : Extn F) (x : Ext) : Extn F × Except Err (Option Num) :=
  if c.dom.contains x then (s, c.y x)
  else
    match updateIfNeeded K c s with
    | (s, some e) => (s, .error e)
    | (s, none) => (s, .ok (if s.iv.contains x then yExtension K c s x else none))

/-- `get_domain` (`extension.py:12-14`). -/
def domain (K : Kind F) (c : Crv) (s : Extn F) : Extn F × Except Err Iv :=
  match updateInterval K c s with
  | (s, some e) => (s, .error e)
  | (s, none) => (s, .ok (Iv.unionAll [c.dom, s.iv]))

/-- `end_extension_update` (`extension.py:126-132`): the part about the extension itself. -/
def sourceEnd (K : Kind F) (c : Crv) (s : Extn F) (inExtension : Bool) : Extn F × Option Err :=
  if inExtension then updateInterval K c { s with stale := true } else (s, none)

/-- `a - b` and `x + step` of `extension.py:100-101`, `111-112`; infinities are not modelled. -/
def distance : Ext → Ext → Except Err ℚ
  | .fin a, .fin b => .ok (a - b)
  | _, _ => .error .value

/-- `x_next` (`extension.py:104-113`). -/
def xNext (c : Crv) (s : Extn F) (x : Ext) (m limit : Option Ext) : Except Err (Option Ext) := do
  match ← c.xNext x m none with
  | some x1 => pure (some x1)
  | none =>
    if s.stop then
      match ← c.xPrevious c.dom.hi m limit with
      | none => pure none
      | some x0 => do
        let d ← distance c.dom.hi x0
        pure (some (x.addQ d))
    else pure none

/-- `x_previous` (`extension.py:93-102`). -/
def xPrevious (c : Crv) (s : Extn F) (x : Ext) (m limit : Option Ext) : Except Err (Option Ext) := do
  match ← c.xPrevious x m none with
  | some x1 => pure (some x1)
  | none =>
    if s.start then
      match ← c.xNext c.dom.lo m limit with
      | none => pure none
      | some x0 => do
        let d ← distance x0 c.dom.lo
        pure (some (x.addQ (-d)))
    else pure none

/-! ## Constant -/

/-- The first branch of `ConstantExtension.update_extension` (`constant.py:14-17`). -/
def constantEmpty (s : Extn (Option Num)) : Extn (Option Num) × Option Err :=
  if !s.start then (s, some .attribute)
  else if !s.stop then ({ s with startF := none }, some .attribute)
  else ({ s with startF := none, stopF := none }, none)

/-- `constant.py:19-22`. -/
def constantStart (c : Crv) (s : Extn (Option Num)) : Extn (Option Num) × Option Err :=
  if s.start then
    match c.y c.dom.lo with
    | .error e => (s, some e)
    | .ok v => ({ s with startF := v }, none)
  else (s, none)

/-- `constant.py:24-27`. -/
def constantStop (c : Crv) (s : Extn (Option Num)) : Extn (Option Num) × Option Err :=
  if s.stop then
    match c.y c.dom.hi with
    | .error e => (s, some e)
    | .ok v => ({ s with stopF := v }, none)
  else (s, none)

/-- One step after another, if the first did not raise. -/
def andThen (r : Extn F × Option Err) (f : Extn F → Extn F × Option Err) : Extn F × Option Err :=
  match r with
  | (s, some e) => (s, some e)
  | (s, none) => f s

/-- `ConstantExtension` (`extension/constant.py`). -/
def constant : Kind (Option Num) where
  create := some (.fin 0)
  value v _ := v
  update c s := if c.dom.isEmpty then constantEmpty s else andThen (constantStart c s) (constantStop c)

/-! ## Tangent -/

/-- The line `Line(p1=(x, y), slope=dy)` (`line.py:36-66`); not only finite numbers. -/
structure Tan where
  x : Num
  y : Num
  slope : Num
deriving DecidableEq, Repr

/-- `Line.y` (`line.py:65-66`). -/
def Tan.at (t : Tan) (x : Ext) : Num := Num.add t.y (Num.mul t.slope (Num.sub (.ofExt x) t.x))

/-- The edge used at the start (`tangent.py:27-29`); `step` is `min_step`. -/
def startEdge (step : ℚ) (d : Iv) : Ext :=
  if d.loOpen && d.contains (d.lo.addQ step) then d.lo.addQ step else d.lo

/-- The edge used at the end (`tangent.py:56-58`). -/
def stopEdge (step : ℚ) (d : Iv) : Ext :=
  if d.hiOpen && d.contains (d.hi.addQ (-step)) then d.hi.addQ (-step) else d.hi

/-- The value and the slope at an edge (`tangent.py:48-49`, `77-78`). -/
def tangentAt (c : Crv) (x : Ext) (forward : Bool) : Except Err (Option Tan) := do
  let y ← c.y x
  let d ← c.dY x forward
  match y, d with
  | some y, some d => pure (some ⟨.ofExt x, y, d⟩)
  | _, _ => pure none

/-- `tangent.py:26-53`. -/
def tangentStart (step : ℚ) (c : Crv) (s : Extn Tan) : Extn Tan × Option Err :=
  if s.start then
    match tangentAt c (startEdge step c.dom) true with
    | .error e => (s, some e)
    | .ok none => ({ s with startValid := false }, none)
    | .ok (some t) => ({ s with startValid := true, startF := t }, none)
  else (s, none)

/-- `tangent.py:55-82`. -/
def tangentStop (step : ℚ) (c : Crv) (s : Extn Tan) : Extn Tan × Option Err :=
  if s.stop then
    match tangentAt c (stopEdge step c.dom) false with
    | .error e => (s, some e)
    | .ok none => ({ s with stopValid := false }, none)
    | .ok (some t) => ({ s with stopValid := true, stopF := t }, none)
  else (s, none)

/-- `TangentExtension` (`extension/tangent.py`) without regression. -/
def tangent (step : ℚ) : Kind Tan where
  create := ⟨.fin 0, .fin 0, .fin 0⟩
  value t x := some (t.at x)
  update c s := andThen (tangentStart step c s) (tangentStop step c)

end Extn
end Curvepy
