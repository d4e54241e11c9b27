import Verif.Model.Interval
import Verif.Model.Py
import Mathlib.Data.List.Basic
import Mathlib.Data.List.Dedup

/-!
# Observers and updates (`curvepy/curve.py:384-473`)

`Gate` is the bookkeeping of pending updates, `Registry` the observers of one curve, `World`
all curves of the process together with the shared token counter.  Objects that observers are
bound to (the weakly referenced `obj[0]`) are identified by numbers; callbacks are represented
by their token and, for registry changes they make, by a function on the registry.

Simplifications: callbacks do not raise; a callback does not call `begin_update`/`end_update` of the
same curve again; `obj == token_or_obj` is identity (no class of /repo defines `__eq__`).
-/

namespace Curvepy

/-! ## Pending updates -/

/-- `_begin_update_interval`, `_end_update_interval` (`curve.py:55-56`). -/
structure Gate where
  bIv : Iv
  eIv : Iv
deriving DecidableEq, Repr

namespace Gate

/-- A new curve (`curve.py:55-56`). -/
def init : Gate := ⟨Iv.empty, Iv.empty⟩

/-- `Curve.is_updating` (`curve.py:46-48`). -/
def isUpdating (g : Gate) : Bool := !g.bIv.isEmpty

/-- Bookkeeping of `Curve.begin_update` (`curve.py:433-436`); the result is the interval to be
announced to the observers, if any. -/
def begin (g : Gate) (d : Iv) : Gate × Option Iv :=
  if d.isEmpty || g.bIv.superset d then (g, none)
  else ({ g with bIv := Iv.union g.bIv d }, some d)

/-- Bookkeeping of `Curve.end_update` (`curve.py:446-457`). -/
def finish (g : Gate) (d : Iv) : Gate × Option Iv :=
  if d.isEmpty || g.eIv.superset d then (g, none)
  else
    let e := Iv.union g.eIv d
    if !e.superset g.bIv then ({ g with eIv := e }, none)
    else (⟨Iv.empty, Iv.empty⟩, some e)

/-- One call of `begin_update(iv)` or `end_update(iv)`. -/
inductive Act where
  | begin (iv : Iv)
  | finish (iv : Iv)
deriving DecidableEq, Repr

/-- Perform one call. -/
def act (g : Gate) : Act → Gate × Option Iv
  | .begin d => g.begin d
  | .finish d => g.finish d

/-- Perform a sequence of calls; the log pairs each call with what it announced. -/
def run (g : Gate) : List Act → Gate × List (Act × Option Iv)
  | [] => (g, [])
  | a :: as =>
    let (g1, o) := g.act a
    let (g2, log) := run g1 as
    (g2, (a, o) :: log)

end Gate

/-! ## The domain cache -/

/-- A curve with data `D`, pending updates and the cached domain `_domain`
(`curve.py:50-57`). -/
structure Cell (D : Type) where
  gate : Gate
  cache : Option Iv
  data : D

namespace Cell
variable {D : Type}

/-- What a curve can be asked to do in connection with its domain. -/
inductive Act (D : Type) where
  /-- read `curve.domain` -/
  | read
  /-- `begin_update(iv)` -/
  | begin (iv : Iv)
  /-- `end_update(iv)` -/
  | finish (iv : Iv)
  /-- assign new data -/
  | change (data : D)

/-- The value of `curve.domain` (`curve.py:36-40`). -/
def domain (getDomain : D → Iv) (c : Cell D) : Iv := c.cache.getD (getDomain c.data)

/-- One step: `curve.py:36-40` (`read`), `433-436` (`begin`), `446-458` (`finish`, which
clears the cache when it completes, `curve.py:458`, `472-473`). -/
def act (getDomain : D → Iv) (c : Cell D) : Act D → Cell D
  | .read => { c with cache := some (c.domain getDomain) }
  | .begin d => { c with gate := (c.gate.begin d).1 }
  | .finish d =>
    match c.gate.finish d with
    | (g, some _) => { c with gate := g, cache := none }
    | (g, none) => { c with gate := g }
  | .change v => { c with data := v }

/-- Several steps. -/
def run (getDomain : D → Iv) (c : Cell D) : List (Act D) → Cell D
  | [] => c
  | a :: as => run getDomain (c.act getDomain a) as

/-- A new curve: `_domain` is `None` (`curve.py:52`). -/
def init (v : D) : Cell D := ⟨Gate.init, none, v⟩

end Cell

/-! ## Observers of one curve -/

/-- One entry of `_observer_data` (`curve.py:412`).  `obj` identifies the weakly referenced
object, `auto` says whether the weak reference removes the observer when the object dies
(`curve.py:394-399`).  `onBegin`/`onEnd` are `none` if no callback was given and otherwise say
whether the callback takes the interval (`curve.py:404-409`). -/
structure Obs where
  obj : Option ℕ
  auto : Bool
  domain : Iv
  onBegin : Option Bool
  onEnd : Option Bool
deriving DecidableEq, Repr

/-- `_observer_data` and `_ordered_observer_tokens` (`curve.py:53-54`). -/
structure Registry where
  data : ℕ → Option Obs
  order : List ℕ

/-- One callback invocation: whose, and with which argument. -/
structure Call where
  token : ℕ
  arg : Option Iv
deriving DecidableEq, Repr

namespace Registry

/-- A new curve has no observers (`curve.py:53-54`). -/
def init : Registry := ⟨fun _ => none, []⟩

/-- The registration part of `add_observer` (`curve.py:412-417`). -/
def register (g : Registry) (t : ℕ) (o : Obs) (prio : Bool) : Registry :=
  { data := fun k => if k = t then some o else g.data k
    order := if prio then t :: g.order else g.order ++ [t] }

/-- `remove_observer(token)` (`curve.py:420-423`). -/
def removeToken (g : Registry) (t : ℕ) : Registry :=
  if (g.data t).isSome then
    { data := fun k => if k = t then none else g.data k, order := g.order.erase t }
  else g

/-- Loop of `remove_observer(obj)` (`curve.py:425-431`) over a copy of the token list.
`dead k`: object `k` no longer exists, its weak reference returns `None`. -/
def removeObjGo (dead : ℕ → Bool) (o : ℕ) : List ℕ → Registry → Except Err Registry
  | [], g => .ok g
  | t :: ts, g =>
    match g.data t with
    | none => .error .key
    | some ob =>
      match ob.obj with
      | none => removeObjGo dead o ts g
      | some k =>
        if dead k || k == o then
          removeObjGo dead o ts
            { data := fun j => if j = t then none else g.data j, order := g.order.erase t }
        else removeObjGo dead o ts g

/-- `remove_observer(obj)` (`curve.py:424-431`). -/
def removeObj (dead : ℕ → Bool) (o : ℕ) (g : Registry) : Except Err Registry :=
  removeObjGo dead o g.order g

/-- What a callback is called with (`curve.py:441-444`, `463-466`). -/
def callArg (withIv : Bool) (d : Iv) : Option Iv := if withIv then some d else none

/-- Delivery loop of `begin_update` (`curve.py:437-444`).  It iterates over the live token list:
position `i` of whatever the list is by then.  `eff t` is what the begin callback of `t` does
to the registry.  `none`: more than `fuel` steps (Python would go on). -/
def beginLoop (d : Iv) (eff : ℕ → Registry → Registry) :
    ℕ → Registry → ℕ → Option (Registry × List Call × Option Err)
  | 0, _, _ => none
  | n + 1, g, i =>
    match g.order[i]? with
    | none => some (g, [], none)
    | some t =>
      match g.data t with
      | none => some (g, [], some .key)
      | some o =>
        if d.intersects o.domain then
          match o.onBegin with
          | some w =>
            match beginLoop d eff n (eff t g) (i + 1) with
            | none => none
            | some (g', cs, e) => some (g', ⟨t, callArg w d⟩ :: cs, e)
          | none => beginLoop d eff n g (i + 1)
        else beginLoop d eff n g (i + 1)

/-- Delivery loop of `end_update` (`curve.py:459-466`), over a copy of the token list. -/
def endLoop (d : Iv) (eff : ℕ → Registry → Registry) :
    List ℕ → Registry → Registry × List Call × Option Err
  | [], g => (g, [], none)
  | t :: ts, g =>
    match g.data t with
    | none => (g, [], some .key)
    | some o =>
      if d.intersects o.domain then
        match o.onEnd with
        | some w =>
          let (g', cs, e) := endLoop d eff ts (eff t g)
          (g', ⟨t, callArg w d⟩ :: cs, e)
        | none => endLoop d eff ts g
      else endLoop d eff ts g

/-- The callbacks of one announced begin (`curve.py:437-444`). -/
def deliverBegin (g : Registry) (d : Iv) (eff : ℕ → Registry → Registry) (fuel : ℕ) :
    Option (Registry × List Call × Option Err) :=
  beginLoop d eff fuel g 0

/-- The callbacks of one announced end (`curve.py:459-466`). -/
def deliverEnd (g : Registry) (d : Iv) (eff : ℕ → Registry → Registry) :
    Registry × List Call × Option Err :=
  endLoop d eff g.order g

end Registry

/-! ## All curves -/

/-- The process: the shared `Curve._token_counter` (`curve.py:22`), the registry of every
curve, and which objects have died. -/
structure World where
  ctr : ℕ
  reg : ℕ → Registry
  dead : ℕ → Bool

namespace World

/-- Start of the process. -/
def init : World := ⟨0, fun _ => Registry.init, fun _ => false⟩

/-- Replace the registry of curve `c`. -/
def setReg (w : World) (c : ℕ) (g : Registry) : World :=
  { w with reg := fun k => if k = c then g else w.reg k }

/-- Arguments of `add_observer` (`curve.py:384`). -/
structure AddArgs where
  obj : Option ℕ := none
  domain : Option Iv := none
  onBegin : Option Bool := none
  onEnd : Option Bool := none
  autoremove : Bool := false
  prioritize : Bool := false

/-- `c.add_observer(...)` (`curve.py:384-418`): the token `0` if there is no callback; the
counter is increased before the check that may raise (`curve.py:388`, `401`). -/
def addObserver (w : World) (c : ℕ) (a : AddArgs) : World × Except Err ℕ :=
  if a.onBegin.isNone && a.onEnd.isNone then (w, .ok 0)
  else
    let t := w.ctr + 1
    let w := { w with ctr := t }
    if a.obj.isNone && a.autoremove then (w, .error .exception)
    else
      let o : Obs :=
        { obj := a.obj, auto := a.autoremove, domain := a.domain.getD Iv.infinite,
          onBegin := a.onBegin, onEnd := a.onEnd }
      (w.setReg c ((w.reg c).register t o a.prioritize), .ok t)

/-- `c.remove_observer(token)`. -/
def removeToken (w : World) (c t : ℕ) : World := w.setReg c ((w.reg c).removeToken t)

/-- `c.remove_observer(obj)`; a `KeyError` would leave the registry as the loop left it, but it
does not happen (`Registry.removeObj_ok`). -/
def removeObj (w : World) (c o : ℕ) : World × Option Err :=
  match (w.reg c).removeObj w.dead o with
  | .ok g => (w.setReg c g, none)
  | .error e => (w, some e)

/-- Tokens of a registry that the death of `o` removes (`curve.py:396`). -/
def autoTokens (g : Registry) (o : ℕ) : List ℕ :=
  g.order.filter fun t =>
    match g.data t with
    | some ob => ob.auto && ob.obj == some o
    | none => false

/-- Object `o` dies: the weak reference callbacks remove its autoremoved observers
(`curve.py:396`). -/
def die (w : World) (o : ℕ) : World :=
  { w with
    reg := fun c => (autoTokens (w.reg c) o).foldl Registry.removeToken (w.reg c)
    dead := fun k => if k = o then true else w.dead k }

/-- Operations on observers. -/
inductive Op where
  | add (c : ℕ) (a : AddArgs)
  | removeToken (c t : ℕ)
  | removeObj (c o : ℕ)
  | die (o : ℕ)

/-- Perform one operation; the result is that of `add_observer`, if it was one. -/
def step (w : World) : Op → World × Option (Except Err ℕ)
  | .add c a => let (w', r) := w.addObserver c a; (w', some r)
  | .removeToken c t => (w.removeToken c t, none)
  | .removeObj c o => ((w.removeObj c o).1, none)
  | .die o => (w.die o, none)

/-- Perform a sequence of operations; the log pairs each with its result. -/
def run (w : World) : List Op → World × List (Op × Option (Except Err ℕ))
  | [] => (w, [])
  | a :: as =>
    let (w1, r) := w.step a
    let (w2, log) := run w1 as
    (w2, (a, r) :: log)

/-! ### Registration by combined curves -/

/-- `Aggregate.__init__`, `Piecewise.__init__` (`aggregate.py:25-27`, `piecewise.py:18-19`): one
prioritised registration per distinct source, in the order `uniq` in which the set is
iterated; the result is `_observer_tokens`. -/
def subscribeAll (w : World) : List ℕ → World × List ℕ
  | [] => (w, [])
  | c :: cs =>
    match w.addObserver c { onBegin := some true, onEnd := some true, prioritize := true } with
    | (w1, .ok t) => let (w2, ts) := subscribeAll w1 cs; (w2, t :: ts)
    | (w1, .error _) => subscribeAll w1 cs   -- unreachable: no autoremove

/-- `Aggregate.__del__`, `Piecewise.__del__` (`aggregate.py:29-31`, `piecewise.py:21-23`):
`zip(self.funcs, self._observer_tokens)`. -/
def unsubscribeAll (w : World) : List (ℕ × ℕ) → World
  | [] => w
  | (c, t) :: ps => unsubscribeAll (w.removeToken c t) ps

/-- `__del__` of a combined curve over `funcs` with the tokens its `__init__` obtained. -/
def destroy (w : World) (funcs tokens : List ℕ) : World := w.unsubscribeAll (funcs.zip tokens)

/-- The registration of an extension on its curve (`extension/extension.py:34`): no object. -/
def subscribeExtension (w : World) (c : ℕ) : World × Except Err ℕ :=
  w.addObserver c { onBegin := some true, onEnd := some true, prioritize := true }

/-- `Extension.__del__` (`extension/extension.py:44-45`): `remove_observer(self)`. -/
def destroyExtension (w : World) (c self : ℕ) : World := (w.removeObj c self).1

end World
end Curvepy
