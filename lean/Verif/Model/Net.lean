import Verif.Model.Tower
import Verif.Model.Compose

/-!
# Networks of accumulators and combinations over one list of points

`fast = p.ema(12); slow = p.ema(26); macd = fast - slow; signal = macd.ema(9); histogram = macd - signal`: each curve may have any of the
earlier ones as sources, and several curves may share one.  A network is the list of its curves, the last one first; source `j` of a
curve is the one made `j + 1` curves earlier, and the points if there is none.

Simplifications: accumulators as in `Model/Tower`; combinations are `Aggregate`s without default.  The order in which observers are told
is left open: the announcements of the sources reach a curve in any order, but all announcements of the beginning of an edit before those
of its end, as `Points` makes its edit between them.
-/

namespace Curvepy

/-- State of an `Aggregate` (`aggregate.py:15-28`, `curve.py:50-57`) besides its sources. -/
structure Joint where
  cache : Option Iv
  bIv : Iv
  eIv : Iv

/-- A curve of a network. -/
inductive Node where
  | layer (S : Storey) (src : ℕ)
  | join (srcs : List ℕ) (union : Bool) (tfm : Ext → List (Option Num) → Except Err (Option Num))

namespace Node

/-- Its state. -/
def State : Node → Type
  | layer _ _ => Layer
  | join _ _ _ => Joint

/-- The sources it observes: each one once (`aggregate.py:26-28`, `scan.py:17`). -/
def sources : Node → List ℕ
  | layer _ j => [j]
  | join js _ _ => js.dedup

end Node

/-- A computation on the second of two states. -/
def Run.behind {τ σ α : Type} (p : Run σ α) : Run (τ × σ) α := fun s => (p s.2).map fun r => (r.1, (s.1, r.2))

/-- A curve beside another state. -/
def Machine.behind {τ σ : Type} (M : Machine σ) : Machine (τ × σ) where
  dom := M.dom.behind
  minStep := M.minStep.behind
  y x := (M.y x).behind
  xNext x m l := (M.xNext x m l).behind
  xPrevious x m l := (M.xPrevious x m l).behind

namespace Joint
open Crv

variable {σ : Type}

/-- `Aggregate.__init__` (`aggregate.py:15-28`). -/
def new : Joint := ⟨none, Iv.empty, Iv.empty⟩

/-- The own state. -/
def get : Run (Joint × σ) Joint := fun s => some (.ok s.1, s)

/-- Change it. -/
def put (J : Joint) : Run (Joint × σ) Unit := fun s => some (.ok (), (J, s.2))

/-- `self.domain` (`curve.py:36-40`) with `Aggregate.get_domain` (`aggregate.py:8-13`). -/
def dom (Ms : List (Machine σ)) (union : Bool) : Run (Joint × σ) Iv := do
  let J ← get
  match J.cache with
  | some d => pure d
  | none => do
    let ds ← Ms.mapM fun M => M.dom.behind
    let d := if union then Iv.unionAll ds else Iv.interAll ds
    put { J with cache := some d }
    pure d

/-- `Aggregate` (`aggregate.py:6-62`). -/
def machine (Ms : List (Machine σ)) (union : Bool) (tfm : Ext → List (Option Num) → Except Err (Option Num)) :
    Machine (Joint × σ) where
  dom := dom Ms union
  minStep := pure none
  y x := do
    let d ← dom Ms union
    if !d.contains x then pure none
    else do
      let vals ← Ms.mapM fun M => (M.y x).behind
      Run.lift (tfm x vals)
  xNext x m l := do
    let xs ← Ms.mapM fun M => (M.xNext x m l).behind
    pure (minOrNone x xs none)
  xPrevious x m l := do
    let xs ← Ms.mapM fun M => (M.xPrevious x m l).behind
    pure (maxOrNone x xs none)

/-- `begin_update` (`curve.py:433-444`): the new state and what is announced. -/
def onBegin (J : Joint) (d : Iv) : Joint × List Iv :=
  if d.isEmpty || J.bIv.superset d then (J, [])
  else ({ J with bIv := Iv.union J.bIv d }, [d])

/-- `end_update` (`curve.py:446-466`). -/
def onEnd (J : Joint) (d : Iv) : Joint × List Iv :=
  if d.isEmpty || J.eIv.superset d then (J, [])
  else
    let e := Iv.union J.eIv d
    if !e.superset J.bIv then ({ J with eIv := e }, [])
    else (⟨none, Iv.empty, Iv.empty⟩, [e])

end Joint

namespace Net
open Crv

/-- The states of the points and of all curves. -/
def State : List Node → Type
  | [] => Pts ℚ
  | n :: ns => n.State × State ns

/-- The points. -/
def base : {ns : List Node} → State ns → Pts ℚ
  | [], p => p
  | _ :: _, s => base s.2

/-- `Points` as a curve with a state: reading remembers the domain (`points.py:33-36`, `227-246`, `260-282`, `curve.py:36-40`).  An infinite
step leads beyond the points. -/
def points : Machine (Pts ℚ) where
  dom p := some (.ok p.domVal, p.touch)
  minStep p := some (.ok (p.minStep.map .fin), p)
  y x p := some ((p.y x).map (Option.map .fin), p.touch)
  xNext x m _ p := some (Layer.ownNext p x m, p.touch)
  xPrevious x m _ p := some (Layer.ownPrevious p x m, p.touch)

/-- Curve `k` of a network. -/
def machine : (ns : List Node) → ℕ → Machine (State ns)
  | [], _ => points
  | .layer S j :: ns, 0 => Layer.machine (machine ns j) (fun s => (base s).points.length) S.tfm
  | .join js union tfm :: ns, 0 => Joint.machine (js.map (machine ns)) union tfm
  | _ :: ns, k + 1 => (machine ns k).behind

/-- `sample_points` of curve `k` (`scan.py:69-81`, `curve.py:168-209`); of the points without the shortcut for regular ones
(`points.py:177-196`), which reads nothing but the domain. -/
def sample : (ns : List Node) → ℕ → Option Iv → Option Ext → Option ℚ → ℕ → Run (State ns) (List Sample)
  | [], _ => points.samplePoints
  | .layer S j :: ns, 0 => Layer.samplePoints (machine ns j) (fun s => (base s).points.length) S.tfm
  | .join js union tfm :: ns, 0 => (Joint.machine (js.map (machine ns)) union tfm).samplePoints
  | _ :: ns, k + 1 => fun d m c n => (sample ns k d m c n).behind

/-- A new network over points. -/
def new (p : Pts ℚ) : (ns : List Node) → State ns
  | [] => p
  | .layer S _ :: ns => (Layer.new S.minStep S.interp S.uniform, new p ns)
  | .join _ _ _ :: ns => (Joint.new, new p ns)

/-! ## Edits -/

/-- What a curve announces during one edit: beginnings, then ends; and the exception. -/
structure Told where
  begins : List Iv
  ends : List Iv
  err : Option Err

/-- A combination hears of beginnings, one after the other. -/
def hearBegins (J : Joint) : List Iv → Joint × List Iv
  | [] => (J, [])
  | d :: ds => ((hearBegins (J.onBegin d).1 ds).1, (J.onBegin d).2 ++ (hearBegins (J.onBegin d).1 ds).2)

/-- And of ends. -/
def hearEnds (J : Joint) : List Iv → Joint × List Iv
  | [] => (J, [])
  | d :: ds => ((hearEnds (J.onEnd d).1 ds).1, (J.onEnd d).2 ++ (hearEnds (J.onEnd d).1 ds).2)

/-- The intervals of the beginnings. -/
def begun : List Accum.Passed → List Iv
  | [] => []
  | .begin d :: ps => d :: begun ps
  | .fin _ :: ps => begun ps

/-- Those of the ends. -/
def ended : List Accum.Passed → List Iv
  | [] => []
  | .begin _ :: ps => ended ps
  | .fin d :: ps => d :: ended ps

/-- A curve hears of beginnings and then of ends. -/
def hear : (n : Node) → n.State → List Iv → List Iv → n.State × Told
  | .layer _ _, L, bs, es =>
    let r := Layer.notifyAll L (bs.map .begin ++ es.map .fin)
    (r.1, ⟨begun r.2.1, ended r.2.1, r.2.2⟩)
  | .join _ _ _, J, bs, es =>
    let r := hearBegins J bs
    let q := hearEnds r.1 es
    (q.1, ⟨r.2, q.2, none⟩)

/-- What the points announce. -/
def evBegins : List (Pts.Ev ℚ) → List Iv
  | [] => []
  | .begin d _ :: es => d :: evBegins es
  | .fin _ _ :: es => evBegins es

/-- And at the end. -/
def evEnds : List (Pts.Ev ℚ) → List Iv
  | [] => []
  | .begin _ _ :: es => evEnds es
  | .fin d _ :: es => d :: evEnds es

/-- One edit reaches all curves: `out k` is what curve `k` announces.  Each hears its sources in any order. -/
inductive Spread (p' : Pts ℚ) (told : Told) : (ns : List Node) → State ns → State ns → (ℕ → Told) → Prop where
  | points (p : Pts ℚ) : Spread p' told [] p p' fun _ => told
  | node {n : Node} {ns : List Node} {st : n.State} {s s' : State ns} {out : ℕ → Told} {bs es : List Iv}
      (h : Spread p' told ns s s' out) (hb : bs.Perm (n.sources.flatMap fun j => (out j).begins))
      (he : es.Perm (n.sources.flatMap fun j => (out j).ends)) :
      Spread p' told (n :: ns) (st, s) ((hear n st bs es).1, s') fun k =>
        match k with
        | 0 => (hear n st bs es).2
        | k + 1 => out k

/-- An edit of the points. -/
def Edits (ns : List Node) (op : Spec.Op ℚ) (r : Pts.Reads) (s s' : State ns) (out : ℕ → Told) : Prop :=
  Spread (op.run (base s) r).st ⟨evBegins (op.run (base s) r).ev, evEnds (op.run (base s) r).ev, none⟩ ns s s' out

end Net
end Curvepy
