import Verif.Model.Net

/-!
# Networks over several lists of points

As in `Model/Net`, but the curves may be made from any number of lists of points, each of which can be edited: `(a - b).ema(9)`.  Source
`j` of a curve is the one made `j + 1` curves earlier; beyond the first curve the sources are the lists of points.

Simplifications as in `Model/Net`.
-/

namespace Curvepy

/-- A computation on one of many states. -/
def Run.part {σ α : Type} (b : ℕ) (p : Run σ α) : Run (ℕ → σ) α := fun s => (p (s b)).map fun r => (r.1, Function.update s b r.2)

/-- A curve among others that do not know of it. -/
def Machine.part {σ : Type} (b : ℕ) (M : Machine σ) : Machine (ℕ → σ) where
  dom := M.dom.part b
  minStep := M.minStep.part b
  y x := (M.y x).part b
  xNext x m l := (M.xNext x m l).part b
  xPrevious x m l := (M.xPrevious x m l).part b

namespace Web
open Net

/-- The states of the lists of points and of all curves. -/
def State : List Node → Type
  | [] => ℕ → Pts ℚ
  | n :: ns => n.State × State ns

/-- The lists of points. -/
def bases : {ns : List Node} → State ns → ℕ → Pts ℚ
  | [], p => p
  | _ :: _, s => bases s.2

/-- Bound of the number of positions that curve `k` can have. -/
def size : (ns : List Node) → ℕ → State ns → ℕ
  | [], b => fun s => (s b).points.length
  | .layer _ j :: ns, 0 => fun s => size ns j s.2
  | .join js _ _ :: ns, 0 => fun s => (js.map fun j => size ns j s.2).sum
  | _ :: ns, k + 1 => fun s => size ns k s.2

/-- Curve `k`: `Points` (`points.py:33-36`, `227-282`), `Accumulator` (`accumulator.py:9-48`, `scan.py:8-67`) or `Aggregate`
(`aggregate.py:6-62`), as in `Model/Net`. -/
def machine : (ns : List Node) → ℕ → Machine (State ns)
  | [], b => points.part b
  | .layer S j :: ns, 0 => Layer.machine (machine ns j) (size ns j) S.tfm
  | .join js union tfm :: ns, 0 => Joint.machine (js.map (machine ns)) union tfm
  | _ :: ns, k + 1 => (machine ns k).behind

/-- `sample_points` of curve `k` (`scan.py:69-81`, `curve.py:168-209`). -/
def sample : (ns : List Node) → ℕ → Option Iv → Option Ext → Option ℚ → ℕ → Run (State ns) (List Crv.Sample)
  | [], b => (points.part b).samplePoints
  | .layer S j :: ns, 0 => Layer.samplePoints (machine ns j) (size ns j) S.tfm
  | .join js union tfm :: ns, 0 => (Joint.machine (js.map (machine ns)) union tfm).samplePoints
  | _ :: ns, k + 1 => fun d m c n => (sample ns k d m c n).behind

/-- A new network. -/
def new (p : ℕ → Pts ℚ) : (ns : List Node) → State ns
  | [] => p
  | .layer S _ :: ns => (Layer.new S.minStep S.interp S.uniform, new p ns)
  | .join _ _ _ :: ns => (Joint.new, new p ns)

/-- One edit reaches all curves, as in `Model/Net`: `told b` is what the points of list `b` announce. -/
inductive Spread (p' : ℕ → Pts ℚ) (told : ℕ → Told) : (ns : List Node) → State ns → State ns → (ℕ → Told) → Prop where
  | points (p : ℕ → Pts ℚ) : Spread p' told [] p p' told
  | node {n : Node} {ns : List Node} {st : n.State} {s s' : State ns} {out : ℕ → Told} {bs es : List Iv}
      (h : Spread p' told ns s s' out) (hb : bs.Perm (n.sources.flatMap fun j => (out j).begins))
      (he : es.Perm (n.sources.flatMap fun j => (out j).ends)) :
      Spread p' told (n :: ns) (st, s) ((hear n st bs es).1, s') fun k =>
        match k with
        | 0 => (hear n st bs es).2
        | k + 1 => out k

/-- What the lists of points announce if one of them is edited. -/
def toldOf (b : ℕ) (ev : List (Pts.Ev ℚ)) (j : ℕ) : Told := if j = b then ⟨evBegins ev, evEnds ev, none⟩ else ⟨[], [], none⟩

/-- An edit of list `b` of points. -/
def Edits (ns : List Node) (b : ℕ) (op : Spec.Op ℚ) (r : Pts.Reads) (s s' : State ns) (out : ℕ → Told) : Prop :=
  Spread (Function.update (bases s) b (op.run (bases s b) r).st) (toldOf b (op.run (bases s b) r).ev) ns s s' out

end Web
end Curvepy
