import Verif.Model.Smma

/-!
# `EMA` with an `init` curve

The average takes its first value from another curve (`ema.py:42-44`), here a list of points.  `EMA.__init__` parses that curve and
keeps it (`ema.py:16`); only the source is handed to `Accumulator.__init__` (`ema.py:21`), which observes it (`scan.py:17`).
The two lists are different objects.
-/

namespace Curvepy

/-- An `EMA` with its source and with the points that its first value is taken from. -/
structure EmaInit where
  ema : Accum
  init : Pts ℚ

namespace EmaInit
open Accum

/-- `EMA._ema_scan` (`ema.py:39-53`).  Asking the other curve reads its domain. -/
def initTfm (alpha period : Option ℚ) (minStep : ℚ) : STfm (Pts ℚ) := fun I src x y ema =>
  match y, ema with
  | some _, none => some (I.touch, src, I.y (.fin x))
  | y, ema => some (I, src, emaTfm alpha period none minStep src src x y ema)

/-- `EMA(func, degree, is_period, init)` (`ema.py:13-21`). -/
def new (src init : Pts ℚ) (minStep : ℚ) (uniform : Bool := true) : EmaInit := ⟨Accum.new src minStep .linear uniform, init⟩

/-- `y`. -/
def query (alpha period : Option ℚ) (E : EmaInit) (x : Ext) : Option (EmaInit × Except Err (Option ℚ)) :=
  (E.ema.queryS (initTfm alpha period E.ema.minStep) E.init x).map fun o => (⟨o.st, o.own⟩, o.res)

/-- An edit of the source, which is observed. -/
def edit (E : EmaInit) (op : Spec.Op ℚ) (r : Pts.Reads) : EmaInit := ⟨(E.ema.edit op r).1, E.init⟩

/-- An edit of the other curve, which is not: nothing is called here, and nothing is announced. -/
def editInit (E : EmaInit) (op : Spec.Op ℚ) (r : Pts.Reads) : EmaInit := ⟨E.ema, (op.run E.init r).st⟩

/-- Reading `domain`. -/
def touch (E : EmaInit) : EmaInit := ⟨E.ema.touch, E.init⟩

/-- Reading the `domain` of the source. -/
def touchSource (E : EmaInit) : EmaInit := ⟨{ E.ema with src := E.ema.src.touch }, E.init⟩

end EmaInit
end Curvepy
