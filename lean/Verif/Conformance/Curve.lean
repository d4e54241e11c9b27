import Verif.Conformance.Points
import Verif.Model.Curve
import Verif.Model.CurveScan
import Verif.Model.Line
import Verif.Model.Sampling
import Verif.Model.Parse
import Verif.Props.OffsetDuration
/-!
The assertions of `test/constant_test.py`, `test/line_test.py`, `test/generic_test.py`,
`test/aggregate_test.py`, `test/piecewise_test.py`, `test/offset_test.py`, and those of
`test/map_test.py` and `test/curve_test.py` on values, run on the model.

These are tests of the model, not proofs of properties.  Where a test edits a source and looks at
a curve over it, the curve is made again of the edited source.
-/
set_option autoImplicit false
namespace Curvepy.Conformance
open Ext Crv

/-- Does the curve have these values here? -/
def has (c : Crv) (l : List (ℚ × Option ℚ)) : Bool :=
  l.all fun p => decide (c.y (.fin p.1) = .ok (p.2.map .fin))

/-- Do steps with the default least step lead here? -/
def walks (f : Ext → Option Ext → Option Ext → Except Err (Option Ext)) (l : List (ℚ × Option ℚ)) : Bool :=
  l.all fun p => decide (f (.fin p.1) (some MIN_STEP) none = .ok (p.2.map .fin))

/-- Sampled points. -/
def sampled (ps : List (ℚ × ℚ)) : Option (Except Err (List Sample)) :=
  some (.ok (ps.map fun p => (.fin p.1, some (.fin p.2))))

/-- The curve, nothing when raised. -/
def got (r : Except Err Crv) : Crv := match r with
  | .ok c => c
  | .error _ => generic (fun _ => .error .exception)

def pts (ps : List (ℚ × ℚ)) (uniform : Bool := true) : Crv := ofPoints (made (at_ ps) .linear uniform)
def num (q : ℚ) : Crv := constant (.fin q)

/-! ### `test/constant_test.py` -/

example : has (num 1) [(0, some 1), (1, some 1)] = true := by decide +kernel
example : Constant.x (.fin 1) (.fin 0) = none ∧ Constant.x (.fin 1) (.fin 1) = some 0 := by decide +kernel
example : (num 1).dY (.fin 0) = .ok (some (.fin 0)) ∧ (num 1).dY (.fin 1) = .ok (some (.fin 0)) := by decide +kernel
example : (num 1).xNext (.fin 0) (some (.fin 1)) none = .ok (some .pinf) := by decide +kernel
example : (num 1).xPrevious (.fin 0) (some (.fin 1)) none = .ok (some .ninf) := by decide +kernel
example : (num 1).xNext (.fin 0) (some (.fin 1)) (some (.fin 10)) = .ok (some (.fin 10)) := by decide +kernel
example : (num 1).xPrevious (.fin 0) (some (.fin 1)) (some (.fin (-10))) = .ok (some (.fin (-10))) := by decide +kernel
example : (num 1).samplePoints (some (Iv.closed 0 2)) (some MIN_STEP) (some 1) 10 = sampled [(0, 1), (1, 1), (2, 1)] := by decide +kernel
example : (num 1).samplePoints (some (Iv.closed 0 2)) (some MIN_STEP) none 10 = sampled [(0, 1), (2, 1)] := by decide +kernel
example : (Constant.setValue Iv.infinite ⟨Gate.init, Num.fin 1⟩ (.fin 2)).1.data = .fin 2 := by decide +kernel

/-! ### `test/line_test.py` -/

def lineOf (a : Line.Args) : Crv := match Line.mk a with
  | .ok h => Line.crv h.data
  | .error _ => generic (fun _ => .error .exception)

/-- The slope and the values at 0 and 1. -/
def lineIs (a : Line.Args) : Bool := match Line.mk a with
  | .ok h => decide (Line.dY h.data = .fin 1 ∧ has (Line.crv h.data) [(0, some 1), (1, some 2)] = true)
  | .error _ => false

example : lineIs { const := some 1, slope := some (.fin 1) } = true := by decide +kernel
example : lineIs { p1 := some (0, 1), p2 := some (1, 2) } = true := by decide +kernel
example : lineIs { points := some [(0, 1), (1, 2)] } = true := by decide +kernel
example : lineIs { const := some 1, p2 := some (1, 2) } = true := by decide +kernel
example : (lineOf { const := some 1, p2 := some (1, 2) }).samplePoints (some (Iv.closed 0 2)) (some MIN_STEP) (some 1) 10
    = sampled [(0, 1), (1, 2), (2, 3)] := by decide +kernel
example : (lineOf { const := some 1, p2 := some (1, 2) }).samplePoints (some (Iv.closed 0 2)) (some MIN_STEP) none 10
    = sampled [(0, 1), (2, 3)] := by decide +kernel
example : has (lineOf { p1 := some (10, 2), p2 := some (20, 3) }) [(0, some 1), (10, some 2), (15, some (5/2)), (20, some 3)]
    = true := by decide +kernel
example : has (lineOf { p1 := some (2, -10), slope := some (.fin 1) })
    [(0, some (-12)), (2, some (-10)), (10, some (-2)), (12, some 0)] = true := by decide +kernel
example : has (lineOf { p1 := some (-2, 10), slope := some (.fin (-2)) }) [(-2, some 10), (0, some 6), (2, some 2)]
    = true := by decide +kernel
example : has (lineOf { const := some 3, slope := some (.fin 5) }) [(3, some 18)] = true ∧
    Line.partialIntegration ⟨(0, 3), .fin 5⟩ 0 3 = .fin (63/2) := by decide +kernel

/-! ### `test/generic_test.py` -/

def twice : Crv := generic (fun x => .ok (some (Num.mul (.ofExt x) (.fin 2)))) (Iv.closed 0 1)

example : has twice [(-1/10, none), (0, some 0), (1, some 2), (11/10, none)] = true := by decide +kernel
example : twice.dY (.fin (1/2)) = .ok (some (.fin 2)) := by decide +kernel

/-! ### `test/aggregate_test.py` -/

/-- A function with one value. -/
def flat (v : ℚ) (d : Iv) (m : Option Ext := none) : Crv := generic (fun _ => .ok (some (.fin v))) d m

def plusC (a b : Crv) : Crv := addMany [.curve a, .curve b]
def minusC (a b : Crv) : Crv := subtractMany [.curve a, .curve b]
def timesC (a b : Crv) : Crv := multiplyMany [.curve a, .curve b]
def overC (a b : Crv) : Crv := divideMany [.curve a, .curve b]
/-- `Aggregate(funcs, tfm=lambda x, ys: sum(ys))`. -/
def sumC (cs : List Crv) : Crv := aggregate cs fun _ ys => match allDefined ys with
  | none => .error .type
  | some vs => .ok (some (vs.foldl Num.add (.fin 0)))

example : has (addMany [.curve (num 1), .number (.fin 3)]) [(0, some 4)] = true := by decide +kernel
example : (addMany [.curve (num 1), .number (.fin 3)]).samplePoints (some (Iv.closed 0 2)) (some MIN_STEP) none 10
    = sampled [(0, 4), (2, 4)] := by decide +kernel
example : has (subtractMany [.curve (num 1), .number (.fin 4)]) [(0, some (-3))] = true := by decide +kernel
example : (subtractMany [.curve (num 1), .number (.fin 4)]).samplePoints (some (Iv.closed 0 2)) (some MIN_STEP) none 10
    = sampled [(0, -3), (2, -3)] := by decide +kernel

example : has (plusC (flat 3 (Iv.closed 0 2)) (flat 2 (Iv.closed 1 3)))
    [(0, none), (9/10, none), (1, some 5), (2, some 5), (21/10, none)] = true := by decide +kernel
example : (plusC (flat 3 (Iv.closed 0 2)) (flat 2 (Iv.closed 1 3))).samplePoints (some (Iv.closed 0 3)) (some (.fin 1)) none 10
    = sampled [(1, 5), (2, 5)] := by decide +kernel
example : has (minusC (flat 3 (Iv.closed 0 2)) (flat 2 (Iv.closed 1 3))) [(1, some 1)] = true := by decide +kernel
example : has (plusC (flat 3 (Iv.closed 1 2) (some (.fin 1))) (flat 2 (Iv.closed 0 3) (some (.fin 1))))
    [(0, none), (9/10, none), (1, some 5), (2, some 5), (21/10, none)] = true := by decide +kernel
example : (plusC (flat 3 (Iv.closed 1 2) (some (.fin 1))) (flat 2 (Iv.closed 0 3) (some (.fin 1)))).samplePoints none
    (some MIN_STEP) none 10 = sampled [(1, 5), (2, 5)] := by decide +kernel

def ofNone : Crv := aggregate [ofPoints (made [(0, none), (1, none)])] (fun _ ys => .ok (ys.headD none)) true
def ofEmpty : Crv := aggregate [ofPoints (made [])] (fun _ ys => .ok (ys.headD none)) true

example : ofNone.dom = Iv.closed 0 1 ∧ has ofNone [(0, none), (1, none)] = true := by decide +kernel
example : ofEmpty.dom.isEmpty = true ∧ has ofEmpty [(0, none), (1, none)] = true := by decide +kernel

def ones : Crv := pts [(0, 1), (1, 1), (2, 1), (3, 1), (4, 1)]
def twos : Crv := pts [(0, 2), (2, 2), (4, 2)]

example : has (sumC [ones, twos]) ((List.range 100).map fun i => ((i : ℚ) / 100 * 4, some 3)) = true := by decide +kernel
example : has (minusC (plusC twos ones) twos) ((List.range 100).map fun i => ((i : ℚ) / 100 * 4, some 1)) = true := by
  decide +kernel
example : walks (sumC [ones, twos]).xNext
    [(-1/2, some 0), (0, some 1), (1/2, some 1), (1, some 2), (3/2, some 2), (7/2, some 4), (4, none)] = true := by
  decide +kernel
example : walks (sumC [ones, twos]).xPrevious
    [(0, none), (1/2, some 0), (1, some 0), (3/2, some 1), (7/2, some 3), (4, some 3), (9/2, some 4)] = true := by
  decide +kernel

/-- The sum after the edits of `test_update`. -/
def grown (ps : List (ℚ × ℚ)) : Crv := sumC [pts ps, pts [(2, 2), (4, 2)]]

example : (grown [(0, 1), (1, 1)]).dom.isEmpty = true ∧ has (grown [(0, 1), (1, 1)]) [(0, none), (3/2, none), (3, none)] = true := by
  decide +kernel
example : (grown [(0, 1), (1, 1), (2, 1)]).dom = Iv.closed 2 2 ∧ has (grown [(0, 1), (1, 1), (2, 1)]) [(2, some 3)] = true := by
  decide +kernel
example : (grown [(0, 1), (1, 1), (2, 1), (3, 1)]).dom = Iv.closed 2 3 ∧
    has (grown [(0, 1), (1, 1), (2, 1), (3, 1)]) [(2, some 3), (3, some 3)] = true := by decide +kernel
example : (grown [(0, 1), (1, 1), (2, 1), (3, 1), (4, 1)]).dom = Iv.closed 2 4 ∧
    has (grown [(0, 1), (1, 1), (2, 1), (3, 1), (4, 1)]) [(4, some 3)] = true := by decide +kernel
example : has (sumC [pts []]) [(0, none)] = true ∧ has (sumC [pts [(0, 1)]]) [(0, some 1)] = true ∧
    has (sumC [pts [(0, 1), (1, 2)]]) [(1, some 2)] = true ∧
    has (sumC [pts [(0, 1), (1, 2), (2, 3)]]) [(2, some 3)] = true := by decide +kernel

/-- `(p1.offset(10) * 2 + p2.offset(10) * 2) / 2`. -/
def nestedOffset (ps : List (ℚ × ℚ)) : Crv :=
  overC (plusC (timesC ((pts ps).offset 10) (num 2)) (timesC ((pts [(2, 2), (4, 2)]).offset 10) (num 2))) (num 2)

/-- `Aggregate([p1 * 2, p2 * 2], …)`. -/
def nestedSum (ps : List (ℚ × ℚ)) : Crv := sumC [timesC (pts ps) (num 2), timesC (pts [(2, 2), (4, 2)]) (num 2)]

example : (nestedSum [(0, 1), (1, 1)]).dom.isEmpty = true ∧
    has (nestedSum [(0, 1), (1, 1)]) [(0, none), (3/2, none), (3, none)] = true := by decide +kernel
example : (nestedSum [(0, 1), (1, 1), (2, 1)]).dom = Iv.closed 2 2 ∧
    has (nestedSum [(0, 1), (1, 1), (2, 1)]) [(2, some 6)] = true := by decide +kernel
example : (nestedSum [(0, 1), (1, 1), (2, 1), (3, 1)]).dom = Iv.closed 2 3 ∧
    has (nestedSum [(0, 1), (1, 1), (2, 1), (3, 1)]) [(2, some 6), (3, some 6)] = true := by decide +kernel
example : (nestedOffset [(0, 1), (1, 1)]).dom.isEmpty = true ∧
    has (nestedOffset [(0, 1), (1, 1)]) [(10, none), (23/2, none), (13, none)] = true := by decide +kernel
example : (nestedOffset [(0, 1), (1, 1), (2, 1)]).dom = Iv.closed 12 12 ∧
    has (nestedOffset [(0, 1), (1, 1), (2, 1)]) [(12, some 3)] = true := by decide +kernel
example : (nestedOffset [(0, 1), (1, 1), (2, 1), (3, 1)]).dom = Iv.closed 12 13 ∧
    has (nestedOffset [(0, 1), (1, 1), (2, 1), (3, 1)]) [(12, some 3), (13, some 3)] = true := by decide +kernel

example : (plusC (pts [(0, 1)]) (pts [(0, 1)])).dom = Iv.point 0 ∧ has (plusC (pts [(0, 1)]) (pts [(0, 1)])) [(0, some 2)] = true := by
  decide +kernel
example :
    let c := pts [(0, 1), (1, 1)]
    (plusC c c).dom = Iv.closed 0 1 ∧ has (plusC c c) [(1, some 2)] = true ∧
      (timesC (plusC c c) (num 2)).dom = Iv.closed 0 1 ∧ has (timesC (plusC c c) (num 2)) [(1, some 4)] = true ∧
      has (timesC (plusC (timesC c (num (1/2))) (timesC c (num (1/2)))) (num 2)) [(1, some 2)] = true := by decide +kernel

/-! ### `test/piecewise_test.py` -/

def pieces : Crv := got (mkPiecewise [.number (.fin 2), .number (.fin 3)] [Iv.closedOpen 0 2, Iv.closed 2 3])
def varied : Crv :=
  got (mkPiecewise [.number (.fin 2), .curve (ofPoints (made (pointGen [3, 4] 2)))] [Iv.closedOpen 1 2, Iv.closed 2 3])

example : pieces.dom = Iv.closed 0 3 ∧
    has pieces [(-1/10, none), (0, some 2), (19/10, some 2), (2, some 3), (3, some 3), (31/10, none)] = true := by
  decide +kernel
example : pieces.samplePoints (some (Iv.closed 0 3)) (some MIN_STEP) (some 1) 10 = sampled [(0, 2), (1, 2), (2, 3), (3, 3)] := by
  decide +kernel
example : varied.dom = Iv.closed 1 3 ∧
    has varied [(9/10, none), (1, some 2), (19/10, some 2), (2, some 3), (3, some 4), (31/10, none)] = true := by
  decide +kernel
example : varied.samplePoints (some (Iv.closed 0 3)) (some MIN_STEP) (some (1/2)) 10
    = sampled [(1, 2), (3/2, 2), (2, 3), (5/2, 7/2), (3, 4)] := by decide +kernel

/-! ### `test/offset_test.py` -/

def third : Crv := ofPoints (made (pointGen [1, 2, 3]))

/-- What is asserted of `points.offset(k)`. -/
def shiftedBy (k : ℚ) : Bool :=
  let f := third.offset k
  decide (f.dom = Iv.closed k (k + 2)) &&
  decide (f.samplePoints none (some MIN_STEP) none 10 = sampled [(k, 1), (k + 1, 2), (k + 2, 3)]) &&
  has f [(k + 1/2, some (3/2))]

example : shiftedBy 10 = true ∧ shiftedBy (1/10) = true ∧ shiftedBy 0 = true ∧ shiftedBy (-1/10) = true ∧
    shiftedBy (-10) = true := by decide +kernel
example : walks (third.offset 10).xNext [(19/2, some 10), (21/2, some 11), (23/2, some 12), (25/2, none)] = true ∧
    walks (third.offset 10).xPrevious [(19/2, none), (21/2, some 10), (23/2, some 11), (25/2, some 12)] = true := by
  decide +kernel
example : walks (third.offset (1/10)).xNext [(0, some (1/10)), (1/2, some (11/10)), (3/2, some (21/10)), (5/2, none)] = true ∧
    walks (third.offset (1/10)).xPrevious [(0, none), (1/2, some (1/10)), (3/2, some (11/10)), (5/2, some (21/10))] = true := by
  decide +kernel
example : walks (third.offset 0).xNext [(-1/2, some 0), (1/2, some 1), (3/2, some 2), (5/2, none)] = true ∧
    walks (third.offset 0).xPrevious [(0, none), (1/2, some 0), (3/2, some 1), (5/2, some 2)] = true := by decide +kernel
example : walks (third.offset (-1/10)).xNext [(-1/2, some (-1/10)), (1/2, some (9/10)), (3/2, some (19/10)), (5/2, none)] = true ∧
    walks (third.offset (-1/10)).xPrevious [(-1/2, none), (1/2, some (-1/10)), (3/2, some (9/10)), (5/2, some (19/10))] = true := by
  decide +kernel
example : walks (third.offset (-10)).xNext [(-11, some (-10)), (-19/2, some (-9)), (-17/2, some (-8)), (-15/2, none)] = true ∧
    walks (third.offset (-10)).xPrevious [(-11, none), (-19/2, some (-10)), (-17/2, some (-9)), (-15/2, some (-8))] = true := by
  decide +kernel
example : ((ofPoints (made [(0, none), (1, some 1), (2, some 2)])).offset 10).dom = Iv.closed 10 12 := by decide +kernel
example : ((ofPoints (made [(0, none), (1, some 1), (2, some 2)])).offset 10).samplePoints none (some MIN_STEP) none 10
    = some (.ok [(.fin 10, none), (.fin 11, some (.fin 1)), (.fin 12, some (.fin 2))]) := by decide +kernel

/-- `test_offset_with_duration`, one period of a second. -/
def later : Crv := third.offsetBy Props.unitDur 1

example : later.dom = Iv.closed 1 3 ∧
    has later [(1/2, none), (14/10, some (14/10)), (5/2, some (5/2)), (7/2, none)] = true := by decide +kernel
example : later.samplePoints none (some MIN_STEP) none 10 = sampled [(1, 1), (2, 2), (3, 3)] := by decide +kernel
example : walks later.xNext [(1/2, some 1), (3/2, some 2), (5/2, some 3), (7/2, none)] = true ∧
    walks later.xPrevious [(1/2, none), (3/2, some 1), (5/2, some 2), (7/2, some 3)] = true := by decide +kernel
example :
    let f := third.offsetBy Props.unitDur 10
    f.dom = Iv.closed 10 12 ∧ has f [(21/2, some (3/2))] = true ∧
      f.samplePoints none (some MIN_STEP) none 10 = sampled [(10, 1), (11, 2), (12, 3)] ∧
      walks f.xNext [(19/2, some 10), (21/2, some 11), (23/2, some 12), (25/2, none)] = true ∧
      walks f.xPrevious [(19/2, none), (21/2, some 10), (23/2, some 11), (25/2, some 12)] = true := by decide +kernel
/-- `test_offset_with_duration_non_uniform`, in hours. -/
def uneven : Crv := (pts [(0, 1), (20, 2), (24, 3)] false).offsetBy Props.unevenDur 1

example : uneven.dom = Iv.closed 20 44 ∧
    has uneven [(19, none), (22, some (3/2)), (34, some (5/2)), (44 + 1/2, none)] = true := by decide +kernel
example : uneven.samplePoints none (some MIN_STEP) none 10 = sampled [(20, 1), (24, 2), (44, 3)] := by decide +kernel
example : walks uneven.xNext [(19, some 20), (22, some 24), (34, some 44), (44 + 1/2, none)] = true ∧
    walks uneven.xPrevious [(19, none), (22, some 20), (34, some 24), (44 + 1/2, some 44)] = true := by decide +kernel

/-! ### `test/map_test.py` -/

/-- `lambda x, y: y * 2`. -/
def doubled (c : Crv) : Crv := got (c.map 2 fun _ y => match y with
  | some y => .ok (some (Num.mul y (.fin 2)))
  | none => .error .type)

example : has (doubled (num 1)) [(0, some 2)] = true ∧ has (doubled (num 2)) [(0, some 4)] = true := by decide +kernel
example : (doubled (ofPoints (made []))).samplePoints none (some MIN_STEP) none 10 = sampled [] := by decide +kernel
example : (doubled third).samplePoints none (some MIN_STEP) none 10 = sampled [(0, 2), (1, 4), (2, 6)] := by decide +kernel

/-! ### `test/curve_test.py` -/

def blended : Crv :=
  got (blend (num 2) (.curve (num 3)) 4 5 [⟨.ninf, .fin 4, false, true⟩, Iv.closedOpen 4 5, ⟨.fin 5, .pinf, false, false⟩])

example : has blended [(0, some 2), (4, some 2), (9/2, some (5/2)), (5, some 3), (10, some 3)] = true := by decide +kernel

example : ∀ d ∈ [none, some Iv.infinite, some ⟨.fin 0, .pinf, false, false⟩, some ⟨.ninf, .fin 0, false, false⟩],
    (num 1).samplePoints d (some MIN_STEP) none 10 = some (.error .exception) := by decide +kernel

def twoOrLine : List Arg := [.number (.fin 2), .curve (Line.crv ⟨(0, 0), .fin 1⟩)]

example : has (Crv.min twoOrLine) [(0, some 0), (1, some 1), (2, some 2), (3, some 2), (4, some 2)] = true := by decide +kernel
example : has (Crv.max twoOrLine) [(0, some 2), (1, some 2), (2, some 2), (3, some 3), (4, some 4)] = true := by decide +kernel

/-- `[(0, None), (1, 12), (2, None)]`. -/
def gaps : PyArg := .list [.pair 0 none, .pair 1 (some 12), .pair 2 none]

example : has (got (PyArg.first (.list [gaps, .list [.pair 0 (some 1), .pair 1 (some 1), .pair 2 (some 1)]])))
    [(-1, none), (0, some 1), (1, some 12), (2, some 1), (3, none)] = true := by decide +kernel
example : has (got (PyArg.first (.list [gaps, .one (.number (.fin 1))])))
    [(-1, some 1), (0, some 1), (1, some 12), (2, some 1), (3, some 1)] = true := by decide +kernel

def firstOf2 : Crv := Crv.first [.curve (flat 1 (Iv.closed 0 2)), .curve (flat 2 ⟨.fin 1, .pinf, false, false⟩)]

example : has firstOf2 [(-1, none), (0, some 1), (1, some 1), (2, some 1), (21/10, some 2), (3, some 2)] = true := by
  decide +kernel
example : firstOf2.samplePoints (some (Iv.closed 0 3)) (some (.fin 1)) none 10
    = sampled [(0, 1), (1, 1), (2, 1), (3, 2)] := by decide +kernel

example : has (got (num 1).differential) [(0, some 0)] = true ∧
    has (got (pts [(0, 0), (1, 1)]).differential) [(1, some 1)] = true := by decide +kernel

def valley : Crv := pts [(0, 4), (1, 3), (2, 2), (3, 1), (4, 2)]
def hill : Crv := pts [(0, -4), (1, -3), (2, -2), (3, -1), (4, -2)]

example : (valley.minimise (fun x f => valley.dY x f) (.fin (-1/2))).1 = .ok none := by decide +kernel
example : ∀ x ∈ [(0 : ℚ), 1/2, 1, 2, 31/10, 3, 4], (valley.minimise (fun z f => valley.dY z f) (.fin x)).1 = .ok (some (.fin 3)) := by
  decide +kernel
example : (hill.maximise (fun x f => hill.dY x f) (.fin (-1/2))).1 = .ok none := by decide +kernel
example : ∀ x ∈ [(0 : ℚ), 1/2, 1, 2, 31/10, 3, 4], (hill.maximise (fun z f => hill.dY z f) (.fin x)).1 = .ok (some (.fin 3)) := by
  decide +kernel

example : has (plusC (num 2) (num 1)) [(0, some 3)] = true ∧ has (plusC (num 2) (num 1)) [(0, some 3)] = true ∧
    has (minusC (num 2) (num 1)) [(0, some 1)] = true ∧ has (timesC (num 2) (num 1)) [(0, some 2)] = true ∧
    has (overC (num 2) (num 4)) [(0, some (1/2))] = true ∧ has (overC (num 1) (num 2)) [(0, some (1/2))] = true ∧
    has (got (num 2).neg) [(0, some (-2))] = true ∧ has (got (got (num 2).neg).abs) [(0, some 2)] = true := by
  decide +kernel

def cornered : Crv := Crv.max [.curve (pts [(0, -1), (1, 0), (2, 1)]), .number (.fin 0)]
def cornered' : Crv := Crv.max [.number (.fin 0), .curve (pts [(0, -1), (1, 0), (2, 1)])]

example : cornered.dom = Iv.closed 0 2 ∧ has cornered [(-1, none), (0, some 0), (1, some 0), (2, some 1), (3, none)] = true := by
  decide +kernel
example : cornered'.dom = Iv.closed 0 2 ∧ has cornered' [(-1, none), (0, some 0), (1, some 0), (2, some 1), (3, none)] = true := by
  decide +kernel

end Curvepy.Conformance
