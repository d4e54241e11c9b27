import Verif.Conformance.Points
import Verif.Model.Machine
import Verif.Model.Sma
import Verif.Model.ExtremasSampling
import Verif.Model.CurveScan
import Verif.Model.Line
/-!
The assertions of `test/accumulator_test.py`, `test/accumulator_map_test.py`, `test/ema_test.py`,
`test/sma_test.py`, `test/integral_test.py` and `test/extremas_test.py`, run on the model.

These are tests of the model, not proofs of properties.  The state is carried from one assertion to
the next as in the tests.
-/
set_option autoImplicit false
namespace Curvepy.Conformance
open Ext

/-- What a test does with a scanned curve. -/
inductive Do where
  /-- `assert f(x) == v` -/
  | ask (x : ℚ) (v : Option ℚ)
  /-- `assert len(f.accumulated_points._points) == n` -/
  | count (n : ℕ)
  /-- an edit of the source -/
  | edit (op : Spec.Op ℚ)

/-- Runs a test on an accumulator; says whether every assertion held. -/
def run (y : Accum → Ext → Option (Accum.Out (Option ℚ))) : Accum → List Do → Bool
  | _, [] => true
  | A, .ask x v :: l =>
    match y A (.fin x) with
    | none => false
    | some o => decide (o.res = .ok v) && run y o.st l
  | A, .count n :: l => decide (A.acc.points.length = n) && run y A l
  | A, .edit op :: l =>
    match A.edit op quiet with
    | (_, some _) => false
    | (B, none) => run y B l

/-- The points sampled. -/
def samples (t : Tfm) (A : Accum) (d : Option Iv := none) (step : Option ℚ := none) :
    Option (Except Err (List Crv.Sample)) :=
  ((Accum.samplePoints t d (some Crv.MIN_STEP) step 20) A).map (·.1)

def sampledAs (ps : List (ℚ × ℚ)) : Option (Except Err (List Crv.Sample)) :=
  some (.ok (ps.map fun p => (.fin p.1, some (.fin p.2))))

def eps : ℚ := 1 / 100000

/-! ### `test/accumulator_test.py` -/

def keeping : Accum := Accum.new (made (at_ [(1, 1), (2, 2), (3, 3)])) eps

example : ∀ p ∈ [((0 : ℚ), some (1 : ℚ)), (1, some 2), (14/10, some 2), (26/10, some 3), (3, none)],
    keeping.xNext (.fin p.1) eps = .ok (p.2.map .fin) := by decide +kernel
example : ∀ p ∈ [((1 : ℚ), none), (14/10, some (1 : ℚ)), (26/10, some 2), (3, some 2), (4, some 3)],
    keeping.xPrevious (.fin p.1) eps = .ok (p.2.map .fin) := by decide +kernel

/-! ### `test/accumulator_map_test.py` -/

def least (n : ℕ) : Tfm := Accum.mapTfm Accum.pyMin (some n) none eps
def most (n : ℕ) : Tfm := Accum.mapTfm Accum.pyMax (some n) none eps
def leastIn (p : ℚ) : Tfm := Accum.mapTfm Accum.pyMin none (some p) eps
def mostIn (p : ℚ) : Tfm := Accum.mapTfm Accum.pyMax none (some p) eps
def over (vs : List ℚ) (i : Interp := .linear) : Accum := Accum.new (made (pointGen vs)) eps i

example : samples (least 2) (over [1, 2, 3]) = sampledAs [(0, 1), (1, 1), (2, 2)] := by decide +kernel
example : run (Accum.query (least 2)) (over [1, 2, 3]) [.ask (1/2) (some 1), .ask 1 (some 1), .ask (3/2) (some (3/2)), .ask 2 (some 2)]
    = true := by decide +kernel
example : samples (most 2) (over [1, 2, 3, 2]) = sampledAs [(0, 1), (1, 2), (2, 3), (3, 3)] := by decide +kernel
example : run (Accum.query (most 2)) (over [1, 2, 3, 2]) [.ask (1/2) (some (3/2)), .ask 1 (some 2), .ask 2 (some 3), .ask 3 (some 3)]
    = true := by decide +kernel
example : samples (least 2) (over [1, 2, 3] .previous) = sampledAs [(0, 1), (1, 1), (2, 2)] := by decide +kernel
example : run (Accum.query (least 2)) (over [1, 2, 3] .previous)
    [.ask (1/2) (some 1), .ask 1 (some 1), .ask (3/2) (some 1), .ask 2 (some 2)] = true := by decide +kernel
example : samples (most 2) (over [1, 2, 3, 2] .previous) = sampledAs [(0, 1), (1, 2), (2, 3), (3, 3)] := by decide +kernel
example : run (Accum.query (most 2)) (over [1, 2, 3, 2] .previous)
    [.ask (1/2) (some 1), .ask 1 (some 2), .ask (3/2) (some 2), .ask 2 (some 3), .ask 3 (some 3)] = true := by decide +kernel
example : samples (most 3) (over [1, 2, 3, 2, 1, 3/2] .previous)
    = sampledAs [(0, 1), (1, 2), (2, 3), (3, 3), (4, 3), (5, 2)] := by decide +kernel
example : run (Accum.query (most 3)) (over [1, 2, 3, 2, 1, 3/2] .previous)
    [.ask (1/2) (some 1), .ask 1 (some 2), .ask 2 (some 3), .ask 3 (some 3), .ask 4 (some 3), .ask (9/2) (some 3),
     .ask 5 (some 2)] = true := by decide +kernel
example : samples (leastIn 1) (over [1, 2, 3]) = sampledAs [(0, 1), (1, 1), (2, 2)] := by decide +kernel
example : run (Accum.query (leastIn 1)) (over [1, 2, 3])
    [.ask (1/2) (some 1), .ask 1 (some 1), .ask (3/2) (some (3/2)), .ask 2 (some 2)] = true := by decide +kernel
example : samples (mostIn 1) (over [1, 2, 3, 2]) = sampledAs [(0, 1), (1, 2), (2, 3), (3, 3)] := by decide +kernel
example : run (Accum.query (mostIn 1)) (over [1, 2, 3, 2])
    [.ask (1/2) (some (3/2)), .ask 1 (some 2), .ask 2 (some 3), .ask 3 (some 3)] = true := by decide +kernel
example : samples (leastIn 1) (over [1, 2, 3] .previous) = sampledAs [(0, 1), (1, 1), (2, 2)] := by decide +kernel
example : run (Accum.query (leastIn 1)) (over [1, 2, 3] .previous)
    [.ask (1/2) (some 1), .ask 1 (some 1), .ask (3/2) (some 1), .ask 2 (some 2)] = true := by decide +kernel
example : samples (mostIn 1) (over [1, 2, 3, 2] .previous) = sampledAs [(0, 1), (1, 2), (2, 3), (3, 3)] := by decide +kernel
example : run (Accum.query (mostIn 1)) (over [1, 2, 3, 2] .previous)
    [.ask (1/2) (some 1), .ask 1 (some 2), .ask 2 (some 3), .ask 3 (some 3)] = true := by decide +kernel

/-! ### `test/ema_test.py` -/

def emaAlpha (a : ℚ) : Tfm := Accum.emaTfm (some a) none none eps
/-- `ema(2, is_period=True)`. -/
def emaPeriod (p : ℚ) : Tfm := Accum.emaTfm none (some p) none eps

example : run (Accum.query (emaAlpha (1/2))) (over [1, 2, 1, 2])
    [.ask 0 (some 1), .ask 1 (some (3/2)), .ask 2 (some (5/4)), .ask 3 (some ((5/4 + 2) * (1/2)))] = true := by decide +kernel
example : samples (emaAlpha (1/2)) (over [1, 2, 1, 2])
    = sampledAs [(0, 1), (1, 3/2), (2, 5/4), (3, (5/4 + 2) * (1/2))] := by decide +kernel
example : samples (emaAlpha (1/2)) (over [1, 2, 1, 2]) none (some 2) = sampledAs [(0, 1), (2, 5/4)] := by decide +kernel
example : run (Accum.query (emaAlpha (1/4))) (over [1, 2, 1, 2])
    [.ask 0 (some 1), .ask 1 (some (3/4 + 2 * (1/4))), .ask 2 (some ((3/4 + 2 * (1/4)) * (3/4) + 1 * (1/4))),
     .ask 3 (some (((3/4 + 2 * (1/4)) * (3/4) + 1 * (1/4)) * (3/4) + 2 * (1/4)))] = true := by decide +kernel
example : run (Accum.query (emaPeriod 2)) (over [1, 2, 1, 2]) [.ask 1 (some (3/2))] = true := by decide +kernel
example : run (Accum.query (emaAlpha (1/2))) (over [1, 2, 1])
    [.ask 3 none, .edit (.append (3, some 2)), .ask 3 (some ((5/4 + 2) * (1/2)))] = true := by decide +kernel
example : samples (emaAlpha (1/2)) ((over []).edit (.appendList (pointGen [1, 2, 1])) quiet).1
    = sampledAs [(0, 1), (1, 3/2), (2, 5/4)] := by decide +kernel
example : samples (emaAlpha (1/2)) ((over []).edit (.appendList (pointGen [1, 2, 1] 1)) quiet).1
    = sampledAs [(1, 1), (2, 3/2), (3, 5/4)] := by decide +kernel

/-! ### `test/sma_test.py` -/

/-- The average as a curve. -/
def smaMachine (w : Sma.Window) : Machine Accum where
  dom := fun A => let r := Sma.smaTouch w A; some (r.2, r.1)
  minStep := fun A => some (.ok (some (.fin A.minStep)), A)
  y x := fun A => (Sma.smaY w 10 A x).map fun o => (o.res.map (Option.map .fin), o.st)
  xNext x m _ := fun A => some (A.xNextBy x m, A)
  xPrevious x m _ := fun A => some (A.xPreviousBy x m, A)

/-- `Scan.sample_points` (`scan.py:69-81`) over the average. -/
def smaSamples (w : Sma.Window) (A : Accum) (d : Option Iv := none) :
    Option (Except Err (List Crv.Sample)) :=
  ((do
    let d ← (smaMachine w).sampleDomain d
    if d.isEmpty then pure []
    else (smaMachine w).samplePoints (some d) (some (.fin eps)) none 20 : Run Accum _) A).map (·.1)

def smaOver (vs : List ℚ) (start : ℚ := 0) (step : ℚ := 1) : Accum := Accum.new (made (pointGen vs start step)) eps

example : smaSamples (.degree 1) (smaOver [1, 2, 3]) = sampledAs [(0, 1), (1, 2), (2, 3)] := by decide +kernel
example : run (Sma.smaY (.degree 1) 10) (smaOver [1, 2, 3]) [.ask (1/2) (some (3/2))] = true := by decide +kernel
example : smaSamples (.degree 2) (smaOver [1, 2, 3, 4]) = sampledAs [(1, 3/2), (2, 5/2), (3, 7/2)] := by decide +kernel
example : run (Sma.smaY (.degree 2) 10) (smaOver [1, 2, 3, 4]) [.ask (3/2) (some 2)] = true := by decide +kernel
example : smaSamples (.degree 3) (smaOver [1, 2, 3, 4, 5, 6]) = sampledAs [(2, 2), (3, 3), (4, 4), (5, 5)] := by decide +kernel
example : run (Sma.smaY (.degree 3) 10) (smaOver [1, 2, 3, 4, 5, 6]) [.ask (5/2) (some (5/2))] = true := by decide +kernel
example : smaSamples (.degree 3) (smaOver [1, 2, 3, 4] 2) = sampledAs [(4, 2), (5, 3)] := by decide +kernel
example : run (Sma.smaY (.degree 3) 10) (smaOver [1, 2, 3, 4] 2) [.ask (9/2) (some (5/2))] = true := by decide +kernel
example : smaSamples (.degree 2) (smaOver [1, 2, 3, 4] 0 10) = sampledAs [(10, 3/2), (20, 5/2), (30, 7/2)] := by decide +kernel
example : run (Sma.smaY (.degree 2) 10) (smaOver [1, 2, 3, 4] 0 10) [.ask 15 (some 2)] = true := by decide +kernel
example : smaSamples (.period 1) (smaOver [1, 2, 3]) = sampledAs [(0, 1), (1, 2), (2, 3)] := by decide +kernel
example : run (Sma.smaY (.period 1) 10) (smaOver [1, 2, 3]) [.ask (1/2) (some (3/2))] = true := by decide +kernel
example : smaSamples (.period 2) (smaOver [1, 2, 3, 4]) = sampledAs [(1, 3/2), (2, 5/2), (3, 7/2)] := by decide +kernel
example : run (Sma.smaY (.period 2) 10) (smaOver [1, 2, 3, 4]) [.ask (3/2) (some 2)] = true := by decide +kernel
example : smaSamples (.period 3) (smaOver [1, 2, 3, 4, 5, 6]) = sampledAs [(2, 2), (3, 3), (4, 4), (5, 5)] := by decide +kernel
example : run (Sma.smaY (.period 3) 10) (smaOver [1, 2, 3, 4, 5, 6]) [.ask (5/2) (some (5/2))] = true := by decide +kernel
/-- `test_start_from_end` -/
example : run (Sma.smaY (.period 3) 10) (smaOver [1, 2, 3, 4, 5, 6, 7, 8]) [.ask 7 (some 7), .count 5] = true := by decide +kernel
/-- `test_sample_from_end` -/
example : smaSamples (.period 3) (smaOver [1, 2, 3, 4, 5, 6, 7, 8, 9]) (some (Iv.closed 7 8)) = sampledAs [(7, 7), (8, 8)] := by
  decide +kernel
/-- `test_irregular_start` -/
example : run (Sma.smaY (.period 3) 10) (smaOver [1, 2, 3, 4, 5, 6, 7, 8, 9])
    [.ask (61/10) (some (61/10)), .ask 7 (some 7), .ask 8 (some 8)] = true := by decide +kernel
/-- `test_reset_start` -/
example : run (Sma.smaY (.period 3) 10) (smaOver [1, 2, 3, 4, 5, 6, 7, 8])
    [.ask 6 (some 6), .count 5, .ask 3 (some 3), .count 4, .ask 6 (some 6), .count 7] = true := by decide +kernel
example : smaSamples (.period 20) (smaOver [1, 2, 3, 4] 0 10) = sampledAs [(10, 3/2), (20, 5/2), (30, 7/2)] := by decide +kernel
example : run (Sma.smaY (.period (2 * 86400)) 10) (smaOver [1, 2, 3, 4] 0 86400)
    [.ask 0 none, .ask 86400 (some (3/2)), .ask (2 * 86400) (some (5/2)), .ask (3 * 86400) (some (7/2))] = true := by decide +kernel
/-- `test_update_sma` -/
example : run (Sma.smaY (.degree 2) 10) (smaOver [1, 2, 3, 4, 5])
    [.ask 4 (some (9/2)), .ask 5 none, .count 3, .edit (.append (5, some 6)), .ask 5 (some (11/2)), .count 4] = true := by
  decide +kernel
/-- `test_replace` -/
example : run (Sma.smaY (.degree 2) 10) (smaOver [1, 2, 3, 4])
    [.ask 3 (some (7/2)), .edit (.replace (3, some 5) false), .ask 3 (some 4)] = true := by decide +kernel
example : smaSamples (.degree 2) ((smaOver []).edit (.appendList (pointGen [1, 2, 3, 4] 10)) quiet).1
    = sampledAs [(11, 3/2), (12, 5/2), (13, 7/2)] := by decide +kernel

/-! ### `test/integral_test.py`, of points -/

def area (mode : Interp) : Accum → Ext → Option (Accum.Out (Option ℚ)) := Accum.integralQuery mode 0
def under (ps : List (Pt ℚ)) (uniform : Bool := true) : Accum := Accum.new (made ps .linear uniform) eps .linear uniform

example : run (area .linear) (under (at_ [(0, 1), (1, 1), (2, 1)]))
    [.ask (-1/10) none, .ask 0 (some 0), .ask (1/2) (some (1/2)), .ask 1 (some 1), .ask (3/2) (some (3/2)), .ask 2 (some 2)]
    = true := by decide +kernel
example : (under (at_ [(0, 1), (1, 1), (2, 1)])).domVal = Iv.closed 0 2 := by decide +kernel
example : run (area .linear) (under (at_ [(0, 2), (1, 2), (3, 2)]) false)
    [.ask (-1/10) none, .ask 0 (some 0), .ask (1/2) (some 1), .ask 1 (some 2), .ask (3/2) (some 3), .ask 2 (some 4),
     .ask (5/2) (some 5), .ask 3 (some 6)] = true := by decide +kernel
example : run (area .linear) (under (at_ [(1, 1), (2, 1), (3, 1)]))
    [.ask (9/10) none, .ask 1 (some 0), .ask (3/2) (some (1/2)), .ask 2 (some 1), .ask (5/2) (some (3/2)), .ask 3 (some 2)]
    = true := by decide +kernel
example : run (area .previous) (under (at_ [(0, 2), (1, 4), (2, 6)]))
    [.ask (-1/10) none, .ask 0 (some 0), .ask (1/2) (some 1), .ask 1 (some 2), .ask (3/2) (some 4), .ask 2 (some 6)]
    = true := by decide +kernel
example : run (area .next) (under (at_ [(0, 2), (1, 4), (2, 6)]))
    [.ask (-1/10) none, .ask 0 (some 0), .ask (1/2) (some 2), .ask 1 (some 4), .ask (3/2) (some 7), .ask 2 (some 10)]
    = true := by decide +kernel
example : run (area .linear) (under (pointGen [1, 1])) [.ask 1 (some 1)] = true := by decide +kernel
example : run (area .linear) (under [(0, none), (1, some 1), (2, some 2)])
    [.ask (-1/10) none, .ask 0 none, .ask (1/2) none, .ask 1 (some 0), .ask 2 (some (3/2))] = true := by decide +kernel
example : run (area .linear) (under (pointGen [1, 1, 1]))
    [.ask 2 (some 2), .edit (.set (at_ [(0, 2), (1, 2), (2, 2)])), .ask 2 (some 4)] = true := by decide +kernel

/-! ### `test/extremas_test.py` -/

/-- Runs a test on extremas. -/
def runE : Extr → List Do → Bool
  | _, [] => true
  | A, .ask x v :: l =>
    match A.query (.fin x) with
    | none => false
    | some (B, r) => decide (r = .ok v) && runE B l
  | A, .count n :: l => decide (A.extremas.length = n) && runE A l
  | A, .edit op :: l =>
    match A.edit op quiet with
    | (_, some _) => false
    | (B, none) => runE B l

def turning (vs : List ℚ) (r : ℚ := 2) : Extr := Extr.new (made (pointGen vs)) (fun _ => some r) 0 1

/-- The extremas sampled. -/
def turns (A : Extr) : Option (Except Err (List (Pt ℚ))) := (A.samplePoints none eps none 20).map (·.2)

example : turns (turning [1, 3, 1, 3]) = some (.ok (at_ [(0, 1), (1, 3), (2, 1)])) := by decide +kernel
example : runE (turning [1, 3, 1, 3]) [.ask (1/2) (some 2), .ask 2 (some 1), .ask (21/10) none] = true := by decide +kernel
example : turns (turning [1, 11/10, 29/10, 3, 1, 11/10, 3]) = some (.ok (at_ [(0, 1), (3, 3), (4, 1)])) := by decide +kernel
example : runE (turning [1, 11/10, 29/10, 3, 1, 11/10, 3])
    [.ask 0 (some 1), .ask 3 (some 3), .ask (7/2) (some 2), .ask (41/10) none] = true := by decide +kernel
/-- `test_update_func` -/
example : runE (turning [1, 3, 1])
    [.ask 0 (some 1), .ask 1 (some 3), .ask 2 none, .edit (.append (3, some 3)), .ask 2 (some 1), .ask 3 none,
     .edit (.append (4, some 1)), .ask 3 (some 3)] = true := by decide +kernel
example : turns (turning [1, 3, 3/2, 7/2, 1]) = some (.ok (at_ [(0, 1), (1, 3), (2, 3/2), (3, 7/2)])) := by decide +kernel
example : turns (turning [1, 3, 3/2, 7/2, 1] (5/4)) = some (.ok (at_ [(0, 1), (3, 7/2)])) := by decide +kernel

end Curvepy.Conformance
