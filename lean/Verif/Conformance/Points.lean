import Verif.Model.Points
import Verif.Model.PointsSampling
/-!
The assertions of `test/points_test.py`, run on the model of `points.py`.

These are tests, not proofs of properties: the repository cannot be run here, so its own tests
are what is known of how it runs.  Each of them is evaluated by the kernel on the definitions
the theorems are about.  `np.allclose` and `approx` become equality.
-/
set_option autoImplicit false
namespace Curvepy.Conformance
open Ext

/-- `test_util.point_gen` (`test/test_util.py:9-14`). -/
def pointGen (vs : List ℚ) (start : ℚ := 0) (step : ℚ := 1) : List (Pt ℚ) :=
  vs.zipIdx.map fun (v, i) => (start + i * step, some v)

/-- Points with values. -/
def at_ (ps : List (ℚ × ℚ)) : List (Pt ℚ) := ps.map fun p => (p.1, some p.2)

/-- A callback reading the domain, or none. -/
def quiet : Pts.Reads := ⟨false, false⟩

/-- `Points(points, interpolation, uniform)`, nothing when refused. -/
def made (ps : List (Pt ℚ)) (i : Interp := .linear) (uniform : Bool := true) : Pts ℚ :=
  match Pts.new ps i uniform with
  | .ok s => s
  | .error _ => Pts.blank .next false

/-- Was the object made, i.e. nothing raised? -/
def isMade (ps : List (Pt ℚ)) (i : Interp := .linear) (uniform : Bool := true) : Bool :=
  match Pts.new ps i uniform with
  | .ok _ => true
  | .error _ => false

/-- Intervals of the end notifications. -/
def ended (r : Pts.Res ℚ) : List Iv :=
  r.ev.filterMap fun e => match e with
    | .begin _ _ => none
    | .fin iv _ => some iv

/-- Intervals of the begin notifications. -/
def begun (r : Pts.Res ℚ) : List Iv :=
  r.ev.filterMap fun e => match e with
    | .begin iv _ => some iv
    | .fin _ _ => none

/-- Does reading values at these positions give these values? -/
def reads (s : Pts ℚ) (l : List (ℚ × Option ℚ)) : Bool :=
  l.all fun p => decide (s.y (.fin p.1) = .ok p.2)

/-- Do steps from these positions with these least steps lead here? -/
def steps (f : Ext → Option ℚ → Except Err (Option Ext)) (l : List (ℚ × Option ℚ × Option ℚ)) :
    Bool :=
  l.all fun p => decide (f (.fin p.1) p.2.1 = .ok (p.2.2.map .fin))

/-! ### `test_step` (`points_test.py:9-31`) -/

def stepping : Pts ℚ := made (pointGen [1, 2, 3] 1)

example : isMade (pointGen [1, 2, 3] 1) = true := by decide +kernel
example : steps stepping.xNext
    [(-1, some (1/100000), some 1), (9/10, some (1/100000), some 1),
     (1, some (1/100000), some 2), (1, some 1, some 2), (1, some (3/2), some 3),
     (2, some (1/100000), some 3), (2, some 1, some 3), (2, some (3/2), none),
     (4, some (3/2), none)] = true := by decide +kernel
example : steps stepping.xPrevious
    [(5, some (1/100000), some 3), (41/10, some (1/100000), some 3),
     (4, some (1/100000), some 3), (4, some 1, some 3), (4, some (3/2), some 2),
     (2, some (1/100000), some 1), (2, some 1, some 1), (2, some (3/2), none),
     (0, some (3/2), none)] = true := by decide +kernel

/-! ### Interpolation (`points_test.py:34-65`) -/

example : stepping.domVal = Iv.closed 1 3 := by decide +kernel
example : reads stepping
    [(1, some 1), (3/2, some (3/2)), (2, some 2), (3, some 3), (31/10, none), (9/10, none)] = true := by
  decide +kernel
example : reads (made (pointGen [1, 2, 3] 1) .previous)
    [(1, some 1), (3/2, some 1), (3, some 3), (31/10, none), (9/10, none)] = true := by decide +kernel
example : reads (made (pointGen [1, 2, 3] 1) .next)
    [(1, some 1), (3/2, some 2), (3, some 3), (31/10, none), (9/10, none)] = true := by decide +kernel

/-! ### `test_sample` (`points_test.py:68-81`) -/

example : stepping.samplePoints (some (Iv.closed 1 3)) (some (1/100000)) none 10
    = some (.ok (at_ [(1, 1), (2, 2), (3, 3)])) := by decide +kernel
example : stepping.samplePoints (some (Iv.closed 1 3)) (some 1) none 10
    = some (.ok (at_ [(1, 1), (2, 2), (3, 3)])) := by decide +kernel
example : stepping.samplePoints (some (Iv.closed 1 3)) (some (3/2)) none 10
    = some (.ok (at_ [(1, 1), (3, 3)])) := by decide +kernel
example : stepping.samplePoints (some (Iv.closed 1 3)) none (some (1/2)) 10
    = some (.ok (at_ [(1, 1), (3/2, 3/2), (2, 2), (5/2, 5/2), (3, 3)])) := by decide +kernel
example : stepping.samplePoints (some (Iv.closed 1 2)) none (some 1) 10
    = some (.ok (at_ [(1, 1), (2, 2)])) := by decide +kernel
example : stepping.samplePoints none none (some 1) 10
    = some (.ok (at_ [(1, 1), (2, 2), (3, 3)])) := by decide +kernel

/-! ### `test_missing_points` (`points_test.py:84-101`) -/

def thirty : List ℚ :=
  [1, 2, 3, 1, 2, 3, 1, 2, 3, 1, 2, 3, 1, 2, 3, 1, 2, 3, 1, 2, 3, 1, 2, 3, 1, 2, 3, 1, 2, 3]

example : isMade ((pointGen thirty).eraseIdx 8) .linear true = false := by decide +kernel
example : isMade (pointGen thirty) .linear true = true := by decide +kernel
example : (made ((pointGen [1, 3, 3, 4]).eraseIdx 1) .linear false).isUniform = false := by decide +kernel
example : reads (made ((pointGen [1, 3, 3, 4]).eraseIdx 1) .linear false)
    [(0, some 1), (1/2, some (3/2)), (1, some 2), (3/2, some (5/2)), (2, some 3), (5/2, some (7/2)),
     (3, some 4)] = true := by decide +kernel

/-! ### `test_update`, `test_update_from_empty` (`points_test.py:104-131`) -/

def twoPoints (uniform : Bool := true) : Pts ℚ := made (at_ [(0, 1), (1, 2)]) .linear uniform
def emptyPoints : Pts ℚ := made []
def plus (s : Pts ℚ) (x y : ℚ) : Pts ℚ := (s.append (x, some y) quiet).st

example : twoPoints.isUpdating = false ∧ reads twoPoints [(2, none)] = true := by decide +kernel
example : (twoPoints.append (2, some 3) quiet).err = none ∧ (plus twoPoints 2 3).isUpdating = false ∧
    reads (plus twoPoints 2 3) [(2, some 3)] = true := by decide +kernel
example : isMade [] = true ∧ reads emptyPoints [(0, none)] = true := by decide +kernel
example : (plus emptyPoints 0 1).isUpdating = false ∧ reads (plus emptyPoints 0 1) [(0, some 1)] = true := by
  decide +kernel
example : (plus (plus emptyPoints 0 1) 1 2).isUpdating = false ∧
    reads (plus (plus emptyPoints 0 1) 1 2) [(1, some 2)] = true := by decide +kernel
example : (plus (plus (plus emptyPoints 0 1) 1 2) 2 3).isUpdating = false ∧
    reads (plus (plus (plus emptyPoints 0 1) 1 2) 2 3) [(2, some 3)] = true := by decide +kernel

/-! ### `test_update_equally_spaced_with_non_equally_spaced` (`points_test.py:134-146`) -/

example : (twoPoints false).isUniform = true ∧ (plus (twoPoints false) 3 4).isUniform = false := by decide +kernel
example : reads (plus (twoPoints false) 3 4) [(0, some 1), (1, some 2), (2, some 3), (3, some 4)] = true := by
  decide +kernel
example : (plus (twoPoints false) 3 4).samplePoints none none none 10
    = some (.ok (at_ [(0, 1), (1, 2), (3, 4)])) := by decide +kernel
example : (plus (twoPoints false) 3 4).samplePoints none none (some 1) 10
    = some (.ok (at_ [(0, 1), (1, 2), (2, 3), (3, 4)])) := by decide +kernel

/-! ### `test_replace` (`points_test.py:149-171`) -/

example : reads (twoPoints false) [(1, some 2), (1/2, some (3/2)), (2, none)] = true := by decide +kernel
example : ((twoPoints false).replace (1, some 3) false quiet).err = none ∧
    reads ((twoPoints false).replace (1, some 3) false quiet).st [(1, some 3)] = true := by decide +kernel
example : ((twoPoints false).replace (1/2, some 3) false quiet).err = none ∧
    reads ((twoPoints false).replace (1/2, some 3) false quiet).st [(1/2, some 3)] = true := by decide +kernel
example : ((twoPoints true).replace (1/2, some 3) false quiet).err ≠ none := by decide +kernel
example : ((twoPoints false).replace (2, some 3) false quiet).err ≠ none := by decide +kernel
example :
    let s := ((twoPoints false).replace (2, some 3) false quiet).st
    (s.replace (2, some 3) true quiet).err = none ∧
      reads (s.replace (2, some 3) true quiet).st [(2, some 3)] = true := by decide +kernel

/-! ### `test_reset` (`points_test.py:174-219`) -/

def threePoints (uniform : Bool) : Pts ℚ := made (at_ [(0, 1), (1, 2), (2, 3)]) .linear uniform

example : ((threePoints false).reset none quiet).st.domVal.isEmpty = true := by decide +kernel
example : reads (threePoints false) [(0, some 1), (1, some 2), (2, some 3)] = true := by decide +kernel
example :
    let r := (threePoints false).reset (some (Iv.closed 2 2)) quiet
    r.err = none ∧ reads r.st [(1, some 2), (2, none)] = true ∧ ended r = [Iv.openClosed 1 2] := by
  decide +kernel
example :
    let r := (threePoints false).reset (some (Iv.closed 1 1)) quiet
    r.err = none ∧ reads r.st [(0, some 1), (1, some 2), (2, some 3)] = true ∧
      ended r = [Iv.opened 0 2] := by decide +kernel
example : ((threePoints true).reset (some (Iv.closed 1 1)) quiet).err ≠ none := by decide +kernel

/-! ### `test_reset_closed_interval`, `test_reset_open_interval` (`points_test.py:222-238`) -/

example :
    let s := made (at_ [(0, 1), (1, 5), (2, 3), (3, 4)]) .linear false
    reads s [(1, some 5)] = true ∧
      reads (s.reset (some (Iv.closed 1 2)) quiet).st [(1, some 2)] = true := by decide +kernel
example :
    let s := made (at_ [(0, 1), (1, 5), (2, 3)]) .linear false
    reads s [(1, some 5)] = true ∧
      reads (s.reset (some (Iv.opened 0 2)) quiet).st [(0, some 1), (1, some 2), (2, some 3)] = true := by
  decide +kernel

/-! ### `test_interval_indexes` (`points_test.py:241-285`) -/

def fourPoints : Pts ℚ := made (at_ [(0, 0), (1, 1), (2, 2), (3, 3)])

/-- Nothing lies between the indexes. -/
def between (d : Iv) : Except Err Bool := do
  let (i0, i1) ← fourPoints.domainIndexes d
  pure (decide (i0 = i1))

example : ∀ d ∈ [Iv.closed (-2) (-1), Iv.opened (-2) 0, Iv.opened 0 1, Iv.opened 2 3, Iv.opened 3 3,
    Iv.opened 3 4], between d = .ok true := by decide +kernel
example : fourPoints.domainIndexes (Iv.closed (-2) 0) = .ok (0, 1) := by decide +kernel
example : fourPoints.domainIndexes (Iv.closed 0 0) = .ok (0, 1) := by decide +kernel
example : fourPoints.domainIndexes (Iv.closed 0 1) = .ok (0, 2) := by decide +kernel
example : fourPoints.domainIndexes (Iv.closed 2 3) = .ok (2, 4) := by decide +kernel
example : fourPoints.domainIndexes (Iv.opened 2 3) = .ok (3, 3) := by decide +kernel
example : fourPoints.domainIndexes (Iv.closed 3 3) = .ok (3, 4) := by decide +kernel
example : fourPoints.domainIndexes (Iv.closed 3 4) = .ok (3, 4) := by decide +kernel

end Curvepy.Conformance
