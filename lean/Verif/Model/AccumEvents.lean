import Verif.Model.Accumulator

/-!
# What an accumulator tells its own observers

`Scan.begin_scan_update`, `Scan.end_scan_update` (`scan.py:98-114`) and `Accumulator.begin_update`
(`accumulator.py:36-38`) pass an edit of the source on.  `Model/Accumulator` has the effect on the state; here is what
is passed on.
-/

namespace Curvepy
namespace Accum

/-- A notification of the observers of an accumulator (`curve.py:433-466`). -/
inductive Passed where
  | begin (d : Iv)
  | fin (d : Iv)
deriving DecidableEq, Repr

/-- Its interval. -/
def Passed.iv : Passed → Iv
  | .begin d => d
  | .fin d => d

/-- What one notification of the source leads to. -/
def passed (A : Accum) : Pts.Ev ℚ → List Passed
  | .begin d _ => (A.onBegin d).2.1.map .begin
  | .fin d _ => (A.onEnd d).2.map .fin

/-- What the notifications of one edit lead to, as in `notifyAll`. -/
def passedAll (A : Accum) : List (Pts.Ev ℚ) → List Passed
  | [] => []
  | e :: es =>
    match (A.notify e).2 with
    | some _ => A.passed e
    | none => A.passed e ++ (A.notify e).1.passedAll es

/-- What an edit of the source leads to, as in `edit`. -/
def editPassed (A : Accum) (op : Spec.Op ℚ) (r : Pts.Reads) : List Passed :=
  { A with src := (op.run A.src r).st }.passedAll (op.run A.src r).ev

end Accum
end Curvepy
