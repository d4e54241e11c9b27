import Verif.Model.TangentRegression

namespace Curvepy
namespace Spec

/-- The position after `n` steps. -/
def nth (next : Ext → Except Err (Option Ext)) : ℕ → Ext → Option Ext
  | 0, x => some x
  | n + 1, x => match next x with
    | .ok (some y) => nth next n y
    | _ => none

/-- From the start over the next `n` positions, or a period. -/
def firstWindow (c : Crv) (step : ℚ) (x : Ext) : Extn.Window → Option Iv
  | .degree n => (nth (fun x => c.xNext x (some (.fin step)) none) n x).map fun z => ⟨x, z, false, false⟩
  | .period p => some ⟨x, x.addQ p, false, false⟩

/-- Over the last positions, or a period, up to the end. -/
def lastWindow (c : Crv) (step : ℚ) (x : Ext) : Extn.Window → Option Iv
  | .degree n => (nth (fun x => c.xPrevious x (some (.fin step)) none) n x).map fun z => ⟨z, x, false, false⟩
  | .period p => some ⟨x.addQ (-p), x, false, false⟩

/-- The values of the line fitted on a window, if there are both. -/
def fitted (reg : Crv → Iv → Except Err (Option LineData)) (c : Crv) (d : Option Iv) : Option (Ext → Option Num) :=
  d.bind fun d => match reg c d with
    | .ok (some l) => some fun t => some (Line.y l (.ofExt t))
    | _ => none

/-- The window exists, fitting does not raise, and the line is not vertical. -/
def CanFit (reg : Crv → Iv → Except Err (Option LineData)) (c : Crv) (d : Option Iv) : Prop :=
  ∃ w r, d = some w ∧ reg c w = .ok r ∧ ∀ l, r = some l → ∃ q, l.slope = .fin q

end Spec
end Curvepy
