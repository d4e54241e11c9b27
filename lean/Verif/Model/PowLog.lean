import Mathlib.Analysis.SpecialFunctions.Pow.Real
import Verif.Model.Py

/-!
# Powers and logarithms of curves (`curve.py:489-499`, `805-839`, `1087-1103`)

Curves with real values between updates.  Numbers are exact; infinite and undefined numbers are left out.  A power of a
negative number can be complex in Python, so values are real or complex numbers.
-/

namespace Curvepy
namespace PowLog
open Classical

/-- A number: `float` (or `int`), `complex`. -/
inductive Val where
  | re (r : ℝ)
  | cx (z : ℂ)

/-- As a complex number. -/
noncomputable def Val.toC : Val → ℂ
  | .re r => r
  | .cx z => z

/-- `a ** b` of Python numbers. -/
noncomputable def pow : Val → Val → Except Err Val
  | .re a, .re b =>
    if a = 0 ∧ b < 0 then .error .zeroDiv
    else if a < 0 ∧ ¬ ∃ n : ℤ, b = n then .ok (.cx ((a : ℂ) ^ (b : ℂ)))
    else .ok (.re (a ^ b))
  | a, b =>
    if a.toC = 0 ∧ (b.toC.im ≠ 0 ∨ b.toC.re < 0) then .error .zeroDiv
    else .ok (.cx (a.toC ^ b.toC))

/-- `math.log(a, b)`. -/
noncomputable def log : Val → Val → Except Err Val
  | .re a, .re b =>
    if a ≤ 0 then .error .value
    else if b ≤ 0 then .error .value
    else if b = 1 then .error .zeroDiv
    else .ok (.re (Real.log a / Real.log b))
  | _, _ => .error .type

/-- `a + b`. -/
noncomputable def add : Val → Val → Val
  | .re a, .re b => .re (a + b)
  | a, b => .cx (a.toC + b.toC)

/-- `a * b`. -/
noncomputable def mul : Val → Val → Val
  | .re a, .re b => .re (a * b)
  | a, b => .cx (a.toC * b.toC)

/-- A curve: where it is defined, and the outcome of `y`. -/
structure Cur where
  dom : Set ℝ
  y : ℝ → Except Err (Option Val)

/-- `Constant(r)` (`constant.py:5-50`), as `Curve.parse` makes it of a number. -/
noncomputable def number (r : ℝ) : Cur := ⟨Set.univ, fun _ => .ok (some (.re r))⟩

/-- `Aggregate.y` (`aggregate.py:33-42`), as in `Model/Curve`. -/
noncomputable def aggregate (fs : List Cur) (tfm : List (Option Val) → Except Err (Option Val)) : Cur where
  dom := {x | ∀ f ∈ fs, x ∈ f.dom}
  y x := if ∀ f ∈ fs, x ∈ f.dom then
      match fs.mapM fun f => f.y x with
      | .error e => .error e
      | .ok vs => tfm vs
    else .ok none

/-- `log_f` of `pow_many` (`curve.py:811-820`); the result is `none` before the first value. -/
noncomputable def powF : List (Option Val) → Option Val → Except Err (Option Val)
  | [], r => .ok (some (r.getD (.re 0)))
  | none :: _, _ => .ok none
  | some y :: ys, none => powF ys (some y)
  | some y :: ys, some r =>
    match pow r y with
    | .error e => .error e
    | .ok v => powF ys (some v)

/-- `log_f` of `log_many` (`curve.py:829-838`). -/
noncomputable def logF : List (Option Val) → Option Val → Except Err (Option Val)
  | [], r => .ok (some (r.getD (.re 0)))
  | none :: _, _ => .ok none
  | some y :: ys, none => logF ys (some y)
  | some y :: ys, some r =>
    match log r y with
    | .error e => .error e
    | .ok v => logF ys (some v)

/-- `add_f` (`curve.py:745-749`). -/
noncomputable def addF : List (Option Val) → Val → Option Val
  | [], r => some r
  | none :: _, _ => none
  | some y :: ys, r => addF ys (add r y)

/-- `mult_f` (`curve.py:776-782`). -/
noncomputable def multF : List (Option Val) → Val → Option Val
  | [], r => some r
  | none :: _, _ => none
  | some y :: ys, r => multF ys (mul r y)

/-- `Curve.pow_many` (`curve.py:805-821`). -/
noncomputable def powMany (fs : List Cur) : Cur := aggregate fs fun ys => powF ys none
/-- `Curve.log_many` (`curve.py:823-839`). -/
noncomputable def logMany (fs : List Cur) : Cur := aggregate fs fun ys => logF ys none
/-- `Curve.add_many` (`curve.py:739-750`). -/
noncomputable def addMany (fs : List Cur) : Cur := aggregate fs fun ys => .ok (addF ys (.re 0))
/-- `Curve.multiply_many` (`curve.py:770-783`). -/
noncomputable def multiplyMany (fs : List Cur) : Cur := aggregate fs fun ys => .ok (multF ys (.re 1))

namespace Cur

/-- `c.pow(p)`, `c ** p` (`curve.py:489-490`, `1087-1088`). -/
noncomputable def pow (c p : Cur) : Cur := powMany [c, p]
/-- `c.raised(b)`, `b ** c` (`curve.py:492-493`, `1102-1103`). -/
noncomputable def raised (c b : Cur) : Cur := powMany [b, c]
/-- `c.log(b)` (`curve.py:495-496`). -/
noncomputable def log (c : Cur) (b : Cur := number (Real.exp 1)) : Cur := logMany [c, b]

end Cur
end PowLog
end Curvepy
