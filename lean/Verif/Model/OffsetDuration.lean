import Verif.Model.Curve

/-!
# `curvepy/offset.py` with a duration

`pyduration.Duration` is a third party dependency whose source is not in /repo.  What is below is its assumed contract:
a duration divides the axis into consecutive periods, which need not have the same length (`test/offset_test.py:195-218`).
Its methods at an infinite position are not modelled (`overflow`).
-/

namespace Curvepy

/-- A duration: where its periods begin, and the number of the period of a position. -/
structure Dur where
  start : ℤ → ℚ
  period : ℚ → ℤ
  mono : StrictMono start
  start_le : ∀ q, start (period q) ≤ q
  lt_next : ∀ q, q < start (period q + 1)

namespace Dur

/-- The first boundary from `q` on. -/
def above (D : Dur) (q : ℚ) : ℤ := if D.start (D.period q) = q then D.period q else D.period q + 1

/-- `Duration.floor`. -/
def floor (D : Dur) (q : ℚ) : ℚ := D.start (D.period q)
/-- `Duration.ceil`. -/
def ceil (D : Dur) (q : ℚ) : ℚ := D.start (D.above q)
/-- `Duration.step(q, count)` of a boundary. -/
def step (D : Dur) (q : ℚ) (n : ℤ) : ℚ := D.start (D.period q + n)
/-- `Duration.next`. -/
def next (D : Dur) (q : ℚ) : ℚ := D.start (D.period q + 1)
/-- `Duration.previous`. -/
def previous (D : Dur) (q : ℚ) : ℚ := D.start (D.above q - 1)

/-- `_res_step` (`offset.py:108-115`). -/
def resStep (D : Dur) (x : ℚ) (n : ℤ) (floor : Bool) : ℚ :=
  if n = 0 then x else D.step (if floor then D.floor x else D.ceil x) n

/-- `_offset_x` with `n`, `_unoffset_x` with `-n` (`offset.py:92-106`). -/
def shift (D : Dur) (n : ℤ) (floor : Bool) : Ext → Ext
  | .fin q => .fin (D.resStep q n floor)
  | x => x

/-- `_offset_interval` (`offset.py:117-127`) with its default `floor=False`; bounds are never `None`. -/
def shiftInterval (D : Dur) (n : ℤ) (d : Iv) : Iv :=
  ⟨D.shift n false d.lo, D.shift n false d.hi, d.loOpen, d.hiOpen⟩

/-- `_interpolated_func` (`offset.py:43-60`); `f` is a method of the curve. -/
def interpolated (D : Dur) (dom : Iv) (n : ℤ) (f : Ext → Except Err (Option Num)) (x : Ext) : Except Err (Option Num) := do
  let x0 := D.shift (-n) true x
  let x1 := D.shift (-n) false x
  if !dom.contains x0 || !dom.contains x1 then pure none
  else if x0 = x1 then f x0
  else do
    let y0 ← f x0
    let y1 ← f x1
    match y0, y1, x, D.shift n true x0, D.shift n false x1 with
    | some y0, some y1, .fin q, .fin a, .fin b => do
      if b - a = 0 then throw .zeroDiv
      let u := (q - a) / (b - a)
      pure (some ((y0.mul (.fin (1 - u))).add (y1.mul (.fin u))))
    | _, _, _, _, _ => pure none

/-- `duration.next(x)`, `duration.previous(x)`. -/
def finite (f : ℚ → ℚ) : Ext → Except Err Ext
  | .fin q => .ok (.fin (f q))
  | _ => .error .overflow

end Dur

namespace Crv

/-- `Offset(func, n, duration)` (`offset.py:8-106`). -/
def offsetBy (c : Crv) (D : Dur) (n : ℤ) : Crv where
  dom := D.shiftInterval n c.dom
  minStep := none
  y := D.interpolated c.dom n c.y
  xNext x _ _ := do
    let x1 ← Dur.finite D.next (D.shift (-n) true x)
    if !c.dom.contains x1 then pure none else pure (some (D.shift n true x1))
  xPrevious x _ _ := do
    let x1 ← Dur.finite D.previous (D.shift (-n) false x)
    if !c.dom.contains x1 then pure none else pure (some (D.shift n false x1))

/-- `Offset.d_y` (`offset.py:40-41`). -/
def offsetDY (c : Crv) (D : Dur) (n : ℤ) (x : Ext) (forward : Bool := false) (m : Option Ext := some MIN_STEP)
    (l : Option Ext := none) : Except Err (Option Num) :=
  D.interpolated c.dom n (fun z => c.dY z forward m l) x

end Crv
end Curvepy
