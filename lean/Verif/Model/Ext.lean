import Mathlib.Data.Rat.Floor
import Mathlib.Order.WithBot
import Mathlib.Order.BoundedOrder.Basic
import Mathlib.Tactic.Linarith

/-!
# Extended rationals

Positions on the x axis.  A finite Python `float`/`int` is a rational number; `math.inf`
and `-math.inf` are the two extra points.  `nan` is not modelled.  Arithmetic is exact
(IEEE rounding is not modelled) - see DESIGN.md, trusted base.
-/

namespace Curvepy

/-- A position: `-inf`, a finite number, or `inf` (the values `Interval.start`,
`Interval.end` and `x` range over; `curve.py:119`, `constant.py:27`). -/
inductive Ext where
  | ninf : Ext
  | fin (q : ℚ) : Ext
  | pinf : Ext
deriving DecidableEq, Repr

namespace Ext

/-- Order on extended rationals, as Python compares floats (no `nan`). -/
def le : Ext → Ext → Bool
  | ninf, _ => true
  | _, pinf => true
  | fin a, fin b => decide (a ≤ b)
  | _, _ => false

instance : LE Ext := ⟨fun a b => le a b = true⟩
instance : LT Ext := ⟨fun a b => le b a = false⟩

instance decLe (a b : Ext) : Decidable (a ≤ b) := inferInstanceAs (Decidable (le a b = true))
instance decLt (a b : Ext) : Decidable (a < b) := inferInstanceAs (Decidable (le b a = false))

theorem le_def (a b : Ext) : a ≤ b ↔ le a b = true := Iff.rfl
theorem lt_def (a b : Ext) : a < b ↔ le b a = false := Iff.rfl

@[simp] theorem fin_le_fin (a b : ℚ) : fin a ≤ fin b ↔ a ≤ b := by simp [le_def, le]
@[simp] theorem ninf_le (a : Ext) : ninf ≤ a := by simp [le_def, le]
@[simp] theorem le_pinf (a : Ext) : a ≤ pinf := by cases a <;> simp [le_def, le]
@[simp] theorem fin_lt_fin (a b : ℚ) : fin a < fin b ↔ a < b := by simp [lt_def, le]
@[simp] theorem not_fin_le_ninf (a : ℚ) : ¬ fin a ≤ ninf := by simp [le_def, le]
@[simp] theorem not_pinf_le_fin (a : ℚ) : ¬ pinf ≤ fin a := by simp [le_def, le]
@[simp] theorem not_pinf_le_ninf : ¬ pinf ≤ ninf := by simp [le_def, le]
@[simp] theorem not_lt_ninf (a : Ext) : ¬ a < ninf := by cases a <;> simp [lt_def, le]
@[simp] theorem not_pinf_lt (a : Ext) : ¬ pinf < a := by cases a <;> simp [lt_def, le]
@[simp] theorem ninf_lt_fin (a : ℚ) : ninf < fin a := by simp [lt_def, le]
@[simp] theorem fin_lt_pinf (a : ℚ) : fin a < pinf := by simp [lt_def, le]
@[simp] theorem ninf_lt_pinf : ninf < pinf := by simp [lt_def, le]

instance : LinearOrder Ext where
  le_refl a := by cases a <;> simp
  le_trans a b c := by
    cases a <;> cases b <;> cases c <;> simp
    exact fun h1 h2 => le_trans h1 h2
  lt_iff_le_not_ge a b := by
    cases a <;> cases b <;> simp
    intro h; exact h.le
  le_antisymm a b := by
    cases a <;> cases b <;> simp
    exact fun h1 h2 => le_antisymm h1 h2
  le_total a b := by
    cases a <;> cases b <;> simp
    exact le_total _ _
  toDecidableLE := fun a b => decLe a b
  toDecidableLT := fun a b => decLt a b
  toDecidableEq := inferInstance

instance : DenselyOrdered Ext := ⟨by
  intro a b h
  cases a with
  | ninf => cases b with
    | ninf => simp at h
    | fin q => exact ⟨fin (q - 1), by simp, by simp⟩
    | pinf => exact ⟨fin 0, by simp, by simp⟩
  | fin p => cases b with
    | ninf => simp at h
    | fin q =>
      simp at h
      exact ⟨fin ((p + q) / 2), by simp; linarith, by simp; linarith⟩
    | pinf => exact ⟨fin (p + 1), by simp, by simp⟩
  | pinf => simp at h⟩

/-- Python `x + c` for a finite `c` (`inf + c = inf`). -/
def addQ : Ext → ℚ → Ext
  | ninf, _ => ninf
  | fin a, c => fin (a + c)
  | pinf, _ => pinf

@[simp] theorem addQ_fin (a c : ℚ) : addQ (fin a) c = fin (a + c) := rfl

/-- `math.isinf`. -/
def isInf : Ext → Bool
  | fin _ => false
  | _ => true

end Ext
end Curvepy
