import Verif.Model.RoundedCurve
import Verif.Spec.RoundedCurve
import Verif.Props.RoundedLine
import Verif.Props.Combinators

/-!
# Property C156: offset curves with rounded arithmetic
-/

namespace Curvepy
namespace Props
open Spec Crv

variable {fl : ℚ → ℚ} {u : ℚ}

theorem rounded_id (x : Ext) : x.rounded id = x := by cases x <;> rfl

/-- C156: without rounding it is the offset of `Model/Curve`. -/
theorem C156_exact (c : Crv) (k : ℚ) : c.offsetR id k = c.offset k := by
  simp only [offsetR, offset, offsetIntervalR, offsetInterval, rounded_id]
  rfl

/-- The value of an offset curve. -/
theorem offsetR_y (c : Crv) (k x : ℚ) :
    (c.offsetR fl k).y (.fin x) = if c.dom.contains (.fin (fl (x - k))) then c.y (.fin (fl (x - k))) else .ok none := by
  simp only [offsetR, Ext.addQ, Ext.rounded, ← sub_eq_add_neg]
  cases c.dom.contains (.fin (fl (x - k))) <;> rfl

/-- C156: the derivatives of an offset curve are the curve's where its values are. -/
theorem C156_derivative (c : Crv) (k x : ℚ) (forward : Bool) (m limit : Option Ext) :
    c.offsetDYR fl k (.fin x) forward m limit
      = if c.dom.contains (.fin (fl (x - k))) then c.dYR fl (.fin (fl (x - k))) forward m limit else .ok none := by
  simp only [offsetDYR, Ext.addQ, Ext.rounded, ← sub_eq_add_neg]
  cases c.dom.contains (.fin (fl (x - k))) <;> rfl

/-- C156: a position that moves without rounding takes its value with it. -/
theorem C156_moved {c : Crv} {k x : ℚ} (hx : Machine fl x) (hd : c.dom.contains (.fin x) = true) :
    (c.offsetR fl k).y (.fin (x + k)) = c.y (.fin x) := by
  rw [offsetR_y, add_sub_cancel_right, show fl x = x from hx, if_pos hd]

/-- C156: the curve is read near the position where it should be. -/
theorem C156_position (R : Rounding fl u) (x k : ℚ) : |fl (fl (x + k) - k) - x| ≤ u * |x| + u * (1 + u) * |x + k| := by
  have h : |(fl (x + k) - k) - x| ≤ u * |x + k| := by
    rw [show fl (x + k) - k - x = fl (x + k) - (x + k) by ring]
    exact R.err _
  have := R.product h
  linarith

/-- C156: the value that a curve of limited steepness has after it moved. -/
theorem C156_value (R : Rounding fl u) {c : Crv} {f : ℚ → ℚ} {L k x v : ℚ} (hc : Gives c f) (hf : Steep f L) (hL : 0 ≤ L)
    (hv : (c.offsetR fl k).y (.fin (fl (x + k))) = .ok (some (.fin v))) :
    |v - f x| ≤ L * (u * |x| + u * (1 + u) * |x + k|) := by
  rw [offsetR_y] at hv
  split_ifs at hv with hd
  · rw [hc _ hd] at hv
    injection hv with hv
    injection hv with hv
    injection hv with hv
    rw [← hv]
    exact (hf _ _).trans (mul_le_mul_of_nonneg_left (C156_position R x k) hL)
  · cases hv

/-- C156: values that rise with the position still rise. -/
theorem C156_order (R : Rounding fl u) {c : Crv} {f : ℚ → ℚ} {k x x' v v' : ℚ} (hc : Gives c f)
    (hf : ∀ {a b : ℚ}, a ≤ b → f a ≤ f b) (h : x ≤ x') (hv : (c.offsetR fl k).y (.fin x) = .ok (some (.fin v)))
    (hv' : (c.offsetR fl k).y (.fin x') = .ok (some (.fin v'))) : v ≤ v' := by
  rw [offsetR_y] at hv hv'
  split_ifs at hv hv' with h1 h2
  · rw [hc _ h1] at hv
    rw [hc _ h2] at hv'
    cases hv
    cases hv'
    exact hf (R.mono (by linarith))
  · cases hv'
  · cases hv
  · cases hv

/-- C156: the positions of a closed domain move into the domain of the offset curve. -/
theorem C156_domain (R : Rounding fl u) {c : Crv} {a b : ℚ} (hc : c.dom = Iv.closed a b) (k : ℚ) {x : ℚ}
    (hx : c.dom.contains (.fin x) = true) : (c.offsetR fl k).dom.contains (.fin (fl (x + k))) = true := by
  rw [hc, Iv.contains_closed] at hx
  simp only [Bool.and_eq_true, decide_eq_true_eq] at hx
  have e : (c.offsetR fl k).dom = Iv.closed (fl (a + k)) (fl (b + k)) := by
    simp [offsetR, offsetIntervalR, hc, Iv.closed, Ext.addQ, Ext.rounded]
  rw [e, Iv.contains_closed]
  simp only [Bool.and_eq_true, decide_eq_true_eq]
  exact ⟨R.mono (by linarith [hx.1]), R.mono (by linarith [hx.2])⟩

/-- C156: the next position is the curve's next position after the one that was read, moved. -/
theorem C156_next (c : Crv) (k x : ℚ) (m l : Option Ext) {x1 : ℚ}
    (h : c.xNext (.fin (fl (x - k))) m l = .ok (some (.fin x1))) (hd : c.dom.contains (.fin x1) = true) :
    (c.offsetR fl k).xNext (.fin x) m l = .ok (some (.fin (fl (x1 + k)))) := by
  simp only [offsetR, Ext.addQ, Ext.rounded, ← sub_eq_add_neg, h, bind, Except.bind, hd]
  rfl

theorem C156_previous (c : Crv) (k x : ℚ) (m l : Option Ext) {x1 : ℚ}
    (h : c.xPrevious (.fin (fl (x - k))) m l = .ok (some (.fin x1))) (hd : c.dom.contains (.fin x1) = true) :
    (c.offsetR fl k).xPrevious (.fin x) m l = .ok (some (.fin (fl (x1 + k)))) := by
  simp only [offsetR, Ext.addQ, Ext.rounded, ← sub_eq_add_neg, h, bind, Except.bind, hd]
  rfl

/-- C156: there is none where the curve has none. -/
theorem C156_no_step (c : Crv) (k x : ℚ) (m l : Option Ext) :
    (c.xNext (.fin (fl (x - k))) m l = .ok none → (c.offsetR fl k).xNext (.fin x) m l = .ok none) ∧
    (c.xPrevious (.fin (fl (x - k))) m l = .ok none → (c.offsetR fl k).xPrevious (.fin x) m l = .ok none) := by
  constructor <;> intro h <;> simp only [offsetR, Ext.addQ, Ext.rounded, ← sub_eq_add_neg, h, bind, Except.bind] <;> rfl

/-- C156: whole positions and whole offsets, neither beyond `2 ^ 52`, are offset without error, forth and back. -/
theorem C156_whole {c : Crv} {n k : ℤ} (hn : |n| ≤ 2 ^ 52) (hk : |k| ≤ 2 ^ 52) (hd : c.dom.contains (.fin n) = true) :
    (c.offsetR fl64 k).y (.fin (fl64 (n + k))) = c.y (.fin n) ∧ fl64 (fl64 ((n : ℚ) + k) + -k) = n := by
  have h1 : Machine fl64 ((n + k : ℤ) : ℚ) := fl64_int (by
    have := abs_add_le n k
    calc |n + k| ≤ |n| + |k| := this
      _ ≤ 2 ^ 52 + 2 ^ 52 := add_le_add hn hk
      _ = 2 ^ 53 := by norm_num)
  have h2 : Machine fl64 (n : ℚ) := fl64_int (hn.trans (by norm_num))
  have h3 : fl64 ((n : ℚ) + k) = n + k := by
    have : fl64 ((n + k : ℤ) : ℚ) = ((n + k : ℤ) : ℚ) := h1
    push_cast at this
    exact this
  rw [h3]
  refine ⟨C156_moved h2 hd, ?_⟩
  rw [add_neg_cancel_right]
  exact h2

/-! ## Examples -/

/-- The positions from 0 to 0.1, each its own value. -/
def tenth : Crv := generic (fun x => .ok (some (.ofExt x))) (Iv.closed 0 (fl64 (1 / 10)))

/-- The positions from -10 to 10, each its own value. -/
def twenty : Crv := generic (fun x => .ok (some (.ofExt x))) (Iv.closed (-10) 10)

theorem twenty_gives : Gives twenty id := by
  intro x h
  have h' : (Iv.closed (-10) 10).contains (.fin x) = true := h
  simp only [twenty, generic, h']
  rfl

example : Steep id 1 := fun a b => by simp

/-- C156, a negation: the end of the domain of an offset curve (0.1 + 0.2) has no value, although the curve has one at the
end of its own domain. -/
theorem C156_negation :
    (tenth.offsetR fl64 (fl64 (2 / 10))).dom.contains (tenth.offsetR fl64 (fl64 (2 / 10))).dom.hi = true ∧
    (tenth.offsetR fl64 (fl64 (2 / 10))).y (tenth.offsetR fl64 (fl64 (2 / 10))).dom.hi = .ok none ∧
    tenth.y tenth.dom.hi = .ok (some (.fin (fl64 (1 / 10)))) := by
  refine ⟨?_, ?_, ?_⟩ <;> decide +kernel

/-- C156, a negation: the opposite offset does not give the domain back. -/
theorem C156_back_negation :
    ((tenth.offsetR fl64 (fl64 (2 / 10))).offsetR fl64 (-fl64 (2 / 10))).dom ≠ tenth.dom := by decide +kernel

/-- C156, a negation: positions that are apart may be moved to the same one. -/
theorem C156_collapse : (1 : ℚ) ≠ 2 ∧ fl64 (1 + 2 ^ 54) = fl64 (2 + 2 ^ 54) := by
  refine ⟨by norm_num, ?_⟩
  decide +kernel

example : (twenty.offsetR fl64 (fl64 (1 / 10))).y (.fin 3) = .ok (some (.fin (fl64 (3 - fl64 (1 / 10))))) := by decide +kernel
example : fl64 (3 - fl64 (1 / 10)) ≠ 3 - 1 / 10 := by decide +kernel
example : (twenty.offsetR fl64 5).y (.fin 15) = .ok (some (.fin 10)) := by decide +kernel
example : (twenty.offsetR fl64 5).y (.fin 16) = .ok none := by decide +kernel
example : (twenty.offsetR fl64 5).xNext (.fin 7) none none = .ok (some (.fin (fl64 (2 + 1 / 100000 + 5)))) := by decide +kernel
example : twenty.offsetDYR fl64 5 (.fin 7) = .ok (some (.fin 1)) := by decide +kernel
/-! ## An instance of each theorem -/

example : (twenty.offsetR fl64 5).y (.fin (3 + 5)) = .ok (some (.fin 3)) := by
  rw [C156_moved (fl := fl64) (c := twenty) (k := 5) (x := 3) (by unfold Machine; decide +kernel) (by decide +kernel)]
  decide +kernel

example : |fl64 (fl64 (3 + 1 / 10) - 1 / 10) - 3| ≤ (1 / 2 ^ 53) * |3| + (1 / 2 ^ 53) * (1 + 1 / 2 ^ 53) * |3 + 1 / 10| :=
  C156_position fl64_rounding 3 (1 / 10)

/-- Moved by a tenth, the value at `3` is less than `10 ^ -15` off. -/
example {v : ℚ} (hv : (twenty.offsetR fl64 (1 / 10)).y (.fin (fl64 (3 + 1 / 10))) = .ok (some (.fin v))) : |v - 3| ≤ 1 / 10 ^ 15 :=
  (C156_value fl64_rounding (f := id) (L := 1) twenty_gives (fun a b => by simp) (by norm_num) hv).trans (by norm_num)

example {v v' : ℚ} (hv : (twenty.offsetR fl64 (1 / 10)).y (.fin 3) = .ok (some (.fin v)))
    (hv' : (twenty.offsetR fl64 (1 / 10)).y (.fin (301 / 100)) = .ok (some (.fin v'))) : v ≤ v' :=
  C156_order fl64_rounding (f := id) twenty_gives (fun h => h) (by norm_num) hv hv'

/-- The last position is moved into the domain of the moved curve. -/
example : (twenty.offsetR fl64 (1 / 10)).dom.contains (.fin (fl64 (10 + 1 / 10))) = true :=
  C156_domain fl64_rounding (a := -10) (b := 10) rfl (1 / 10) (by decide +kernel)

example : (twenty.offsetR fl64 5).xNext (.fin 7) (some (.fin 1)) none = .ok (some (.fin (fl64 (3 + 5)))) ∧
    (twenty.offsetR fl64 5).xPrevious (.fin 7) (some (.fin 1)) none = .ok (some (.fin (fl64 (1 + 5)))) :=
  ⟨C156_next twenty 5 7 _ _ (by decide +kernel) (by decide +kernel), C156_previous twenty 5 7 _ _ (by decide +kernel) (by decide +kernel)⟩

example : (twenty.offsetR fl64 (4 : ℤ)).y (.fin (fl64 ((3 : ℤ) + (4 : ℤ)))) = twenty.y (.fin (3 : ℤ)) :=
  (C156_whole (c := twenty) (n := 3) (k := 4) (by norm_num) (by norm_num) (by decide +kernel)).1

example : twenty.offsetDYR fl64 5 (.fin 16) = .ok none := by
  rw [C156_derivative]
  decide +kernel

end Props
end Curvepy
