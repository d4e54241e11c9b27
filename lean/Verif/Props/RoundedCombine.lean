import Verif.Props.RoundedRsi
import Verif.Props.Arith

/-!
# Property C155: arithmetic of many curves with rounding
-/

namespace Curvepy
namespace Spec
namespace Rounding
variable {fl : ℚ → ℚ} {u : ℚ} (R : Rounding fl u)
include R

/-- The sum one after another, from `r`. -/
theorem sum_error (vs : List ℚ) {r s E : ℚ} (h : |r - s| ≤ E) :
    |vs.foldl (fun r y => fl (r + y)) r - (s + vs.sum)|
      ≤ (1 + u) ^ vs.length * E + ((1 + u) ^ vs.length - 1) * (|s| + (vs.map fun v => |v|).sum) := by
  have hu := R.nonneg
  induction vs generalizing r s E with
  | nil => simpa using h
  | cons v vs ih =>
    have h1 : |(r + v) - (s + v)| ≤ E := by rwa [add_sub_add_right_eq_sub]
    have h2 := R.product h1
    have h3 := ih (r := fl (r + v)) (s := s + v) h2
    have h4 : |s + v| ≤ |s| + |v| := abs_add_le s v
    have P : 1 ≤ (1 + u) ^ vs.length := one_le_pow₀ (by linarith)
    have A0 : 0 ≤ (vs.map fun v => |v|).sum := List.sum_nonneg (by simp)
    have E0 : 0 ≤ E := le_trans (abs_nonneg _) h
    simp only [List.foldl_cons, List.sum_cons, List.map_cons, List.length_cons]
    rw [show s + (v + vs.sum) = s + v + vs.sum by ring]
    refine le_trans h3 ?_
    set p := (1 + u) ^ vs.length
    set A := (vs.map fun v => |v|).sum
    have k1 : p * (E + u * (|s + v| + E)) ≤ p * (E + u * (|s| + |v| + E)) := by gcongr
    have k2 : (p - 1) * (|s + v| + A) ≤ (p - 1) * (|s| + |v| + A) :=
      mul_le_mul_of_nonneg_left (by linarith) (by linarith)
    have k3 : 0 ≤ p * u * A := by positivity
    have k4 : (1 + u) ^ (vs.length + 1) = p * (1 + u) := pow_succ _ _
    rw [k4]
    nlinarith

/-- The product one after another, from `r`. -/
theorem prod_error (vs : List ℚ) {r s E : ℚ} (h : |r - s| ≤ E) :
    |vs.foldl (fun r y => fl (r * y)) r - s * vs.prod|
      ≤ ((1 + u) ^ vs.length * E + ((1 + u) ^ vs.length - 1) * |s|) * |vs.prod| := by
  have hu := R.nonneg
  induction vs generalizing r s E with
  | nil => simpa using h
  | cons v vs ih =>
    have h1 : |r * v - s * v| ≤ E * |v| := by
      rw [← sub_mul, abs_mul]
      exact mul_le_mul_of_nonneg_right h (abs_nonneg _)
    have h2 := R.product h1
    have h3 := ih (r := fl (r * v)) (s := s * v) h2
    simp only [List.foldl_cons, List.prod_cons, List.length_cons]
    rw [show s * (v * vs.prod) = s * v * vs.prod by ring, abs_mul v]
    refine le_trans h3 (le_of_eq ?_)
    rw [abs_mul s v, pow_succ]
    ring

theorem sum_mono {vs ws : List ℚ} (h : List.Forall₂ (· ≤ ·) vs ws) {r s : ℚ} (hr : r ≤ s) :
    vs.foldl (fun r y => fl (r + y)) r ≤ ws.foldl (fun r y => fl (r + y)) s := by
  induction h generalizing r s with
  | nil => exact hr
  | cons h1 _ ih => exact ih (R.mono (add_le_add hr h1))

end Rounding
end Spec

namespace Props
open Spec Crv
variable {fl : ℚ → ℚ} {u : ℚ}

theorem foldl_addR (fl : ℚ → ℚ) (qs : List ℚ) (r : ℚ) :
    (qs.map Num.fin).foldl (fun r y => (Num.add r y).rounded fl) (.fin r) = .fin (qs.foldl (fun r y => fl (r + y)) r) := by
  induction qs generalizing r with
  | nil => rfl
  | cons q qs ih => exact ih _

theorem addFR_fin (fl : ℚ → ℚ) (qs : List ℚ) :
    addFR fl (qs.map fun q => some (.fin q)) = some (.fin (qs.foldl (fun r y => fl (r + y)) 0)) := by
  have : (qs.map fun q => some (Num.fin q)) = (qs.map Num.fin).map some := by simp
  rw [addFR, this, allDefined_some]
  exact congrArg some (foldl_addR fl qs 0)

theorem multFR_fin (fl : ℚ → ℚ) (qs : List ℚ) (r : ℚ) :
    multFR fl (qs.map fun q => some (.fin q)) (.fin r) = some (.fin (qs.foldl (fun r y => fl (r * y)) r)) := by
  induction qs generalizing r with
  | nil => rfl
  | cons q qs ih => exact ih _

/-- What many curves give: the function of their values. -/
theorem manyR_y {args : List Arg} {x : Ext} {vals : List (Option Num)} (hv : ValuesAt args x vals) (hd : InAll args x)
    (fl : ℚ → ℚ) :
    (addManyR fl args).y x = .ok (addFR fl vals) ∧ (multiplyManyR fl args).y x = .ok (multFR fl vals (.fin 1))
      ∧ (subtractManyR fl args).y x = .ok (subFR fl vals none) ∧ (divideManyR fl args).y x = divFR fl vals none := by
  have hc := (interAll_contains args x).2 hd
  refine ⟨?_, ?_, ?_, ?_⟩
  · exact (aggregate_y hv _ false none).trans (if_pos hc)
  · exact (aggregate_y hv _ false none).trans (if_pos hc)
  · exact (aggregate_y hv _ false none).trans (if_pos hc)
  · exact (aggregate_y hv _ false none).trans (if_pos hc)

/-! ## C155 -/

/-- C155: the error of a sum of curves. -/
theorem C155_sum (R : Rounding fl u) {args : List Arg} {x : Ext} {qs : List ℚ}
    (hv : ValuesAt args x (qs.map fun q => some (.fin q))) (hd : InAll args x) :
    ∃ s, (addManyR fl args).y x = .ok (some (.fin s))
      ∧ |s - qs.sum| ≤ ((1 + u) ^ qs.length - 1) * (qs.map fun q => |q|).sum := by
  refine ⟨_, by rw [(manyR_y hv hd fl).1, addFR_fin], ?_⟩
  have := R.sum_error qs (r := 0) (s := 0) (E := 0) (by simp)
  simpa using this

/-- C155: the relative error of a product of curves. -/
theorem C155_product (R : Rounding fl u) {args : List Arg} {x : Ext} {qs : List ℚ}
    (hv : ValuesAt args x (qs.map fun q => some (.fin q))) (hd : InAll args x) :
    ∃ s, (multiplyManyR fl args).y x = .ok (some (.fin s)) ∧ |s - qs.prod| ≤ ((1 + u) ^ qs.length - 1) * |qs.prod| := by
  refine ⟨_, by rw [(manyR_y hv hd fl).2.1, multFR_fin], ?_⟩
  have := R.prod_error qs (r := 1) (s := 1) (E := 0) (by simp)
  simpa using this

/-- C155: sums keep the order: if no value of the second list is lower, the sum is not lower. -/
theorem C155_order (R : Rounding fl u) {args args' : List Arg} {x : Ext} {qs rs : List ℚ}
    (hv : ValuesAt args x (qs.map fun q => some (.fin q))) (hd : InAll args x)
    (hv' : ValuesAt args' x (rs.map fun q => some (.fin q))) (hd' : InAll args' x) (h : List.Forall₂ (· ≤ ·) qs rs) :
    ∃ s s', (addManyR fl args).y x = .ok (some (.fin s)) ∧ (addManyR fl args').y x = .ok (some (.fin s')) ∧ s ≤ s' :=
  ⟨_, _, by rw [(manyR_y hv hd fl).1, addFR_fin], by rw [(manyR_y hv' hd' fl).1, addFR_fin], R.sum_mono h (le_refl _)⟩

/-- C155: the difference of two curves is 0 exactly where they agree, and it has the right sign. -/
theorem C155_difference (R : Rounding fl u) {a b : Arg} {x : Ext} {p q : ℚ}
    (hv : ValuesAt [a, b] x [some (.fin p), some (.fin q)]) (hd : InAll [a, b] x) :
    ∃ s, (subtractManyR fl [a, b]).y x = .ok (some (.fin s)) ∧ (s = 0 ↔ p = q) ∧ (0 < s ↔ q < p)
      ∧ |s - (p - q)| ≤ u * |p - q| := by
  refine ⟨fl (p - q), ?_, ⟨fun h => ?_, fun h => ?_⟩, ⟨fun h => ?_, fun h => R.pos (by linarith)⟩, R.err _⟩
  · rw [(manyR_y hv hd fl).2.2.1]
    simp [subFR, Num.sub, Num.neg, Num.add, Num.rounded, sub_eq_add_neg]
  · by_contra hc
    exact R.ne_zero (sub_ne_zero.2 hc) h
  · rw [h, sub_self, R.zero]
  · by_contra hc
    have := R.nonpos_of (x := p - q) (by linarith)
    linarith

/-- C155: the quotient of two curves, and where the second is 0. -/
theorem C155_quotient (R : Rounding fl u) {a b : Arg} {x : Ext} {p q : ℚ}
    (hv : ValuesAt [a, b] x [some (.fin p), some (.fin q)]) (hd : InAll [a, b] x) :
    (q ≠ 0 → ∃ s, (divideManyR fl [a, b]).y x = .ok (some (.fin s)) ∧ |s - p / q| ≤ u * |p / q|)
      ∧ (q = 0 → (divideManyR fl [a, b]).y x = .ok (some (if 0 ≤ p then .pinf else .ninf))) := by
  rw [(manyR_y hv hd fl).2.2.2]
  refine ⟨fun hq => ⟨fl (p / q), ?_, R.err _⟩, fun hq => ?_⟩
  · simp [divFR, hq, Num.div, Num.rounded]
  · subst hq
    simp [divFR, Num.le]

/-- C155: two curves can be added and multiplied in either order. -/
theorem C155_swap (R : Rounding fl u) {a b : Arg} {x : Ext} {p q : ℚ}
    (hv : ValuesAt [a, b] x [some (.fin p), some (.fin q)]) (hd : InAll [a, b] x) (hp : Machine fl p) (hq : Machine fl q) :
    (addManyR fl [a, b]).y x = .ok (some (.fin (fl (p + q)))) ∧ (addManyR fl [b, a]).y x = .ok (some (.fin (fl (p + q))))
      ∧ (multiplyManyR fl [a, b]).y x = .ok (some (.fin (fl (p * q))))
      ∧ (multiplyManyR fl [b, a]).y x = .ok (some (.fin (fl (p * q)))) := by
  have hv' : ValuesAt [b, a] x [some (.fin q), some (.fin p)] := by
    simp only [ValuesAt, List.map_cons, List.map_nil, List.cons.injEq, and_true] at hv ⊢
    exact ⟨hv.2, hv.1⟩
  have hd' : InAll [b, a] x := fun o ho => hd o (by simp only [List.mem_cons, List.not_mem_nil, or_false] at ho ⊢; exact ho.symm)
  have hp' : fl p = p := hp
  have hq' : fl q = q := hq
  obtain ⟨h1, h2, -⟩ := manyR_y hv hd fl
  obtain ⟨h3, h4, -⟩ := manyR_y hv' hd' fl
  rw [h1, h2, h3, h4]
  simp [addFR, allDefined, multFR, Num.add, Num.mul, Num.rounded, hp', hq', add_comm q p, mul_comm q p]

/-- C155: a curve that is nowhere defined makes the results undefined, as without rounding. -/
theorem C155_missing {args : List Arg} {x : Ext} {vals : List (Option Num)} (hv : ValuesAt args x vals) (hd : InAll args x)
    (h : none ∈ vals) :
    (addManyR fl args).y x = .ok none ∧ (multiplyManyR fl args).y x = .ok none
      ∧ (subtractManyR fl args).y x = .ok none ∧ (divideManyR fl args).y x = .ok none := by
  obtain ⟨h1, h2, h3, h4⟩ := manyR_y hv hd fl
  rw [h1, h2, h3, h4]
  refine ⟨by rw [addFR, allDefined_none h], ?_, ?_, ?_⟩
  · have : ∀ (vals : List (Option Num)) (r : Num), none ∈ vals → multFR fl vals r = none := by
      intro vals
      induction vals with
      | nil => intro r h; cases h
      | cons v vs ih =>
        intro r h
        cases v with
        | none => rfl
        | some v => exact ih _ (by simpa using h)
    rw [this vals _ h]
  · have : ∀ (vals : List (Option Num)) (r : Option Num), none ∈ vals → subFR fl vals r = none := by
      intro vals
      induction vals with
      | nil => intro r h; cases h
      | cons v vs ih =>
        intro r h
        cases v with
        | none => cases r <;> rfl
        | some v => cases r <;> exact ih _ (by simpa using h)
    rw [this vals _ h]
  · have : ∀ (vals : List (Option Num)) (r : Option Num), none ∈ vals → divFR fl vals r = .ok none := by
      intro vals
      induction vals with
      | nil => intro r h; cases h
      | cons v vs ih =>
        intro r h
        cases v with
        | none => cases r <;> rfl
        | some v =>
          have h' : none ∈ vs := by simpa using h
          cases r with
          | none => exact ih _ h'
          | some r =>
            simp only [divFR]
            by_cases hz : v = .fin 0
            · rw [if_pos hz]
              exact ih _ h'
            · rw [if_neg hz]
              cases v with
              | fin q =>
                have : q ≠ 0 := fun hc => hz (by rw [hc])
                simp only [Num.div, if_neg this]
                cases r <;> exact ih _ h'
              | pinf => cases r <;> exact ih _ h'
              | ninf => cases r <;> exact ih _ h'
              | nan => cases r <;> exact ih _ h'
    exact this vals _ h

/-- **The order of three curves matters**: `2⁵³ + 1 + 1` is `2⁵³`, `1 + 1 + 2⁵³` is `2⁵³ + 2`. -/
theorem C155_negation :
    (addManyR fl64 [.number (.fin (2 ^ 53)), .number (.fin 1), .number (.fin 1)]).y (.fin 0) = .ok (some (.fin (2 ^ 53)))
      ∧ (addManyR fl64 [.number (.fin 1), .number (.fin 1), .number (.fin (2 ^ 53))]).y (.fin 0)
        = .ok (some (.fin (2 ^ 53 + 2))) := by
  decide +kernel

/-- **Dividing and multiplying does not give the curve back**: `(1 / 49) * 49` is below 1. -/
theorem C155_inverse_negation :
    (multiplyManyR fl64 [.curve (divideManyR fl64 [.number (.fin 1), .number (.fin 49)]), .number (.fin 49)]).y (.fin 0)
      = .ok (some (.fin (1 - 1 / 2 ^ 53))) := by
  decide +kernel

/-! ## Examples -/

/-- The hypotheses hold for three constants; the error of the sum is less than `6 · 4 · 2⁻⁵³`. -/
example : ∃ s, (addManyR fl64 [.number (.fin 1), .number (.fin 2), .number (.fin 3)]).y (.fin 0) = .ok (some (.fin s))
    ∧ |s - 6| ≤ ((1 + 1 / 2 ^ 53) ^ 3 - 1) * 6 := by
  have := C155_sum fl64_rounding (args := [.number (.fin 1), .number (.fin 2), .number (.fin 3)]) (x := .fin 0) (qs := [1, 2, 3])
    (by rfl) (by intro a ha; simp at ha; rcases ha with rfl | rfl | rfl <;> rfl)
  norm_num [List.sum_cons] at this ⊢
  exact this

/-- A ramp divided by constants. -/
example : (divideManyR fl64 [.curve ramp, .number (.fin 0)]).y (.fin 3) = .ok (some .pinf)
    ∧ (divideManyR fl64 [.curve ramp, .number (.fin 4)]).y (.fin 3) = .ok (some (.fin (3 / 4)))
    ∧ (subtractManyR fl64 [.curve ramp, .number (.fin 4)]).y (.fin 3) = .ok (some (.fin (-1)))
    ∧ (addManyR fl64 [.curve ramp, .number (.fin 4)]).y (.fin 5) = .ok none := by
  decide +kernel

/-! ### An instance of each theorem -/

theorem numbers_in (qs : List ℚ) (x : ℚ) : InAll (qs.map fun q => Arg.number (.fin q)) (.fin x) := by
  intro a ha
  simp only [List.mem_map] at ha
  obtain ⟨q, -, rfl⟩ := ha
  rfl

-- `C155_product`
example : ∃ s, (multiplyManyR fl64 ([1, 2, 3].map fun q => Arg.number (.fin q))).y (.fin 0) = .ok (some (.fin s))
    ∧ |s - 6| ≤ ((1 + 1 / 2 ^ 53) ^ 3 - 1) * 6 := by
  have := C155_product fl64_rounding (args := [1, 2, 3].map fun q => Arg.number (.fin q)) (x := .fin 0) (qs := [1, 2, 3])
    rfl (numbers_in _ _)
  norm_num [List.prod_cons] at this ⊢
  exact this

-- `C155_order`: larger terms, and no smaller sum
example : ∃ s s', (addManyR fl64 ([1 / 3, 2].map fun q => Arg.number (.fin q))).y (.fin 0) = .ok (some (.fin s))
    ∧ (addManyR fl64 ([1 / 2, 2].map fun q => Arg.number (.fin q))).y (.fin 0) = .ok (some (.fin s')) ∧ s ≤ s' :=
  C155_order fl64_rounding (qs := [1 / 3, 2]) (rs := [1 / 2, 2]) rfl (numbers_in _ _) rfl (numbers_in _ _)
    (.cons (by norm_num) (.cons (le_refl _) .nil))

-- `C155_difference`: not nothing, as the values differ
example : ∃ s, (subtractManyR fl64 ([1 / 3, 2].map fun q => Arg.number (.fin q))).y (.fin 0) = .ok (some (.fin s)) ∧ s ≠ 0
    ∧ ¬ 0 < s := by
  obtain ⟨s, h, h0, h1, -⟩ := C155_difference fl64_rounding (a := .number (.fin (1 / 3))) (b := .number (.fin 2)) (x := .fin 0)
    rfl (numbers_in [1 / 3, 2] _)
  exact ⟨s, h, by rw [Ne, h0]; norm_num, by rw [h1]; norm_num⟩

-- `C155_quotient`
example : (∃ s, (divideManyR fl64 ([1, 3].map fun q => Arg.number (.fin q))).y (.fin 0) = .ok (some (.fin s))
      ∧ |s - 1 / 3| ≤ 1 / 2 ^ 53 * |(1 : ℚ) / 3|)
    ∧ (divideManyR fl64 ([-1, 0].map fun q => Arg.number (.fin q))).y (.fin 0) = .ok (some .ninf) :=
  ⟨(C155_quotient fl64_rounding (a := .number (.fin 1)) (b := .number (.fin 3)) (x := .fin 0) rfl (numbers_in [1, 3] _)).1
      (by norm_num),
    ((C155_quotient fl64_rounding (a := .number (.fin (-1))) (b := .number (.fin 0)) (x := .fin 0) rfl
      (numbers_in [-1, 0] _)).2 rfl).trans (by norm_num)⟩

end Props
end Curvepy
