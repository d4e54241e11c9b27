import Verif.Props.RoundedEma

/-!
# Integrals with rounded arithmetic

`C151`: the area between two points, and the running area, when every operation rounds.
-/

namespace Curvepy
namespace Props
open Spec Pts Accum

variable {m : ℚ} {i : Interp} {b : Bool} {A : Accum} {fl : ℚ → ℚ} {u : ℚ}

theorem segmentAreaR_id (mode : Interp) {x0 x : ℚ} (y0 y : ℚ) (h : x0 ≠ x) :
    segmentAreaR id mode x0 y0 x y = areaBetween mode x0 y0 x y := by
  have h2 : x - x0 ≠ 0 := sub_ne_zero.2 (fun e => h e.symm)
  cases mode <;> simp only [segmentAreaR, if_neg h, areaBetween, id] <;> field_simp <;> ring

/-! ## One segment -/

/-- Products of approximations. -/
theorem product_error {p p' q q' e f P Q : ℚ} (h1 : |p' - p| ≤ e) (h2 : |q' - q| ≤ f) (h3 : |p| ≤ P) (h4 : |q| ≤ Q) :
    |p' * q' - p * q| ≤ (P + e) * f + e * Q := by
  have e0 : 0 ≤ e := le_trans (abs_nonneg _) h1
  have f0 : 0 ≤ f := le_trans (abs_nonneg _) h2
  have P0 : 0 ≤ P := le_trans (abs_nonneg _) h3
  have hp' : |p'| ≤ P + e := by
    have := abs_add_le (p' - p) p
    rw [sub_add_cancel] at this
    linarith
  have : p' * q' - p * q = p' * (q' - q) + (p' - p) * q := by ring
  rw [this]
  refine (abs_add_le _ _).trans ?_
  rw [abs_mul, abs_mul]
  have t1 : |p'| * |q' - q| ≤ (P + e) * f := mul_le_mul hp' h2 (abs_nonneg _) (by linarith)
  have t2 : |p' - p| * |q| ≤ e * Q := mul_le_mul h1 h4 (abs_nonneg _) e0
  linarith

/-- The antiderivative of a line whose slope and constant are approximated. -/
theorem antiderivative_error (R : Rounding fl u) {s c c' h' σ X z : ℚ} (σ0 : 0 ≤ σ) (hsσ : |s| ≤ σ)
    (eh : |h' - s * (1 / 2)| ≤ 4 * (u * σ)) (cY : |c| ≤ 2 * (σ * X)) (ec : |c' - c| ≤ 11 * (u * (σ * X)))
    (hz : |z| ≤ X) :
    |fl (fl (h' * fl (z ^ 2)) + fl (c' * z)) - (s * (1 / 2) * z ^ 2 + c * z)| ≤ 23 * (u * (σ * X * X)) := by
  have hu := R.nonneg
  have hs := R.small
  have hX' : 0 ≤ X := le_trans (abs_nonneg _) hz
  have Y0 : 0 ≤ σ * X := mul_nonneg σ0 hX'
  obtain ⟨B, hB⟩ : ∃ B, B = σ * X * X := ⟨_, rfl⟩
  rw [← hB]
  have B0 : 0 ≤ B := by rw [hB]; exact mul_nonneg Y0 hX'
  have uB : 0 ≤ u * B := mul_nonneg hu B0
  have uuB : u * (u * B) ≤ 1 / 64 * (u * B) := mul_le_mul_of_nonneg_right hs uB
  have uuuB : u * (u * (u * B)) ≤ 1 / 64 * (u * (u * B)) := mul_le_mul_of_nonneg_right hs (mul_nonneg hu uB)
  have hz2 : |z ^ 2| ≤ X ^ 2 := by
    rw [abs_pow]
    exact pow_le_pow_left₀ (abs_nonneg _) hz 2
  have h3 : |s * (1 / 2)| ≤ σ / 2 := by
    rw [abs_mul, abs_of_pos (by norm_num : (0 : ℚ) < 1 / 2)]
    linarith
  have b1 : |s * (1 / 2) * z ^ 2| ≤ B / 2 := by
    rw [abs_mul]
    calc |s * (1 / 2)| * |z ^ 2| ≤ σ / 2 * X ^ 2 := mul_le_mul h3 hz2 (abs_nonneg _) (by positivity)
      _ = B / 2 := by rw [hB]; ring
  have e4 : |fl (h' * fl (z ^ 2)) - s * (1 / 2) * z ^ 2| ≤ 6 * (u * B) := by
    have e1 : |fl (z ^ 2) - z ^ 2| ≤ u * X ^ 2 := (R.err _).trans (mul_le_mul_of_nonneg_left hz2 hu)
    have e2 := product_error eh e1 h3 hz2
    have r1 : (σ / 2 + 4 * (u * σ)) * (u * X ^ 2) + 4 * (u * σ) * X ^ 2 = 9 / 2 * (u * B) + 4 * (u * (u * B)) := by
      rw [hB]; ring
    rw [r1] at e2
    have e3 := R.product e2
    have : u * (|s * (1 / 2) * z ^ 2| + (9 / 2 * (u * B) + 4 * (u * (u * B))))
        ≤ u * (B / 2 + (9 / 2 * (u * B) + 4 * (u * (u * B)))) := mul_le_mul_of_nonneg_left (by linarith) hu
    linarith
  have b2 : |c * z| ≤ 2 * B := by
    rw [abs_mul]
    calc |c| * |z| ≤ 2 * (σ * X) * X := mul_le_mul cY hz (abs_nonneg _) (by positivity)
      _ = 2 * B := by rw [hB]; ring
  have e7 : |fl (c' * z) - c * z| ≤ (27 / 2 : ℚ) * (u * B) := by
    have e5 : |c' * z - c * z| ≤ 11 * (u * B) := by
      rw [← sub_mul, abs_mul]
      calc |c' - c| * |z| ≤ 11 * (u * (σ * X)) * X := mul_le_mul ec hz (abs_nonneg _) (by positivity)
        _ = 11 * (u * B) := by rw [hB]; ring
    have e6 := R.product e5
    have : u * (|c * z| + 11 * (u * B)) ≤ u * (2 * B + 11 * (u * B)) := mul_le_mul_of_nonneg_left (by linarith) hu
    linarith
  have e8 : |fl (h' * fl (z ^ 2)) + fl (c' * z) - (s * (1 / 2) * z ^ 2 + c * z)| ≤ (39 / 2 : ℚ) * (u * B) := by
    rw [add_sub_add_comm]
    refine (abs_add_le _ _).trans ?_
    linarith
  have e9 := R.product e8
  have b3 : |s * (1 / 2) * z ^ 2 + c * z| ≤ 5 / 2 * B := (abs_add_le _ _).trans (by linarith)
  have : u * (|s * (1 / 2) * z ^ 2 + c * z| + 39 / 2 * (u * B)) ≤ u * (5 / 2 * B + 39 / 2 * (u * B)) :=
    mul_le_mul_of_nonneg_left (by linarith) hu
  linarith

/-- A line: the area is off by little, measured by the square of the positions over their distance. -/
theorem segmentR_linear (R : Rounding fl u) {x0 y0 x y X M : ℚ} (hx : x0 < x) (hX0 : |x0| ≤ X) (hX : |x| ≤ X)
    (hM0 : |y0| ≤ M) (hM : |y| ≤ M) :
    |segmentAreaR fl .linear x0 y0 x y - areaBetween .linear x0 y0 x y| ≤ 98 * u * M * X ^ 2 / (x - x0) := by
  have hu := R.nonneg
  have hs := R.small
  have hd : 0 < x - x0 := by linarith
  have hM' : 0 ≤ M := le_trans (abs_nonneg _) hM
  have hX' : 0 ≤ X := le_trans (abs_nonneg _) hX
  simp only [segmentAreaR, if_neg hx.ne, areaBetween]
  set d := x - x0 with hdd
  set s := (y - y0) / d with hsd
  set σ := 2 * M / d with hσ
  have σ0 : 0 ≤ σ := by positivity
  have Mσ : M = σ * d / 2 := by rw [hσ]; field_simp
  have dX : d ≤ 2 * X := by
    have := (abs_le.1 hX).2
    have := (abs_le.1 hX0).1
    linarith
  have hsσ : |s| ≤ σ := by
    rw [hsd, abs_div, abs_of_pos hd, hσ]
    have := abs_sub y y0
    gcongr
    linarith
  have MσX : M ≤ σ * X := by
    rw [Mσ]
    nlinarith
  -- the slope
  set s' := fl (fl (y - y0) / fl d) with hs'
  have es : |s' - s| ≤ 5 * (u * σ) := by
    have h1 := R.ratio (y - y0) hd
    have h2 : 5 * u * |s| ≤ 5 * u * σ := by gcongr
    rw [← hsd, ← hs'] at h1
    linarith
  have uσ : 0 ≤ u * σ := mul_nonneg hu σ0
  have uuσ : u * (u * σ) ≤ 1 / 64 * (u * σ) := mul_le_mul_of_nonneg_right hs uσ
  set Y := σ * X with hY
  have Y0 : 0 ≤ Y := mul_nonneg σ0 hX'
  have uY : 0 ≤ u * Y := mul_nonneg hu Y0
  have uuY : u * (u * Y) ≤ 1 / 64 * (u * Y) := mul_le_mul_of_nonneg_right hs uY
  have uuuY : u * (u * (u * Y)) ≤ 1 / 64 * (u * (u * Y)) := mul_le_mul_of_nonneg_right hs (mul_nonneg hu uY)
  -- the constant
  have ep : |fl (s' * fl (0 - x0)) - s * (0 - x0)| ≤ 8 * (u * Y) := by
    have h1 : |fl (0 - x0) - (0 - x0)| ≤ u * X := by
      refine (R.err _).trans ?_
      rw [zero_sub, abs_neg]
      gcongr
    have h2 := product_error es h1 hsσ (by rw [zero_sub, abs_neg]; exact hX0 : |0 - x0| ≤ X)
    have h3 := R.product h2
    have h4 : |s * (0 - x0)| ≤ Y := by
      rw [abs_mul, zero_sub, abs_neg]
      exact mul_le_mul hsσ hX0 (abs_nonneg _) σ0
    have e1 : (σ + 5 * (u * σ)) * (u * X) + 5 * (u * σ) * X = 6 * (u * Y) + 5 * (u * (u * Y)) := by rw [hY]; ring
    rw [e1] at h3
    have h5 : u * (|s * (0 - x0)| + (6 * (u * Y) + 5 * (u * (u * Y)))) ≤ u * (Y + (6 * (u * Y) + 5 * (u * (u * Y)))) :=
      mul_le_mul_of_nonneg_left (by linarith) hu
    nlinarith
  set c := y0 + s * (0 - x0) with hc
  set c' := fl (y0 + fl (s' * fl (0 - x0))) with hc'
  have cY : |c| ≤ 2 * Y := by
    have h4 : |s * (0 - x0)| ≤ Y := by
      rw [abs_mul, zero_sub, abs_neg]
      exact mul_le_mul hsσ hX0 (abs_nonneg _) σ0
    have := abs_add_le y0 (s * (0 - x0))
    linarith
  have ec : |c' - c| ≤ 11 * (u * Y) := by
    have h1 : |y0 + fl (s' * fl (0 - x0)) - c| ≤ 8 * (u * Y) := by
      rw [hc]
      have : y0 + fl (s' * fl (0 - x0)) - (y0 + s * (0 - x0)) = fl (s' * fl (0 - x0)) - s * (0 - x0) := by ring
      rw [this]
      exact ep
    have h2 := R.product h1
    have h3 : u * (|c| + 8 * (u * Y)) ≤ u * (2 * Y + 8 * (u * Y)) := mul_le_mul_of_nonneg_left (by linarith) hu
    linarith
  -- half of the slope
  have eh : |fl (s' * (1 / 2)) - s * (1 / 2)| ≤ 4 * (u * σ) := by
    have h1 : |s' * (1 / 2) - s * (1 / 2)| ≤ 5 / 2 * (u * σ) := by
      rw [← sub_mul, abs_mul]
      norm_num
      linarith
    have h2 := R.product h1
    have h3 : |s * (1 / 2)| ≤ σ / 2 := by
      rw [abs_mul]
      norm_num
      linarith
    have h4 : u * (|s * (1 / 2)| + 5 / 2 * (u * σ)) ≤ u * (σ / 2 + 5 / 2 * (u * σ)) :=
      mul_le_mul_of_nonneg_left (by linarith) hu
    linarith
  set B := Y * X with hB
  have B0 : 0 ≤ B := mul_nonneg Y0 hX'
  have uB : 0 ≤ u * B := mul_nonneg hu B0
  have uuB : u * (u * B) ≤ 1 / 64 * (u * B) := mul_le_mul_of_nonneg_right hs uB
  have uuuB : u * (u * (u * B)) ≤ 1 / 64 * (u * (u * B)) := mul_le_mul_of_nonneg_right hs (mul_nonneg hu uB)
  -- the antiderivative
  have anti : ∀ z : ℚ, |z| ≤ X →
      |fl (fl (fl (s' * (1 / 2)) * fl (z ^ 2)) + fl (c' * z)) - (s * (1 / 2) * z ^ 2 + c * z)| ≤ 23 * (u * B) :=
    fun z hz => antiderivative_error R σ0 hsσ eh cY ec hz
  -- the difference
  have hx1 := anti x hX
  have hx0 := anti x0 hX0
  set F := fl (fl (fl (s' * (1 / 2)) * fl (x ^ 2)) + fl (c' * x)) with hF
  set F0 := fl (fl (fl (s' * (1 / 2)) * fl (x0 ^ 2)) + fl (c' * x0)) with hF0
  have area : s * (1 / 2) * x ^ 2 + c * x - (s * (1 / 2) * x0 ^ 2 + c * x0) = d * ((y0 + y) / 2) := by
    rw [hc, hsd, hdd]
    have : x - x0 ≠ 0 := hd.ne'
    field_simp
    ring
  have e1 : |F - F0 - d * ((y0 + y) / 2)| ≤ 46 * (u * B) := by
    rw [← area]
    have : F - F0 - (s * (1 / 2) * x ^ 2 + c * x - (s * (1 / 2) * x0 ^ 2 + c * x0))
        = (F - (s * (1 / 2) * x ^ 2 + c * x)) - (F0 - (s * (1 / 2) * x0 ^ 2 + c * x0)) := by ring
    rw [this]
    refine (abs_sub _ _).trans ?_
    linarith
  have e2 := R.product e1
  have b1 : |d * ((y0 + y) / 2)| ≤ 2 * B := by
    rw [abs_mul, abs_of_pos hd]
    have h1 : |(y0 + y) / 2| ≤ M := by
      rw [abs_div, abs_of_pos (by norm_num : (0 : ℚ) < 2)]
      have := abs_add_le y0 y
      linarith
    calc d * |(y0 + y) / 2| ≤ 2 * X * (σ * X) := mul_le_mul dX (h1.trans MσX) (abs_nonneg _) (by positivity)
      _ = 2 * B := by rw [hB, hY]; ring
  have e3 : u * (|d * ((y0 + y) / 2)| + 46 * (u * B)) ≤ u * (2 * B + 46 * (u * B)) :=
    mul_le_mul_of_nonneg_left (by linarith) hu
  have e4 : 98 * u * M * X ^ 2 / d = 49 * (u * B) := by
    rw [hB, hY, hσ]
    field_simp
    ring
  rw [e4]
  linarith

/-- A step: the area of a rectangle of a height that needs no rounding. -/
theorem rectangleR (R : Rounding fl u) {x0 x h X M : ℚ} (hx : x0 < x) (hX0 : |x0| ≤ X) (hX : |x| ≤ X) (hM : |h| ≤ M)
    (hm : Machine fl h) :
    segmentAreaR fl .previous x0 h x h = fl (fl (h * x) - fl (h * x0))
      ∧ |fl (fl (h * x) - fl (h * x0)) - (x - x0) * h| ≤ 5 * u * M * X := by
  have hu := R.nonneg
  have hs := R.small
  have hM' : 0 ≤ M := le_trans (abs_nonneg _) hM
  have hX' : 0 ≤ X := le_trans (abs_nonneg _) hX
  have hm' : fl h = h := hm
  refine ⟨?_, ?_⟩
  · simp only [segmentAreaR, if_neg hx.ne, sub_self, R.zero, zero_div, zero_mul, add_zero, zero_add, hm', R.idem]
  · have k : ∀ z : ℚ, |z| ≤ X → |fl (h * z) - h * z| ≤ u * (M * X) := by
      intro z hz
      refine (R.err _).trans ?_
      rw [abs_mul]
      gcongr
    have k1 := k x hX
    have k0 := k x0 hX0
    have e1 : |fl (h * x) - fl (h * x0) - (x - x0) * h| ≤ 2 * (u * (M * X)) := by
      have : fl (h * x) - fl (h * x0) - (x - x0) * h = (fl (h * x) - h * x) - (fl (h * x0) - h * x0) := by ring
      rw [this]
      refine (abs_sub _ _).trans ?_
      linarith
    have e2 := R.product e1
    have b1 : |(x - x0) * h| ≤ 2 * (M * X) := by
      rw [abs_mul]
      have : |x - x0| ≤ 2 * X := (abs_sub _ _).trans (by linarith)
      calc |x - x0| * |h| ≤ 2 * X * M := mul_le_mul this hM (abs_nonneg _) (by positivity)
        _ = 2 * (M * X) := by ring
    have uB : 0 ≤ u * (M * X) := by positivity
    have uuB : u * (u * (M * X)) ≤ 1 / 64 * (u * (M * X)) := mul_le_mul_of_nonneg_right hs uB
    have e3 : u * (|(x - x0) * h| + 2 * (u * (M * X))) ≤ u * (2 * (M * X) + 2 * (u * (M * X))) :=
      mul_le_mul_of_nonneg_left (by linarith) hu
    have e4 : 5 * u * M * X = 5 * (u * (M * X)) := by ring
    rw [e4]
    linarith

theorem segmentR_previous (fl : ℚ → ℚ) (x0 y0 x y : ℚ) :
    segmentAreaR fl .previous x0 y0 x y = segmentAreaR fl .previous x0 y0 x y0 := rfl

theorem segmentR_next (fl : ℚ → ℚ) (x0 y0 x y : ℚ) :
    segmentAreaR fl .next x0 y0 x y = segmentAreaR fl .previous x0 y x y := rfl

/-- **The area between two points** with steps, of values that need no rounding. -/
theorem C151_step (R : Rounding fl u) {mode : Interp} (hmode : mode ≠ .linear) {x0 y0 x y X M : ℚ} (hx : x0 < x)
    (hX0 : |x0| ≤ X) (hX : |x| ≤ X) (hM0 : |y0| ≤ M) (hM : |y| ≤ M) (hm0 : Machine fl y0) (hm : Machine fl y) :
    |segmentAreaR fl mode x0 y0 x y - areaBetween mode x0 y0 x y| ≤ 5 * u * M * X := by
  cases mode with
  | linear => exact absurd rfl hmode
  | previous =>
    obtain ⟨h1, h2⟩ := rectangleR R hx hX0 hX hM0 hm0
    rw [segmentR_previous, h1]
    exact h2
  | next =>
    obtain ⟨h1, h2⟩ := rectangleR R hx hX0 hX hM hm
    rw [segmentR_next, h1]
    exact h2

/-- **The area between two points**, of values up to `M` at positions up to `X`. -/
theorem C151_segment (R : Rounding fl u) (mode : Interp) {x0 y0 x y X M : ℚ} (hx : x0 < x) (hX0 : |x0| ≤ X)
    (hX : |x| ≤ X) (hM0 : |y0| ≤ M) (hM : |y| ≤ M) (hm0 : Machine fl y0) (hm : Machine fl y) :
    |segmentAreaR fl mode x0 y0 x y - areaBetween mode x0 y0 x y| ≤ 98 * u * M * X ^ 2 / (x - x0) := by
  by_cases h : mode = .linear
  · rw [h]
    exact segmentR_linear R hx hX0 hX hM0 hM
  · refine (C151_step R h hx hX0 hX hM0 hM hm0 hm).trans ?_
    have hu := R.nonneg
    have hM' : 0 ≤ M := le_trans (abs_nonneg _) hM
    have hX' : 0 ≤ X := le_trans (abs_nonneg _) hX
    have hd : x - x0 ≤ 2 * X := by
      have := (abs_le.1 hX).2
      have := (abs_le.1 hX0).1
      linarith
    rw [le_div_iff₀ (by linarith)]
    have : 0 ≤ u * M * X := by positivity
    nlinarith [mul_le_mul_of_nonneg_left hd this]

/-! ## The running area -/

/-- The running area with rounding. -/
def areaStepR (fl : ℚ → ℚ) (mode : Interp) (prev : Option (Pt ℚ)) (s : Option ℚ) (p : Pt ℚ) : Option ℚ :=
  match p.2 with
  | none => s
  | some y =>
    match prev with
    | some (x0, some y0) => some (fl (s.getD 0 + segmentAreaR fl mode x0 y0 p.1 y))
    | _ => some (s.getD 0)

/-- The point before the last one seen, as the accumulated points find it. -/
theorem acc_previous (hm : minStepQ ≤ m) {acc : Pts ℚ} {seen : List (Pt ℚ)} {p : Pt ℚ} (h2 : Honest acc)
    (hx : acc.points.map Prod.fst = seen.map Prod.fst) (hg : Gapped m (seen ++ [p])) :
    acc.xPrevious (.fin p.1) (some minStepQ) = .ok (seen.getLast?.map fun q => .fin q.1) := by
  have h0 : (0 : ℚ) < minStepQ := by norm_num [minStepQ]
  have hasc : Ascending (seen ++ [p]) := ascending_of_gapped (h0.trans_le hm) hg
  obtain ⟨ha1, ha2, ha3⟩ := List.pairwise_append.1 hasc
  have hxmem : ∀ q ∈ acc.points, ∃ r ∈ seen, r.1 = q.1 := by
    intro q hq
    have : q.1 ∈ acc.points.map Prod.fst := List.mem_map_of_mem hq
    rw [hx] at this
    simpa using this
  have hxmem' : ∀ q ∈ seen, ∃ r ∈ acc.points, r.1 = q.1 := by
    intro q hq
    have : q.1 ∈ seen.map Prod.fst := List.mem_map_of_mem hq
    rw [← hx] at this
    simpa using this
  rcases Props.C07_x_previous h2 p.1 minStepQ with ⟨z, h3, ⟨q, hq, rfl, hle⟩, h4⟩ | ⟨h3, h4⟩
  · rw [h3]
    obtain ⟨r, hr, hrq⟩ := hxmem q hq
    cases hl : seen.getLast? with
    | none => rw [List.getLast?_eq_none_iff.1 hl] at hr; simp at hr
    | some w =>
      have hw := List.mem_of_getLast? hl
      have hgap := gapped_pair hg hl
      obtain ⟨w', hw', hww⟩ := hxmem' w hw
      have h5 : w.1 ≤ q.1 := h4 ⟨w', hw', hww, by linarith⟩
      have h6 : r.1 ≤ w.1 := le_getLast ha1 hl hr
      have : q.1 = w.1 := by linarith
      simp [this]
  · rw [h3]
    cases hl : seen.getLast? with
    | none => rfl
    | some w =>
      have hw := List.mem_of_getLast? hl
      have hgap := gapped_pair hg hl
      obtain ⟨w', hw', hww⟩ := hxmem' w hw
      have := h4 w' hw'
      linarith

theorem integralR_step (fl : ℚ → ℚ) (hm : minStepQ ≤ m) (mode : Interp) {src acc : Pts ℚ} {seen : List (Pt ℚ)}
    {p : Pt ℚ} (h1 : ∀ q ∈ seen, src.y (.fin q.1) = .ok q.2) (h2 : Honest acc)
    (hx : acc.points.map Prod.fst = seen.map Prod.fst) (hg : Gapped m (seen ++ [p])) :
    integralTfmR fl mode src acc p.1 p.2 (lastOut acc.points)
      = stepRule (areaStepR fl mode) (seen ++ [p]) acc.points := by
  simp only [stepRule, List.getLast?_append, List.getLast?_singleton, Option.some_or,
    List.dropLast_concat, integralTfmR, areaStepR]
  cases hy : p.2 with
  | none => rfl
  | some y =>
    rw [acc_previous hm h2 hx hg]
    cases hl : seen.getLast? with
    | none => rfl
    | some w =>
      have hw := List.mem_of_getLast? hl
      have hyw : src.y (.fin w.1) = .ok w.2 := h1 w hw
      obtain ⟨xw, yw⟩ := w
      simp only [Option.map_some, hyw]
      cases yw <;> rfl

theorem integralR_follows (fl : ℚ → ℚ) (hm : minStepQ ≤ m) (mode : Interp) :
    Follows m (integralTfmR fl mode) (stepRule (areaStepR fl mode)) := by
  intro src acc seen rest p h1 h2 hs hx hg
  refine integralR_step fl hm mode (fun q hq => Props.C01_stored_value h1 (by rw [hs]; simp [hq])) h2 hx ?_
  rw [hs] at hg
  exact List.IsChain.prefix hg ⟨rest, by simp⟩

/-- Without rounding it is the running area. -/
theorem areaStepR_id (mode : Interp) {q : Option (Pt ℚ)} {p : Pt ℚ} (s : Option ℚ) (h : ∀ w, q = some w → w.1 ≠ p.1) :
    areaStepR id mode q s p = areaStep mode q s p := by
  unfold areaStepR areaStep
  cases p.2 with
  | none => rfl
  | some y =>
    cases q with
    | none => rfl
    | some w =>
      obtain ⟨x0, y0⟩ := w
      cases y0 with
      | none => rfl
      | some y0 =>
        have := h _ rfl
        simp only [id, segmentAreaR_id mode y0 y this]

theorem areaBetween_bound (mode : Interp) {x0 y0 x y M : ℚ} (hx : x0 < x) (hM0 : |y0| ≤ M) (hM : |y| ≤ M) :
    |areaBetween mode x0 y0 x y| ≤ M * (x - x0) := by
  have hd : 0 < x - x0 := by linarith
  cases mode <;> simp only [areaBetween] <;> rw [abs_mul, abs_of_pos hd, mul_comm M] <;> gcongr
  rw [abs_div, abs_of_pos (by norm_num : (0 : ℚ) < 2)]
  have := abs_add_le y0 y
  linarith

/-- What a list of points has to be like. -/
structure Tame (fl : ℚ → ℚ) (l : List (Pt ℚ)) (X M δ : ℚ) : Prop where
  near : ∀ q ∈ l, |q.1| ≤ X
  values : ∀ q ∈ l, ∀ y, q.2 = some y → |y| ≤ M
  machine : MachineValues fl l
  gaps : l.IsChain fun p q => p.1 + δ ≤ q.1

theorem Tame.init {l : List (Pt ℚ)} {p : Pt ℚ} {X M δ : ℚ} (h : Tame fl (l ++ [p]) X M δ) : Tame fl l X M δ :=
  ⟨fun q hq => h.near q (by simp [hq]), fun q hq => h.values q (by simp [hq]), fun q hq => h.machine q (by simp [hq]),
    List.IsChain.left_of_append h.gaps⟩

/-- One more summand. -/
theorem sum_error (R : Rounding fl u) {n v w a a' e S : ℚ} (hn0 : 0 ≤ n) (hn : (2 * n + 1) * u ≤ 1)
    (h : |v - w| ≤ 2 * n * (e + u * S)) (ha : |a' - a| ≤ e) (hS : |w + a| ≤ S) :
    |fl (v + a') - (w + a)| ≤ 2 * (n + 1) * (e + u * S) := by
  have hu := R.nonneg
  have e0 : 0 ≤ e := le_trans (abs_nonneg _) ha
  have S0 : 0 ≤ S := le_trans (abs_nonneg _) hS
  have uS : 0 ≤ u * S := mul_nonneg hu S0
  obtain ⟨c, hc⟩ : ∃ c, c = e + u * S := ⟨_, rfl⟩
  rw [← hc] at h ⊢
  have d1 : |v + a' - (w + a)| ≤ 2 * n * c + e := by
    rw [add_sub_add_comm]
    exact (abs_add_le _ _).trans (by linarith)
  have d2 := R.product d1
  have d3 : u * (|w + a| + (2 * n * c + e)) ≤ u * (S + (2 * n * c + c)) :=
    mul_le_mul_of_nonneg_left (by linarith) hu
  have d4 : u * (2 * n * c + c) ≤ c := by
    have h1 : u * (2 * n * c + c) = ((2 * n + 1) * u) * c := by ring
    have h2 : ((2 * n + 1) * u) * c ≤ 1 * c := mul_le_mul_of_nonneg_right hn (by linarith)
    linarith
  linarith

theorem area_step (R : Rounding fl u) (mode : Interp) {x0 y0 x y X M δ w : ℚ} (hδ : 0 < δ) (hg : x0 + δ ≤ x)
    (hX0 : |x0| ≤ X) (hX : |x| ≤ X) (hM0 : |y0| ≤ M) (hM : |y| ≤ M) (hm0 : Machine fl y0) (hm : Machine fl y)
    (hw : |w| ≤ M * (x0 + X)) :
    |segmentAreaR fl mode x0 y0 x y - areaBetween mode x0 y0 x y| ≤ 98 * u * M * X ^ 2 / δ
      ∧ |w + areaBetween mode x0 y0 x y| ≤ M * (x + X) ∧ |w + areaBetween mode x0 y0 x y| ≤ 2 * M * X := by
  have hu := R.nonneg
  have hM' : 0 ≤ M := le_trans (abs_nonneg _) hM
  have hx : x0 < x := by linarith
  have bnd := areaBetween_bound mode hx hM0 hM
  have t := abs_add_le w (areaBetween mode x0 y0 x y)
  have e1 : M * (x0 + X) + M * (x - x0) = M * (x + X) := by ring
  have e2 : M * (x + X) ≤ 2 * M * X := by
    have h1 := mul_le_mul_of_nonneg_left (abs_le.1 hX).2 hM'
    linarith
  refine ⟨(C151_segment R mode hx hX0 hX hM0 hM hm0 hm).trans ?_, by linarith, by linarith⟩
  gcongr
  linarith

/-- The running area and the rounded one stay together. -/
theorem areaR_error (R : Rounding fl u) (mode : Interp) {X M δ : ℚ} (hM : 0 ≤ M) (hX : 0 ≤ X) (hδ : 0 < δ)
    {l : List (Pt ℚ)} (h : Tame fl l X M δ) (hn : (2 * (l.length : ℚ) + 1) * u ≤ 1) :
    (stepFold (areaStepR fl mode) none none l = none ∧ stepFold (areaStep mode) none none l = none)
    ∨ ∃ v w, stepFold (areaStepR fl mode) none none l = some v ∧ stepFold (areaStep mode) none none l = some w
        ∧ |v - w| ≤ 2 * (l.length : ℚ) * (98 * u * M * X ^ 2 / δ + u * (2 * M * X))
        ∧ ∀ p, l.getLast? = some p → |w| ≤ M * (p.1 + X) := by
  have hu := R.nonneg
  obtain ⟨c, hc, c0⟩ : ∃ c, c = 98 * u * M * X ^ 2 / δ + u * (2 * M * X) ∧ 0 ≤ c := ⟨_, rfl, by positivity⟩
  rw [← hc]
  induction l using List.reverseRecOn with
  | nil => exact .inl ⟨rfl, rfl⟩
  | append_singleton l p ih =>
    rw [List.length_append, List.length_singleton] at hn ⊢
    push_cast at hn ⊢
    have ih := ih h.init (by linarith)
    have hpX := h.near p (by simp)
    have hp0 : 0 ≤ M * (p.1 + X) := mul_nonneg hM (by linarith [(abs_le.1 hpX).1])
    have pt : ∀ r, (l ++ [p]).getLast? = some r → r = p := by simp
    rw [stepFold_snoc, stepFold_snoc]
    -- the last point is further on
    have gap : ∀ q, l.getLast? = some q → q.1 + δ ≤ p.1 := fun q hq => chain_last h.gaps hq
    have further : ∀ q, l.getLast? = some q → M * (q.1 + X) ≤ M * (p.1 + X) := fun q hq => by
      have := gap q hq
      gcongr
      linarith
    have grow : 2 * (l.length : ℚ) * c ≤ 2 * ((l.length : ℚ) + 1) * c :=
      mul_le_mul_of_nonneg_right (by linarith) c0
    have grow0 : 0 ≤ 2 * ((l.length : ℚ) + 1) * c := by positivity
    cases hy : p.2 with
    | none =>
      simp only [areaStepR, areaStep, hy]
      rcases ih with ih | ⟨v, w, h1, h2, h3, h4⟩
      · exact .inl ih
      · refine .inr ⟨v, w, h1, h2, h3.trans grow, fun r hr => ?_⟩
        rw [pt r hr]
        cases hq : l.getLast? with
        | none =>
          rw [List.getLast?_eq_none_iff.1 hq] at h1
          simp [stepFold] at h1
        | some q => exact (h4 q hq).trans (further q hq)
    | some y =>
      have hyM := h.values p (by simp) y hy
      -- before this point
      obtain ⟨v, w, h1, h2, h3, h4⟩ : ∃ v w, (stepFold (areaStepR fl mode) none none l).getD 0 = v
          ∧ (stepFold (areaStep mode) none none l).getD 0 = w ∧ |v - w| ≤ 2 * (l.length : ℚ) * c
          ∧ ∀ q, l.getLast? = some q → |w| ≤ M * (q.1 + X) := by
        rcases ih with ⟨i1, i2⟩ | ⟨v, w, i1, i2, i3, i4⟩
        · refine ⟨0, 0, by rw [i1]; rfl, by rw [i2]; rfl, ?_, fun q hq => ?_⟩
          · rw [sub_self, abs_zero]
            positivity
          · rw [abs_zero]
            have := (abs_le.1 (h.near q (by simp [List.mem_of_getLast? hq]))).1
            exact mul_nonneg hM (by linarith)
        · exact ⟨v, w, by rw [i1]; rfl, by rw [i2]; rfl, i3, i4⟩
      cases hq : l.getLast? with
      | none =>
        have hl := List.getLast?_eq_none_iff.1 hq
        subst hl
        refine .inr ⟨0, 0, ?_, ?_, ?_, fun r hr => ?_⟩
        · simp [areaStepR, hy, stepFold]
        · simp [areaStep, hy, stepFold]
        · rw [sub_self, abs_zero]
          exact grow0
        · rw [pt r hr, abs_zero]
          exact hp0
      | some q =>
        obtain ⟨x0, y0⟩ := q
        cases y0 with
        | none =>
          refine .inr ⟨v, w, ?_, ?_, h3.trans grow, fun r hr => ?_⟩
          · simp [areaStepR, hy, h1]
          · simp [areaStep, hy, h2]
          · rw [pt r hr]
            exact (h4 _ hq).trans (further _ hq)
        | some y0 =>
          have hqm : (x0, some y0) ∈ l ++ [p] := by simp [List.mem_of_getLast? hq]
          have hg : x0 + δ ≤ p.1 := gap _ hq
          have hX0 := h.near _ hqm
          have hw := h4 _ hq
          dsimp only at hX0 hw
          obtain ⟨seg, wa, wa2⟩ := area_step R mode hδ hg hX0 hpX (h.values _ hqm y0 rfl) hyM
            (h.machine _ hqm y0 rfl) (h.machine p (by simp) y hy) hw
          refine .inr ⟨fl (v + segmentAreaR fl mode x0 y0 p.1 y), w + areaBetween mode x0 y0 p.1 y, ?_, ?_, ?_,
            fun r hr => ?_⟩
          · simp [areaStepR, hy, h1]
          · simp [areaStep, hy, h2]
          · rw [hc] at h3 ⊢
            exact sum_error R (Nat.cast_nonneg _) (by linarith) h3 seg wa2
          · rw [pt r hr]
            exact wa

/-! ## The accumulator -/

theorem integralR_answer (hm : minStepQ ≤ m) (mode : Interp) (const : ℚ) (h : Used (integralTfmR fl mode) m i b A)
    {k : ℕ} {p : Pt ℚ} (hk : A.src.points[k]? = some p) :
    (integralQueryR fl mode const A (.fin p.1)).map Out.res =
      some (.ok ((stepFold (areaStepR fl mode) none none (A.src.points.take (k + 1))).map fun v => fl (v + const))) := by
  have h0 : (0 : ℚ) < minStepQ := by norm_num [minStepQ]
  have hf := integralR_follows fl hm mode
  obtain ⟨o, h1, h2, _⟩ := C46_fold_partial hf (h0.trans_le hm) h (.fin p.1)
  simp only [integralQueryR, h1, Option.map_some, h2,
    accumulatedAt_step _ i (Used.asc hf (h0.trans_le hm) h) hk, Except.map]

/-- **The integral at a point** is within `2 n (98 u M X² / δ + 2 u M X)` of the exact running area over the `n` points up to
there, whose values are up to `M`, positions up to `X` and distances at least `δ`. -/
theorem C151_error (R : Rounding fl u) (hm : minStepQ ≤ m) (mode : Interp) {X M δ : ℚ} (hM : 0 ≤ M) (hX : 0 ≤ X)
    (hδ : 0 < δ) (h : Used (integralTfmR fl mode) m i b A) {k : ℕ} {p : Pt ℚ} (hk : A.src.points[k]? = some p)
    (ht : Tame fl (A.src.points.take (k + 1)) X M δ) (hn : (2 * ((k : ℚ) + 1) + 1) * u ≤ 1) {w : ℚ}
    (hw : stepFold (areaStep mode) none none (A.src.points.take (k + 1)) = some w) :
    ∃ v, (integralQueryR fl mode 0 A (.fin p.1)).map Out.res = some (.ok (some (fl v)))
      ∧ |v - w| ≤ 2 * ((k : ℚ) + 1) * (98 * u * M * X ^ 2 / δ + u * (2 * M * X)) ∧ |w| ≤ 2 * M * X := by
  have hlen : (A.src.points.take (k + 1)).length = k + 1 := by
    have := (List.getElem?_eq_some_iff.1 hk).1
    rw [List.length_take]
    omega
  have hlast : (A.src.points.take (k + 1)).getLast? = some p := by
    rw [take_succ_of_getElem? hk]
    simp
  rcases areaR_error R mode hM hX hδ ht (by rw [hlen]; push_cast; exact hn) with ⟨_, h2⟩ | ⟨v, w', h1, h2, h3, h4⟩
  · rw [h2] at hw
    cases hw
  · rw [h2] at hw
    cases hw
    rw [hlen] at h3
    push_cast at h3
    refine ⟨v, by rw [integralR_answer hm mode 0 h hk, h1]; simp, h3, (h4 p hlast).trans ?_⟩
    have := (abs_le.1 (ht.near p (List.mem_of_getLast? hlast))).2
    nlinarith

/-- **The mean over a window** (`sma.py:88`) of length `L`, when the integrals at its ends are off by up to `E`. -/
theorem C151_mean (R : Rounding fl u) {v0 v1 w0 w1 L E : ℚ} (hL : 0 < L) (h0 : |v0 - w0| ≤ E) (h1 : |v1 - w1| ≤ E) :
    |fl (fl (v1 - v0) / fl L) - (w1 - w0) / L| ≤ (2 * E + 5 * u * (|w1 - w0| + 2 * E)) / L := by
  have hu := R.nonneg
  have e1 : |(v1 - v0) - (w1 - w0)| ≤ 2 * E := by
    have : (v1 - v0) - (w1 - w0) = (v1 - w1) - (v0 - w0) := by ring
    rw [this]
    exact (abs_sub _ _).trans (by linarith)
  have e2 : |v1 - v0| ≤ |w1 - w0| + 2 * E := by
    have := abs_add_le ((v1 - v0) - (w1 - w0)) (w1 - w0)
    rw [sub_add_cancel] at this
    linarith
  have r := R.ratio (v1 - v0) hL
  have e3 : |(v1 - v0) / L - (w1 - w0) / L| ≤ 2 * E / L := by
    rw [← sub_div, abs_div, abs_of_pos hL]
    gcongr
  have e4 : 5 * u * |(v1 - v0) / L| ≤ 5 * u * (|w1 - w0| + 2 * E) / L := by
    rw [abs_div, abs_of_pos hL, mul_div_assoc]
    gcongr
  have t := abs_add_le (fl (fl (v1 - v0) / fl L) - (v1 - v0) / L) ((v1 - v0) / L - (w1 - w0) / L)
  rw [sub_add_sub_cancel] at t
  rw [add_div]
  linarith

/-! ## Examples -/

/-- The answer of the integral after some queries. -/
def integralAfter (fl : ℚ → ℚ) (mode : Interp) (const : ℚ) (A : Accum) (x : Ext) : Option (Except Err (Option ℚ)) :=
  (integralQueryR fl mode const A x).map Out.res

/-- The hypotheses hold, and here nothing is lost. -/
example : Used (integralTfmR fl64 .linear) 1 .linear true (Accum.new (even .linear) 1)
    ∧ Tame fl64 (even .linear).points 4 5 2 ∧ (2 * ((2 : ℚ) + 1) + 1) * (1 / 2 ^ 53) ≤ 1
    ∧ integralAfter fl64 .linear 7 (Accum.new (even .linear) 1) (.fin 4) = some (.ok (some 22)) := by
  refine ⟨.new (even_honest .linear) (even_fit _ _), ⟨?_, ?_, ?_, ?_⟩, by norm_num, by decide +kernel⟩ <;>
    rw [even_points]
  · intro q hq
    simp [evenPts] at hq
    rcases hq with rfl | rfl | rfl <;> norm_num [abs_le]
  · intro q hq y hy
    simp [evenPts] at hq
    rcases hq with rfl | rfl | rfl <;> (cases hy; norm_num [abs_le])
  · intro q hq y hy
    simp [evenPts] at hq
    rcases hq with rfl | rfl | rfl <;> (cases hy; show fl64 _ = _; decide +kernel)
  · simp [evenPts]
    norm_num

/-- Steps: the area of a rectangle, and far from the origin it is still good. -/
example : segmentAreaR fl64 .previous 1600000000 1 1600000005 2 = 5
    ∧ segmentAreaR fl64 .next 1600000000 1 1600000005 2 = 10
    ∧ segmentAreaR fl64 .linear 0 1 5 2 = 15 / 2 := by
  refine ⟨?_, ?_, ?_⟩ <;> decide +kernel

/-- **The area is lost** at the positions of today's seconds: between the values `1` and `2`, five seconds apart, it is `0`
and not `15 / 2`, so that the mean of the values is below all of them. -/
theorem C151_negation :
    integralAfter fl64 .linear 0 (Accum.new (loose [(1600000000, some 1), (1600000005, some 2)]) 1 .linear false)
      (.fin 1600000005) = some (.ok (some 0))
    ∧ integralAfter id .linear 0 (Accum.new (loose [(1600000000, some 1), (1600000005, some 2)]) 1 .linear false)
      (.fin 1600000005) = some (.ok (some (15 / 2)))
    ∧ (∀ p ∈ [((1600000000 : ℚ), (1 : ℚ)), (1600000005, 2)], Machine fl64 p.1 ∧ Machine fl64 p.2) := by
  refine ⟨by decide +kernel, by decide +kernel, ?_⟩
  intro p hp
  simp at hp
  rcases hp with rfl | rfl <;> exact ⟨by show fl64 _ = _; decide +kernel, by show fl64 _ = _; decide +kernel⟩
/-! ## An instance of each theorem -/

example : |segmentAreaR fl64 .previous 0 3 (1 / 3) 2 - areaBetween .previous 0 3 (1 / 3) 2| ≤ 5 * (1 / 2 ^ 53) * 3 * 1 :=
  C151_step fl64_rounding (by decide) (by norm_num) (by norm_num) (by norm_num [abs_le]) (by norm_num [abs_le]) (by norm_num [abs_le])
    (by unfold Machine; decide +kernel) (by unfold Machine; decide +kernel)

example : |segmentAreaR fl64 .linear 1 3 (4 / 3) 2 - areaBetween .linear 1 3 (4 / 3) 2| ≤ 98 * (1 / 2 ^ 53) * 3 * 2 ^ 2 / (4 / 3 - 1) :=
  C151_segment fl64_rounding .linear (by norm_num) (by norm_num [abs_le]) (by norm_num [abs_le]) (by norm_num [abs_le])
    (by norm_num [abs_le]) (by unfold Machine; decide +kernel) (by unfold Machine; decide +kernel)

/-- A mean from two integrals that are off by a millionth. -/
example : |fl64 (fl64 (7000001 / 1000000 - 1) / fl64 3) - (7 - 1) / 3| ≤
    (2 * (1 / 10 ^ 6) + 5 * (1 / 2 ^ 53) * (|7 - 1| + 2 * (1 / 10 ^ 6))) / 3 :=
  C151_mean fl64_rounding (by norm_num) (by norm_num [abs_le]) (by norm_num [abs_le])

end Props
end Curvepy
