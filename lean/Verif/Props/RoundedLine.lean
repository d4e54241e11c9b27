import Verif.Model.RoundedLine
import Verif.Spec.RoundedLine
import Verif.Props.Float
import Verif.Lemmas.Rounding

/-!
# Property C153: lines with rounded arithmetic
-/

namespace Curvepy
namespace Spec
namespace Rounding
variable {fl : ℚ → ℚ} {u : ℚ} (R : Rounding fl u)
include R

theorem ne_zero {x : ℚ} (h : x ≠ 0) : fl x ≠ 0 := by
  rcases lt_or_gt_of_ne h with h | h
  · have := R.pos (neg_pos.2 h)
    rw [R.odd] at this
    intro hc
    rw [hc] at this
    exact absurd this (by norm_num)
  · exact (R.pos h).ne'

theorem nonpos_of {x : ℚ} (h : x ≤ 0) : fl x ≤ 0 := by
  have := R.nonneg_of (neg_nonneg.2 h)
  rw [R.odd] at this
  linarith

/-- The rounded slope. -/
theorem ratio_ne (a : ℚ) {d : ℚ} (hd : d ≠ 0) : |fl (fl a / fl d) - a / d| ≤ 5 * u * |a / d| := by
  rcases lt_or_gt_of_ne hd with h | h
  · have := R.ratio (-a) (neg_pos.2 h)
    rwa [R.odd, R.odd, neg_div_neg_eq, neg_div_neg_eq] at this
  · exact R.ratio a h

/-- The rounded line: any point of it. -/
theorem line_error (r a d h : ℚ) (hd : d ≠ 0) :
    |fl (r + fl (fl (fl a / fl d) * fl h)) - (r + a / d * h)| ≤ 9 * u * |a / d * h| + u * |r + a / d * h| := by
  have hu := R.nonneg
  have hs := R.small
  have e1 := R.ratio_ne a hd
  have e2 := R.err h
  set s := a / d
  set s' := fl (fl a / fl d)
  set h' := fl h
  have t0 : 0 ≤ |s * h| := abs_nonneg _
  have e3 : |s' * h' - s * h| ≤ 5 * u * ((1 + u) * |s * h|) + u * |s * h| := by
    have k1 : s' * h' - s * h = (s' - s) * h' + s * (h' - h) := by ring
    have k2 := abs_add_le ((s' - s) * h') (s * (h' - h))
    rw [← k1, abs_mul, abs_mul] at k2
    have k3 : |s' - s| * |h'| ≤ (5 * u * |s|) * ((1 + u) * |h|) :=
      mul_le_mul e1 (R.abs_le_mul h) (abs_nonneg _) (by positivity)
    have k4 : |s| * |h' - h| ≤ |s| * (u * |h|) := mul_le_mul_of_nonneg_left e2 (abs_nonneg _)
    rw [abs_mul]
    calc |s' * h' - s * h| ≤ |s' - s| * |h'| + |s| * |h' - h| := k2
      _ ≤ (5 * u * |s|) * ((1 + u) * |h|) + |s| * (u * |h|) := add_le_add k3 k4
      _ = 5 * u * ((1 + u) * (|s| * |h|)) + u * (|s| * |h|) := by ring
  set T := |s * h|
  have uT : 0 ≤ u * T := mul_nonneg hu t0
  have uuT : u * (u * T) ≤ 1 / 64 * (u * T) := mul_le_mul_of_nonneg_right hs uT
  have e4 : |s' * h' - s * h| ≤ 25 / 4 * (u * T) := by nlinarith
  have e5 : |fl (s' * h') - s * h| ≤ 8 * (u * T) := by
    have := R.product e4
    have e : u * (T + 25 / 4 * (u * T)) = u * T + 25 / 4 * (u * (u * T)) := by ring
    rw [show |s * h| = T from rfl, e] at this
    linarith
  have e6 : |(r + fl (s' * h')) - (r + s * h)| ≤ 8 * (u * T) := by
    rw [show (r + fl (s' * h')) - (r + s * h) = fl (s' * h') - s * h by ring]
    exact e5
  have := R.product e6
  have e : u * (|r + s * h| + 8 * (u * T)) = u * |r + s * h| + 8 * (u * (u * T)) := by ring
  rw [e] at this
  linarith

/-- A rounded line with a slope that is not negative. -/
theorem line_mono {s r x0 x x' : ℚ} (hs : 0 ≤ s) (h : x ≤ x') :
    fl (r + fl (s * fl (x - x0))) ≤ fl (r + fl (s * fl (x' - x0))) := by
  refine R.mono (add_le_add_right (R.mono (mul_le_mul_of_nonneg_left (R.mono ?_) hs)) r)
  linarith

theorem line_anti {s r x0 x x' : ℚ} (hs : s ≤ 0) (h : x ≤ x') :
    fl (r + fl (s * fl (x' - x0))) ≤ fl (r + fl (s * fl (x - x0))) := by
  refine R.mono (add_le_add_right (R.mono (mul_le_mul_of_nonpos_left (R.mono ?_) hs)) r)
  linarith

end Rounding
end Spec

namespace Props
open Spec Trend

/-- A rounded line through two points that are not above each other. -/
theorem throughR_y (fl : ℚ → ℚ) {p q : ℚ × ℚ} (h : q.1 ≠ p.1) (x : ℚ) :
    Line.yR fl (Line.throughR fl p q) (.fin x)
      = .fin (fl (p.2 + fl (fl (fl (q.2 - p.2) / fl (q.1 - p.1)) * fl (x - p.1)))) := by
  simp [Line.yR, Line.throughR, Line.slopeR, h, Num.sub, Num.neg, Num.add, Num.mul, Num.rounded, sub_eq_add_neg]

/-- The function of `trend.py` computes the same. -/
theorem C153_trend_same (fl : ℚ → ℚ) {p q : ℚ × ℚ} (h : q.1 ≠ p.1) (x : ℚ) :
    (lineYR fl (p, q) x).map Num.fin = some (Line.yR fl (Line.throughR fl p q) (.fin x)) := by
  rw [throughR_y fl h]
  simp [lineYR, h]

variable {fl : ℚ → ℚ} {u : ℚ}

/-! ## C153 -/

/-- C153: without rounding these are the lines of `Model/Line`. -/
theorem C153_exact {p q : ℚ × ℚ} {d : LineData} (h : Line.params { p1 := some p, p2 := some q } = .ok d) (x y : Num) :
    Line.throughR id p q = d ∧ Line.yR id d x = Line.y d x ∧ Line.xR id d y = Line.x d y := by
  have hr : ∀ n : Num, n.rounded id = n := fun n => by cases n <;> rfl
  refine ⟨?_, by simp only [Line.yR, Line.y, hr], by simp only [Line.xR, Line.x, hr]⟩
  simp only [Line.params, pure, Except.pure, bind, Except.bind] at h
  simp only [Line.throughR, Line.slopeR, id]
  by_cases h1 : q.1 = p.1
  · by_cases h2 : p.2 ≤ q.2
    · simp [h1, h2] at h ⊢; exact h
    · simp [h1, h2] at h ⊢; exact h
  · simp [h1] at h ⊢; exact h

/-- C153: without rounding the lines of trends, their tolerances, and the points and lines on them are those of `Model/Trend`. -/
theorem C153_trend_exact (t o : TLine) (l : Chord) (p : XY) (x : ℚ) (up : Bool) :
    lineYR id l x = lineY l x ∧ TLine.tolMinR id t x = t.tolMin x ∧ TLine.tolMaxR id t x = t.tolMax x ∧
      TLine.tolLineR id t up = TLine.tolLine t up ∧ TLine.onTrendR id t p = t.onTrend p ∧
      TLine.lineCoincidentR id t o = t.lineCoincident o := by
  have h1 : ∀ (l : Chord) (x : ℚ), lineYR id l x = lineY l x := fun _ _ => rfl
  have h2 : ∀ p : XY, TLine.onTrendR id t p = t.onTrend p := fun _ => rfl
  exact ⟨h1 l x, rfl, rfl, rfl, h2 p, rfl⟩

/-- C153: the first point of a line is exactly on it. -/
theorem C153_first (R : Rounding fl u) {p q : ℚ × ℚ} (hp : Machine fl p.2) (h : q.1 ≠ p.1) :
    Line.yR fl (Line.throughR fl p q) (.fin p.1) = .fin p.2 := by
  rw [throughR_y fl h, sub_self, R.zero, mul_zero, R.zero, add_zero, hp]

/-- C153: a line through points of the same height has exactly this height everywhere. -/
theorem C153_flat (R : Rounding fl u) {p q : ℚ × ℚ} (hp : Machine fl p.2) (h : q.1 ≠ p.1) (hy : q.2 = p.2) (x : ℚ) :
    Line.yR fl (Line.throughR fl p q) (.fin x) = .fin p.2 := by
  rw [throughR_y fl h, hy, sub_self, R.zero, zero_div, R.zero, zero_mul, R.zero, add_zero, hp]

/-- C153: a line through a point and a later one that is not lower never falls, in spite of the rounding. -/
theorem C153_rising (R : Rounding fl u) {p q : ℚ × ℚ} (h : p.1 < q.1) (hy : p.2 ≤ q.2) {x x' : ℚ} (hx : x ≤ x') :
    ∃ y y', Line.yR fl (Line.throughR fl p q) (.fin x) = .fin y ∧ Line.yR fl (Line.throughR fl p q) (.fin x') = .fin y'
      ∧ y ≤ y' := by
  refine ⟨_, _, throughR_y fl h.ne' x, throughR_y fl h.ne' x', R.line_mono (R.nonneg_of ?_) hx⟩
  exact div_nonneg (R.nonneg_of (by linarith)) (R.nonneg_of (by linarith))

/-- C153: a line through a point and a later one that is not higher never rises. -/
theorem C153_falling (R : Rounding fl u) {p q : ℚ × ℚ} (h : p.1 < q.1) (hy : q.2 ≤ p.2) {x x' : ℚ} (hx : x ≤ x') :
    ∃ y y', Line.yR fl (Line.throughR fl p q) (.fin x) = .fin y ∧ Line.yR fl (Line.throughR fl p q) (.fin x') = .fin y'
      ∧ y' ≤ y := by
  refine ⟨_, _, throughR_y fl h.ne' x, throughR_y fl h.ne' x', R.line_anti (R.nonpos_of ?_) hx⟩
  exact div_nonpos_of_nonpos_of_nonneg (R.nonpos_of (by linarith)) (R.nonneg_of (by linarith))

/-- C153: the error, at every position. -/
theorem C153_error (R : Rounding fl u) {p q : ℚ × ℚ} (h : q.1 ≠ p.1) (x : ℚ) :
    ∃ y, Line.yR fl (Line.throughR fl p q) (.fin x) = .fin y
      ∧ |y - straight p q x| ≤ 9 * u * |climb p q x| + u * |straight p q x| := by
  refine ⟨_, throughR_y fl h x, ?_⟩
  have := R.line_error p.2 (q.2 - p.2) (q.1 - p.1) (x - p.1) (sub_ne_zero.2 h)
  have e : climb p q x = (q.2 - p.2) / (q.1 - p.1) * (x - p.1) := by simp [climb, straight]
  rw [e]
  exact this

theorem straight_second {p q : ℚ × ℚ} (h : q.1 ≠ p.1) : straight p q q.1 = q.2 := by
  have := sub_ne_zero.2 h
  unfold straight
  field_simp
  ring

/-- C153: the error at the second point. -/
theorem C153_second (R : Rounding fl u) {p q : ℚ × ℚ} (h : q.1 ≠ p.1) :
    ∃ y, Line.yR fl (Line.throughR fl p q) (.fin q.1) = .fin y ∧ |y - q.2| ≤ 9 * u * |q.2 - p.2| + u * |q.2| := by
  obtain ⟨y, h1, h2⟩ := C153_error R h q.1
  rw [climb, straight_second h] at h2
  exact ⟨y, h1, h2⟩

/-- C153: `Line.x` gives the first point back, and it keeps the order as well. -/
theorem C153_inverse (R : Rounding fl u) {p q : ℚ × ℚ} (hp : Machine fl p.1) (h : p.1 < q.1) (hy : p.2 < q.2) :
    Line.xR fl (Line.throughR fl p q) (.fin p.2) = .ok (.fin p.1)
      ∧ ∀ {y y' : ℚ}, y ≤ y' → ∃ x x', Line.xR fl (Line.throughR fl p q) (.fin y) = .ok (.fin x)
        ∧ Line.xR fl (Line.throughR fl p q) (.fin y') = .ok (.fin x') ∧ x ≤ x' := by
  have hs : 0 < fl (fl (q.2 - p.2) / fl (q.1 - p.1)) :=
    R.pos (div_pos (R.pos (by linarith)) (R.pos (by linarith)))
  have key : ∀ y : ℚ, Line.xR fl (Line.throughR fl p q) (.fin y)
      = .ok (.fin (fl (p.1 + fl (fl (y - p.2) / fl (fl (q.2 - p.2) / fl (q.1 - p.1)))))) := by
    intro y
    simp [Line.xR, Line.throughR, Line.slopeR, h.ne', Num.sub, Num.neg, Num.add, Num.div, Num.rounded, sub_eq_add_neg,
      bind, Except.bind, pure, Except.pure]
    rw [← sub_eq_add_neg, ← sub_eq_add_neg, if_neg hs.ne']
  refine ⟨?_, ?_⟩
  · rw [key, sub_self, R.zero, zero_div, R.zero, add_zero, hp]
  · intro y y' hyy
    refine ⟨_, _, key y, key y', R.mono (add_le_add_right (R.mono (div_le_div_of_nonneg_right (R.mono ?_) hs.le)) _)⟩
    linarith

/-- **The second point of a line is not always on it**: the line through `(0, 0)` and `(49, 1)` is below `1` at `49`. -/
theorem C153_negation :
    ∃ y, Line.yR fl64 (Line.throughR fl64 (0, 0) (49, 1)) (.fin 49) = .fin y ∧ y < 1
      ∧ MachinePoint fl64 (0, 0) ∧ MachinePoint fl64 (49, 1) := by
  refine ⟨1 - 1 / 2 ^ 53, by decide +kernel, by norm_num, ⟨?_, ?_⟩, ⟨?_, ?_⟩⟩ <;> (show fl64 _ = _; decide +kernel)

/-- **`Line.x` does not undo `Line.y`**: on the line through `(0, 0)` and `(7, 1)`, from `29`. -/
theorem C153_inverse_negation :
    Line.xR fl64 (Line.throughR fl64 (0, 0) (7, 1)) (Line.yR fl64 (Line.throughR fl64 (0, 0) (7, 1)) (.fin 29))
      ≠ .ok (.fin 29) := by
  decide +kernel

/-! ## Trends -/

/-- A line of a trend whose tolerance lines are those of `_calculate_trend_tolerance_line`. -/
structure Drawn (fl : ℚ → ℚ) (t : TLine) (p q : XY) : Prop where
  line : t.line = some (p, q)
  upper : t.tolLineR fl true = .ok t.tolUpper
  lower : t.tolLineR fl false = .ok t.tolLower
  two : 2 ≤ t.trend.length
  order : p.1 < q.1
  first : t.search.contains (.fin p.1) = true
  last : t.search.contains (.fin q.1) = true

theorem Drawn.chords {t : TLine} {p q : XY} (h : Drawn fl t p q) :
    t.tolUpper = some ((p.1, t.tolMaxR fl p.2), (q.1, t.tolMaxR fl q.2))
      ∧ t.tolLower = some ((p.1, t.tolMinR fl p.2), (q.1, t.tolMinR fl q.2)) := by
  have hu := h.upper
  have hl := h.lower
  have h2 := h.two
  simp only [TLine.tolLineR, if_neg (by omega : ¬ t.trend.length < 2), h.line, need, bind, Except.bind, pure, Except.pure,
    if_true, Bool.false_eq_true, if_false, Except.ok.injEq] at hu hl
  exact ⟨hu.symm, hl.symm⟩

theorem onTrendR_of {t : TLine} {p q z : XY} (h : Drawn fl t p q) (hz : t.search.contains (.fin z.1) = true) {lo hi : ℚ}
    (h1 : lineYR fl ((p.1, t.tolMinR fl p.2), (q.1, t.tolMinR fl q.2)) z.1 = some lo)
    (h2 : lineYR fl ((p.1, t.tolMaxR fl p.2), (q.1, t.tolMaxR fl q.2)) z.1 = some hi) (h3 : lo ≤ z.2) (h4 : z.2 ≤ hi) :
    t.onTrendR fl z = .ok true := by
  obtain ⟨hu, hl⟩ := h.chords
  simp [TLine.onTrendR, h.line, hz, hu, hl, h1, h2, need, bind, Except.bind, pure, Except.pure, h3, h4]

theorem lineYR_first (R : Rounding fl u) {p q : XY} (hp : Machine fl p.2) (h : p.1 < q.1) :
    lineYR fl (p, q) p.1 = some p.2 := by
  simp only [lineYR, if_neg h.ne', sub_self, R.zero, mul_zero, add_zero]
  rw [hp]

theorem lineYR_second (R : Rounding fl u) {p q : XY} (h : p.1 < q.1) :
    ∃ y, lineYR fl (p, q) q.1 = some y ∧ |y - q.2| ≤ 9 * u * |q.2 - p.2| + u * |q.2| := by
  obtain ⟨y, h1, h2⟩ := C153_second R h.ne'
  have := C153_trend_same fl h.ne' q.1
  rw [h1] at this
  cases hl : lineYR fl (p, q) q.1 with
  | none => rw [hl] at this; cases this
  | some w =>
    rw [hl] at this
    simp only [Option.map_some, Option.some.injEq, Num.fin.injEq] at this
    exact ⟨w, rfl, this ▸ h2⟩

/-- C153: with an absolute tolerance that is not below the rounding errors, both ends of a line of a trend are on the trend,
so that the line coincides with itself. -/
theorem C153_own_ends (R : Rounding fl u) {t : TLine} {p q : XY} (h : Drawn fl t p q) {a M : ℚ} (ha : t.yAbs = some a)
    (hr : t.yRel = none) (hp : Machine fl p.2) (hq : Machine fl q.2) (h1 : |p.2| ≤ M) (h2 : |q.2| ≤ M) (haM : a ≤ M)
    (hlow : 64 * u * M ≤ a) :
    t.onTrendR fl p = .ok true ∧ t.onTrendR fl q = .ok true ∧ t.lineCoincidentR fl t = .ok true := by
  have hu := R.nonneg
  have hs := R.small
  have hM : 0 ≤ M := le_trans (abs_nonneg _) h1
  have uM : 0 ≤ u * M := mul_nonneg hu hM
  have a0 : 0 ≤ a := by nlinarith
  have emax : ∀ y, t.tolMaxR fl y = fl (y + a) := by intro y; simp [TLine.tolMaxR, ha, hr]
  have emin : ∀ y, t.tolMinR fl y = fl (y - a) := by intro y; simp [TLine.tolMinR, ha, hr]
  have c1 : t.onTrendR fl p = .ok true := by
    refine onTrendR_of h h.first (lineYR_first R (p := (p.1, t.tolMinR fl p.2)) ?_ h.order)
      (lineYR_first R (p := (p.1, t.tolMaxR fl p.2)) ?_ h.order) ?_ ?_
    · rw [emin]; exact R.machine _
    · rw [emax]; exact R.machine _
    · show t.tolMinR fl p.2 ≤ p.2
      rw [emin]; exact R.le_of hp (by linarith)
    · show p.2 ≤ t.tolMaxR fl p.2
      rw [emax]; exact R.ge_of hp (by linarith)
  -- sizes of the ends of the tolerance lines
  have size : ∀ y b : ℚ, |y| ≤ M → |b| ≤ M → |fl (y + b)| ≤ 3 * M ∧ |fl (y + b) - (y + b)| ≤ 2 * (u * M) := by
    intro y b hy hb
    have k1 : |y + b| ≤ 2 * M := by have := abs_add_le y b; linarith
    have k2 := R.abs_le_mul (y + b)
    have k3 : u * |y + b| ≤ u * (2 * M) := mul_le_mul_of_nonneg_left k1 hu
    have k4 : u * (2 * M) ≤ 1 / 64 * (2 * M) := mul_le_mul_of_nonneg_right hs (by linarith)
    have k5 := R.err (y + b)
    exact ⟨by linarith, by linarith⟩
  have bound : ∀ b c : ℚ, |b| ≤ 3 * M → |c| ≤ 3 * M → 9 * u * |c - b| + u * |c| ≤ 57 * (u * M) := by
    intro b c hb hc
    have k1 : |c - b| ≤ 6 * M := by have := abs_sub c b; linarith
    have k2 : u * |c - b| ≤ u * (6 * M) := mul_le_mul_of_nonneg_left k1 hu
    have k3 : u * |c| ≤ u * (3 * M) := mul_le_mul_of_nonneg_left hc hu
    linarith
  have ab : |a| ≤ M := by rw [abs_of_nonneg a0]; exact haM
  have ab' : |-a| ≤ M := by rw [abs_neg]; exact ab
  have c2 : t.onTrendR fl q = .ok true := by
    obtain ⟨lo, l1, l2⟩ := lineYR_second R (p := (p.1, t.tolMinR fl p.2)) (q := (q.1, t.tolMinR fl q.2)) h.order
    obtain ⟨hi, i1, i2⟩ := lineYR_second R (p := (p.1, t.tolMaxR fl p.2)) (q := (q.1, t.tolMaxR fl q.2)) h.order
    simp only [emin] at l2
    simp only [emax] at i2
    obtain ⟨s1, -⟩ := size p.2 (-a) h1 ab'
    obtain ⟨s2, s3⟩ := size q.2 (-a) h2 ab'
    obtain ⟨s4, -⟩ := size p.2 a h1 ab
    obtain ⟨s5, s6⟩ := size q.2 a h2 ab
    simp only [← sub_eq_add_neg] at s1 s2 s3
    have b1 := bound _ _ s1 s2
    have b2 := bound _ _ s4 s5
    have l3 := (abs_le.1 (le_trans l2 b1)).2
    have i3 := (abs_le.1 (le_trans i2 b2)).1
    have s7 := (abs_le.1 s3).2
    have s8 := (abs_le.1 s6).1
    exact onTrendR_of h h.last l1 i1 (by linarith) (by linarith)
  refine ⟨c1, c2, ?_⟩
  simp [TLine.lineCoincidentR, h.line, need, bind, Except.bind, pure, Except.pure, c1, c2]

/-- A trend line with the tolerances `r` and `a`. -/
def drawnLine (l : Chord) (r a : Option ℚ) : TLine :=
  let t := { TLine.new 0 true 2 0 0 r a 1 with line := some l, trend := [l.1, l.2], search := Iv.infinite }
  { t with tolUpper := some ((l.1.1, t.tolMaxR fl64 l.1.2), (l.2.1, t.tolMaxR fl64 l.2.2)),
           tolLower := some ((l.1.1, t.tolMinR fl64 l.1.2), (l.2.1, t.tolMinR fl64 l.2.2)) }

theorem drawnLine_drawn {p q : XY} (h : p.1 < q.1) (r a : Option ℚ) : Drawn fl64 (drawnLine (p, q) r a) p q :=
  ⟨rfl, rfl, rfl, by simp [drawnLine], h, rfl, rfl⟩

/-- **Without a tolerance a line of a trend does not coincide with itself**: its second end is not on it. -/
theorem C153_coincident_negation :
    Drawn fl64 (drawnLine ((0, 0), (49, 1)) none none) (0, 0) (49, 1)
      ∧ (drawnLine ((0, 0), (49, 1)) none none).onTrendR fl64 (49, 1) = .ok false
      ∧ (drawnLine ((0, 0), (49, 1)) none none).lineCoincidentR fl64 (drawnLine ((0, 0), (49, 1)) none none) = .ok false :=
  ⟨drawnLine_drawn (by norm_num) _ _, by decide +kernel, by decide +kernel⟩

/-! ## Examples -/

/-- The hypotheses of `C153_own_ends` hold. -/
example : (drawnLine ((0, 0), (49, 1)) none (some (1 / 64))).lineCoincidentR fl64
    (drawnLine ((0, 0), (49, 1)) none (some (1 / 64))) = .ok true :=
  (C153_own_ends fl64_rounding (drawnLine_drawn (p := (0, 0)) (q := (49, 1)) (by norm_num) _ _) (a := 1 / 64) (M := 1) rfl rfl
    (by show fl64 _ = _; decide +kernel) (by show fl64 _ = _; decide +kernel) (by norm_num) (by norm_num) (by norm_num)
    (by norm_num)).2.2

/-- A line that rises, on both sides of its first point. -/
example : Line.yR fl64 (Line.throughR fl64 (1, 2) (3, 8)) (.fin (-1)) = .fin (-4)
    ∧ Line.yR fl64 (Line.throughR fl64 (1, 2) (3, 8)) (.fin 5) = .fin 14
    ∧ Line.xR fl64 (Line.throughR fl64 (1, 2) (3, 8)) (.fin 8) = .ok (.fin 3)
    ∧ straight (1, 2) (3, 8) 5 = 14 ∧ climb (1, 2) (3, 8) 5 = 12 := by
  refine ⟨by decide +kernel, by decide +kernel, by decide +kernel, ?_, ?_⟩ <;> norm_num [straight, climb]

/-- Above each other: the slope is infinite. -/
example : Line.throughR fl64 (1, 2) (1, 8) = ⟨(1, 2), .pinf⟩ ∧ Line.throughR fl64 (1, 2) (1, -8) = ⟨(1, 2), .ninf⟩ := by
  decide +kernel

/-- With relative tolerances: the narrower of the two. -/
example : (drawnLine ((0, 1), (4, 2)) (some (1 / 4)) (some 1)).tolUpper = some ((0, 5 / 4), (4, 5 / 2))
    ∧ (drawnLine ((0, 1), (4, 2)) (some (1 / 4)) (some 1)).tolLower = some ((0, 3 / 4), (4, 3 / 2))
    ∧ (drawnLine ((0, 1), (4, 2)) (some (1 / 4)) none).tolLower = some ((0, 3 / 4), (4, 3 / 2)) := by
  decide +kernel

/-! ### An instance of each theorem -/

-- `C153_first`, `C153_second`: the line through `(0, 1/4)` and `(49, 1)`
example : Line.yR fl64 (Line.throughR fl64 (0, 1 / 4) (49, 1)) (.fin 0) = .fin (1 / 4)
    ∧ ∃ y, Line.yR fl64 (Line.throughR fl64 (0, 1 / 4) (49, 1)) (.fin 49) = .fin y ∧ |y - 1| ≤ 31 / 4 / 2 ^ 53 := by
  refine ⟨C153_first fl64_rounding (p := (0, 1 / 4)) (q := (49, 1)) (by show fl64 _ = _; decide +kernel) (by norm_num), ?_⟩
  obtain ⟨y, h, h'⟩ := C153_second fl64_rounding (p := (0, 1 / 4)) (q := (49, 1)) (by norm_num)
  refine ⟨y, h, h'.trans ?_⟩
  norm_num [abs_of_pos]

-- `C153_flat`
example (x : ℚ) : Line.yR fl64 (Line.throughR fl64 (0, 3) (49, 3)) (.fin x) = .fin 3 :=
  C153_flat fl64_rounding (p := (0, 3)) (q := (49, 3)) (by show fl64 _ = _; decide +kernel) (by norm_num) rfl x

-- `C153_rising`, `C153_falling`
example : (∃ y y', Line.yR fl64 (Line.throughR fl64 (0, 0) (49, 1)) (.fin (1 / 3)) = .fin y
      ∧ Line.yR fl64 (Line.throughR fl64 (0, 0) (49, 1)) (.fin (2 / 5)) = .fin y' ∧ y ≤ y')
    ∧ ∃ y y', Line.yR fl64 (Line.throughR fl64 (0, 1) (49, 0)) (.fin (1 / 3)) = .fin y
      ∧ Line.yR fl64 (Line.throughR fl64 (0, 1) (49, 0)) (.fin (2 / 5)) = .fin y' ∧ y' ≤ y :=
  ⟨C153_rising fl64_rounding (p := (0, 0)) (q := (49, 1)) (by norm_num) (by norm_num) (by norm_num),
    C153_falling fl64_rounding (p := (0, 1)) (q := (49, 0)) (by norm_num) (by norm_num) (by norm_num)⟩

-- `C153_error`
example : ∃ y, Line.yR fl64 (Line.throughR fl64 (0, 0) (49, 1)) (.fin 7) = .fin y ∧ |y - 1 / 7| ≤ 10 / 7 / 2 ^ 53 := by
  obtain ⟨y, h, h'⟩ := C153_error fl64_rounding (p := (0, 0)) (q := (49, 1)) (by norm_num) 7
  refine ⟨y, h, ?_⟩
  have e : straight (0, 0) (49, 1) 7 = 1 / 7 := by norm_num [straight, climb]
  have e' : climb (0, 0) (49, 1) 7 = 1 / 7 := by norm_num [straight, climb]
  rw [e, e'] at h'
  refine h'.trans ?_
  norm_num [abs_of_pos]

-- `C153_inverse`
example : Line.xR fl64 (Line.throughR fl64 (2, 0) (49, 1)) (.fin 0) = .ok (.fin 2)
    ∧ ∃ x x', Line.xR fl64 (Line.throughR fl64 (2, 0) (49, 1)) (.fin (1 / 3)) = .ok (.fin x)
      ∧ Line.xR fl64 (Line.throughR fl64 (2, 0) (49, 1)) (.fin (2 / 5)) = .ok (.fin x') ∧ x ≤ x' := by
  have := C153_inverse fl64_rounding (p := (2, 0)) (q := (49, 1)) (by show fl64 _ = _; decide +kernel) (by norm_num) (by norm_num)
  exact ⟨this.1, this.2 (by norm_num)⟩

-- `C153_trend_same`, `C153_exact`
example : (lineYR fl64 ((0, 0), (49, 1)) 7).map Num.fin = some (Line.yR fl64 (Line.throughR fl64 (0, 0) (49, 1)) (.fin 7))
    ∧ Line.throughR id (0, 0) (49, 1) = ⟨(0, 0), .fin (1 / 49)⟩ := by
  refine ⟨C153_trend_same fl64 (p := (0, 0)) (q := (49, 1)) (by norm_num) 7, ?_⟩
  exact (C153_exact (p := (0, 0)) (q := (49, 1)) (d := ⟨(0, 0), .fin (1 / 49)⟩) (by decide +kernel) (.fin 0) (.fin 0)).1

end Props
end Curvepy
