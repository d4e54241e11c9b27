import Verif.Spec.Rounding
import Mathlib.Tactic.Positivity
import Mathlib.Tactic.FieldSimp
import Mathlib.Tactic.Ring
import Mathlib.Tactic.NormNum

/-!
# Lemmas about rounding
-/

namespace Curvepy
namespace Spec
namespace Rounding

variable {fl : ℚ → ℚ} {u : ℚ} (R : Rounding fl u)
include R

theorem zero : fl 0 = 0 := by
  have := R.odd 0
  rw [neg_zero] at this
  linarith

theorem nonneg_of {x : ℚ} (h : 0 ≤ x) : 0 ≤ fl x := by
  have := R.mono h
  rwa [R.zero] at this

theorem bounds {x : ℚ} (h : 0 ≤ x) : (1 - u) * x ≤ fl x ∧ fl x ≤ (1 + u) * x := by
  have := R.err x
  rw [abs_of_nonneg h, abs_le] at this
  constructor <;> linarith

theorem pos {x : ℚ} (h : 0 < x) : 0 < fl x := by
  have := (R.bounds h.le).1
  have hu := R.small
  have : 0 < (1 - u) * x := by apply mul_pos _ h; linarith
  linarith

theorem abs_le_mul (x : ℚ) : |fl x| ≤ (1 + u) * |x| := by
  have h1 := R.err x
  have h2 : |fl x| ≤ |fl x - x| + |x| := by
    have := abs_add_le (fl x - x) x
    rwa [sub_add_cancel] at this
  linarith

theorem le_of {x y : ℚ} (hy : Machine fl y) (h : x ≤ y) : fl x ≤ y := by
  have := R.mono h
  rwa [hy] at this

theorem ge_of {x y : ℚ} (hy : Machine fl y) (h : y ≤ x) : y ≤ fl x := by
  have := R.mono h
  rwa [hy] at this

theorem machine (x : ℚ) : Machine fl (fl x) := R.idem x

/-- The quotient of two rounded numbers, not negative. -/
theorem ratio_nonneg {a d : ℚ} (ha : 0 ≤ a) (hd : 0 < d) : |fl (fl a / fl d) - a / d| ≤ 5 * u * (a / d) := by
  have hu := R.nonneg
  have hs := R.small
  have hd' := R.pos hd
  have ha' := R.nonneg_of ha
  have h0 : 0 ≤ fl a / fl d := div_nonneg ha' hd'.le
  obtain ⟨a1, a2⟩ := R.bounds ha
  obtain ⟨d1, d2⟩ := R.bounds hd.le
  obtain ⟨q1, q2⟩ := R.bounds h0
  set t := a / d with ht
  have hat : a = t * d := by rw [ht]; field_simp
  have t0 : 0 ≤ t := div_nonneg ha hd.le
  set w := fl a / fl d with hw
  have hwa : fl a = w * fl d := by rw [hw]; field_simp
  -- (1 - u) t d ≤ w (1 + u) d and w (1 - u) d ≤ (1 + u) t d
  have e1 : (1 - u) * t ≤ (1 + u) * w := by
    have : (1 - u) * t * d ≤ (1 + u) * w * d := by
      calc (1 - u) * t * d = (1 - u) * a := by rw [hat]; ring
        _ ≤ fl a := a1
        _ = w * fl d := hwa
        _ ≤ w * ((1 + u) * d) := by gcongr
        _ = (1 + u) * w * d := by ring
    exact le_of_mul_le_mul_right this hd
  have e2 : (1 - u) * w ≤ (1 + u) * t := by
    have : (1 - u) * w * d ≤ (1 + u) * t * d := by
      calc (1 - u) * w * d = w * ((1 - u) * d) := by ring
        _ ≤ w * fl d := by gcongr
        _ = fl a := hwa.symm
        _ ≤ (1 + u) * a := a2
        _ = (1 + u) * t * d := by rw [hat]; ring
    exact le_of_mul_le_mul_right this hd
  have ut : 0 ≤ u * t := mul_nonneg hu t0
  have uw : 0 ≤ u * w := mul_nonneg hu h0
  have w2 : w ≤ 2 * t := by nlinarith
  have uw2 : u * w ≤ u * (2 * t) := mul_le_mul_of_nonneg_left w2 hu
  have uut : u * (u * t) ≤ 1 / 64 * (u * t) := mul_le_mul_of_nonneg_right hs ut
  have uuw : u * (u * w) ≤ 1 / 64 * (u * w) := mul_le_mul_of_nonneg_right hs uw
  -- w - t
  have w1 : w ≤ t + 3 * (u * t) := by nlinarith
  have w3 : t - 2 * (u * t) ≤ w := by nlinarith
  have uw3 : u * w ≤ u * t + 3 * (u * (u * t)) := by nlinarith
  rw [abs_le]
  constructor <;> nlinarith

/-- The quotient of two rounded numbers. -/
theorem ratio (a : ℚ) {d : ℚ} (hd : 0 < d) : |fl (fl a / fl d) - a / d| ≤ 5 * u * |a / d| := by
  rcases le_total 0 a with h | h
  · rw [abs_of_nonneg (div_nonneg h hd.le)]
    exact R.ratio_nonneg h hd
  · have k := R.ratio_nonneg (neg_nonneg.2 h) hd
    rw [R.odd, neg_div, neg_div, R.odd, ← neg_sub', abs_neg] at k
    rw [abs_of_nonpos (div_nonpos_of_nonpos_of_nonneg h hd.le)]
    exact k

/-- The quotient of two rounded numbers, the first not above the second. -/
theorem quotient {a d : ℚ} (ha : 0 ≤ a) (had : a ≤ d) (hd : 0 < d) :
    0 ≤ fl (fl a / fl d) ∧ fl (fl a / fl d) ≤ 1 ∧ |fl (fl a / fl d) - a / d| ≤ 5 * u * (a / d) := by
  have hd' := R.pos hd
  have ha' := R.nonneg_of ha
  have h1 : fl a / fl d ≤ 1 := (div_le_one hd').2 (R.mono had)
  have h0 : 0 ≤ fl a / fl d := div_nonneg ha' hd'.le
  exact ⟨R.nonneg_of h0, R.le_of R.one h1, R.ratio_nonneg ha hd⟩

/-- A whole number plus a fraction of two rounded numbers. -/
theorem index {k a d : ℚ} (hk : 0 ≤ k) (m0 : Machine fl k) (m1 : Machine fl (k + 1)) (ha : 0 ≤ a) (had : a ≤ d)
    (hd : 0 < d) :
    k ≤ fl (k + fl (fl a / fl d)) ∧ fl (k + fl (fl a / fl d)) ≤ k + 1
      ∧ |fl (k + fl (fl a / fl d)) - k - a / d| ≤ (k + 6) * u := by
  obtain ⟨q0, q1, q2⟩ := R.quotient ha had hd
  set t := fl (fl a / fl d) with ht
  have hu := R.nonneg
  have h1 : a / d ≤ 1 := (div_le_one hd).2 had
  refine ⟨R.ge_of m0 (by linarith), R.le_of m1 (by linarith), ?_⟩
  have e := R.err (k + t)
  rw [abs_of_nonneg (by linarith : (0 : ℚ) ≤ k + t)] at e
  have e2 : u * (k + t) ≤ u * (k + 1) := mul_le_mul_of_nonneg_left (by linarith) hu
  have e3 : 5 * u * (a / d) ≤ 5 * u * 1 := mul_le_mul_of_nonneg_left h1 (by linarith)
  have e4 : fl (k + t) - k - a / d = (fl (k + t) - (k + t)) + (t - a / d) := by ring
  rw [e4]
  calc |(fl (k + t) - (k + t)) + (t - a / d)| ≤ |fl (k + t) - (k + t)| + |t - a / d| := abs_add_le _ _
    _ ≤ u * (k + 1) + 5 * u * 1 := by linarith
    _ = (k + 6) * u := by ring

/-- The product of two numbers. -/
theorem product {x y e : ℚ} (h : |x - y| ≤ e) : |fl x - y| ≤ e + u * (|y| + e) := by
  have h1 := R.err x
  have h2 : |x| ≤ |y| + e := by
    have := abs_add_le (x - y) y
    rw [sub_add_cancel] at this
    linarith
  have h3 : |fl x - y| ≤ |fl x - x| + |x - y| := by
    have := abs_add_le (fl x - x) (x - y)
    rwa [sub_add_sub_cancel] at this
  have h4 : u * |x| ≤ u * (|y| + e) := mul_le_mul_of_nonneg_left h2 R.nonneg
  linarith

/-- The value between two values. -/
theorem lerp {t a b M : ℚ} (t0 : 0 ≤ t) (t1 : t ≤ 1) (ha : |a| ≤ M) (hb : |b| ≤ M) :
    |fl (fl (fl (1 - t) * a) + fl (t * b)) - ((1 - t) * a + t * b)| ≤ 4 * u * M := by
  have hu := R.nonneg
  have hs := R.small
  have hM : 0 ≤ M := le_trans (abs_nonneg _) ha
  have s0 : 0 ≤ 1 - t := by linarith
  -- the first product
  have p1 : |fl (1 - t) * a - (1 - t) * a| ≤ u * ((1 - t) * M) := by
    rw [← sub_mul, abs_mul]
    have := R.err (1 - t)
    rw [abs_of_nonneg s0] at this
    calc |fl (1 - t) - (1 - t)| * |a| ≤ u * (1 - t) * M := by gcongr
      _ = _ := by ring
  have p2 := R.product p1
  have p3 : |(1 - t) * a| ≤ (1 - t) * M := by rw [abs_mul, abs_of_nonneg s0]; gcongr
  have p4 := R.err (t * b)
  have p5 : |t * b| ≤ t * M := by rw [abs_mul, abs_of_nonneg t0]; gcongr
  set A := (1 - t) * M with hA
  set B := t * M with hB
  have hA0 : 0 ≤ A := mul_nonneg s0 hM
  have hB0 : 0 ≤ B := mul_nonneg t0 hM
  have hAB : A + B = M := by rw [hA, hB]; ring
  have hua : 0 ≤ u * A := mul_nonneg hu hA0
  have hub : 0 ≤ u * B := mul_nonneg hu hB0
  have p6 : |fl (fl (1 - t) * a) - (1 - t) * a| ≤ 2 * (u * A) + u * (u * A) := by
    have : u * (|(1 - t) * a| + u * A) ≤ u * (A + u * A) := mul_le_mul_of_nonneg_left (by linarith) hu
    linarith
  have p7 : |fl (t * b) - t * b| ≤ u * B := le_trans p4 (mul_le_mul_of_nonneg_left p5 hu)
  have p8 : |fl (fl (1 - t) * a) + fl (t * b) - ((1 - t) * a + t * b)| ≤ 2 * (u * A) + u * (u * A) + u * B := by
    have := abs_add_le (fl (fl (1 - t) * a) - (1 - t) * a) (fl (t * b) - t * b)
    have e : fl (fl (1 - t) * a) - (1 - t) * a + (fl (t * b) - t * b)
        = fl (fl (1 - t) * a) + fl (t * b) - ((1 - t) * a + t * b) := by ring
    rw [e] at this
    linarith
  have p9 : |fl (fl (1 - t) * a) + fl (t * b) - ((1 - t) * a + t * b)| ≤ 2 * (u * M) + u * (u * M) := by
    rw [← hAB]
    have : 0 ≤ u * (u * B) := mul_nonneg hu hub
    nlinarith
  have p10 := R.product p9
  have p11 : |(1 - t) * a + t * b| ≤ M := by
    have := abs_add_le ((1 - t) * a) (t * b)
    linarith
  have huM : 0 ≤ u * M := mul_nonneg hu hM
  have q1 : u * (u * M) ≤ 1 / 64 * (u * M) := mul_le_mul_of_nonneg_right hs huM
  have q2 : u * (u * (u * M)) ≤ 1 / 64 * (u * (u * M)) := mul_le_mul_of_nonneg_right hs (mul_nonneg hu huM)
  have q3 : u * (|(1 - t) * a + t * b| + (2 * (u * M) + u * (u * M))) ≤ u * (M + (2 * (u * M) + u * (u * M))) :=
    mul_le_mul_of_nonneg_left (by linarith) hu
  nlinarith

end Rounding
end Spec
end Curvepy
