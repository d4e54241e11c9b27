import Mathlib.Algebra.Order.BigOperators.Group.List
import Verif.Props.TrendHull

/-!
# Properties of single trend lines: the fit
-/

namespace Curvepy
namespace Props
open Spec Trend

theorem sum_residuals (m c : ℚ) : ∀ ps : List XY, (ps.map fun p => (p.2 - (m * p.1 + c)) ^ 2).sum =
    (ps.map fun p => p.2 * p.2).sum - 2 * m * (ps.map fun p => p.1 * p.2).sum - 2 * c * (ps.map (·.2)).sum +
      m ^ 2 * (ps.map fun p => p.1 * p.1).sum + 2 * m * c * (ps.map (·.1)).sum + c ^ 2 * ps.length
  | [] => by simp
  | p :: ps => by
    simp only [List.map_cons, List.sum_cons, sum_residuals m c ps, List.length_cons, Nat.cast_add, Nat.cast_one]
    ring

theorem sum_squares_eq (a b : ℚ) (ps : List XY) : (ps.map fun p => (a * p.1 + b) ^ 2).sum =
    a ^ 2 * (ps.map fun p => p.1 * p.1).sum + 2 * a * b * (ps.map (·.1)).sum + b ^ 2 * ps.length := by
  induction ps with
  | nil => simp
  | cons p ps ih =>
    simp only [List.map_cons, List.sum_cons, List.length_cons, Nat.cast_add, Nat.cast_one, ih]
    ring

theorem sum_squares (a b : ℚ) (ps : List XY) :
    0 ≤ a ^ 2 * (ps.map fun p => p.1 * p.1).sum + 2 * a * b * (ps.map (·.1)).sum + b ^ 2 * ps.length := by
  rw [← sum_squares_eq]
  refine List.sum_nonneg fun x hx => ?_
  obtain ⟨p, -, rfl⟩ := List.mem_map.1 hx
  exact sq_nonneg _

/-- No line has a smaller sum of squares of the vertical distances of points. -/
theorem polyfit_least {ps : List XY} {f : ℚ × ℚ} (e : polyfit ps = .ok f) (m c : ℚ) :
    (ps.map fun p => (p.2 - (f.1 * p.1 + f.2)) ^ 2).sum ≤ (ps.map fun p => (p.2 - (m * p.1 + c)) ^ 2).sum := by
  unfold polyfit at e
  simp only at e
  split_ifs at e with hd
  simp only [Except.ok.injEq] at e
  have hsq := sum_squares (m - f.1) (c - f.2) ps
  rw [sum_residuals, sum_residuals]
  have hn : (ps.length : ℚ) ≠ 0 := by
    intro h
    have : ps = [] := List.length_eq_zero_iff.1 (by exact_mod_cast h)
    subst this
    simp at hd
  generalize (ps.map fun p => p.1 * p.1).sum = sxx at *
  generalize (ps.map fun p => p.1 * p.2).sum = sxy at *
  generalize (ps.map fun p => p.2 * p.2).sum = syy at *
  generalize (ps.map (·.1)).sum = sx at *
  generalize (ps.map (·.2)).sum = sy at *
  generalize (ps.length : ℚ) = n at *
  obtain ⟨u, v⟩ := f
  simp only [Prod.mk.injEq] at e hsq ⊢
  have h1 : u * (n * sxx - sx * sx) = n * sxy - sx * sy := by
    rw [← e.1]; exact div_mul_cancel₀ _ hd
  have h2 : n * v = sy - u * sx := by rw [← e.2, e.1]; field_simp
  have h3 : u * sxx + v * sx = sxy := by
    have : n * (u * sxx + v * sx) = n * sxy := by linear_combination h1 + sx * h2
    exact mul_left_cancel₀ hn this
  have hy : sy = n * v + u * sx := by linarith
  rw [hy, ← h3]
  linarith

theorem lineY_through {l : Chord} (h : l.1.1 < l.2.1) {m c : ℚ} (h1 : l.1.2 = m * l.1.1 + c)
    (h2 : l.2.2 = m * l.2.1 + c) (x : ℚ) : lineY l x = some (m * x + c) := by
  obtain ⟨⟨x0, y0⟩, ⟨x1, y1⟩⟩ := l
  simp only at h h1 h2
  rw [lineY_mean h]
  have : x1 - x0 ≠ 0 := (sub_pos.2 h).ne'
  congr 1
  rw [h1, h2]
  field_simp
  ring

/-- C81: the line fits the trend points at least as well as any other straight line. -/
theorem C81_least {t : TLine} (hg : Grown t) (hw : 0 < t.minWidth) {l : Chord} (hl : t.line = some l) :
    ∃ r : ℚ → ℚ, (∀ x, lineY l x = some (r x)) ∧ ∀ m c : ℚ,
      (t.trend.map fun p => (p.2 - r p.1) ^ 2).sum ≤ (t.trend.map fun p => (p.2 - (m * p.1 + c)) ^ 2).sum := by
  have hf := grown_fit hg
  have hasc := (grown_kept hg hw).asc l hl
  rw [hl] at hf
  match hps : t.trend, hf with
  | [], e => simp [lineFit] at e
  | [_], e => simp [lineFit] at e
  | [p, q], e =>
    simp only [lineFit, Except.ok.injEq, Option.some.injEq] at e
    subst e
    simp only at hasc
    have hne : q.1 - p.1 ≠ 0 := (sub_pos.2 hasc).ne'
    refine ⟨fun x => (q.2 - p.2) / (q.1 - p.1) * x + (p.2 - (q.2 - p.2) / (q.1 - p.1) * p.1),
      fun x => lineY_through hasc (by simp) (by field_simp; ring) x, fun m c => ?_⟩
    have e1 : p.2 - ((q.2 - p.2) / (q.1 - p.1) * p.1 + (p.2 - (q.2 - p.2) / (q.1 - p.1) * p.1)) = 0 := by ring
    have e2 : q.2 - ((q.2 - p.2) / (q.1 - p.1) * q.1 + (p.2 - (q.2 - p.2) / (q.1 - p.1) * p.1)) = 0 := by
      field_simp; ring
    simp only [List.map_cons, List.map_nil, List.sum_cons, List.sum_nil, e1, e2]
    have := sq_nonneg (p.2 - (m * p.1 + c))
    have := sq_nonneg (q.2 - (m * q.1 + c))
    linarith
  | p :: q :: r :: rest, e =>
    simp only [lineFit] at e
    obtain ⟨f, e1, e⟩ := bind_inv e
    have := pure_inv e
    simp only [Option.some.injEq] at this
    subst this
    exact ⟨fun x => f.1 * x + f.2, fun x => lineY_through hasc rfl rfl x, polyfit_least e1⟩

/-- C81: the fit fails for points at a single position only. -/
theorem C81_fails {ps : List XY} {e : Err} (h : lineFit ps = .error e) : ∀ p ∈ ps, ∀ q ∈ ps, p.1 = q.1 := by
  have hp : polyfit ps = .error e := by
    match ps, h with
    | [], h => simp [lineFit] at h
    | [_], h => simp [lineFit] at h
    | [_, _], h => simp [lineFit] at h
    | p :: q :: r :: rest, h =>
      simp only [lineFit] at h
      cases hf : polyfit (p :: q :: r :: rest) with
      | error e' => rw [hf] at h; cases h; rfl
      | ok f => rw [hf] at h; cases h
  unfold polyfit at hp
  simp only at hp
  split_ifs at hp with hd
  have hz : (ps.map fun p => ((ps.length : ℚ) * p.1 + -(ps.map (·.1)).sum) ^ 2).sum = 0 := by
    rw [sum_squares_eq]
    linear_combination (ps.length : ℚ) * hd
  have key : ∀ p ∈ ps, (ps.length : ℚ) * p.1 = (ps.map (·.1)).sum := by
    intro p hp
    have h1 : ((ps.length : ℚ) * p.1 + -(ps.map (·.1)).sum) ^ 2 ≤ 0 := by
      rw [← hz]
      refine List.single_le_sum ?_ _ (List.mem_map.2 ⟨p, hp, rfl⟩)
      intro x hx
      obtain ⟨q, -, rfl⟩ := List.mem_map.1 hx
      exact sq_nonneg _
    have h2 := pow_eq_zero_iff (two_ne_zero) |>.1 (le_antisymm h1 (sq_nonneg _))
    linarith
  intro p hp q hq
  have hn : (ps.length : ℚ) ≠ 0 := by
    have := List.length_pos_of_mem hp
    exact_mod_cast this.ne'
  exact mul_left_cancel₀ hn ((key p hp).trans (key q hq).symm)

example : ∃ t : TLine, Grown t ∧ 0 < t.minWidth ∧ t.trend = [(1, 3), (3, 4), (7, 3)] ∧
    t.line = some ((1, 24 / 7), 7, 45 / 14) := by
  refine ⟨appendedD (TLine.new 3 true 3 0 10 none (some 1) (8 / 5)) [(1, 3), (3, 4), (7, 3)],
    appendedD_grown (Grown.new _ _ _ _ _ _ _ _) _, by decide +kernel, by decide +kernel, by decide +kernel⟩

end Props
end Curvepy
