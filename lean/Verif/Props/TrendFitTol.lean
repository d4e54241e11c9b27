import Verif.Model.TrendFitTol
import Verif.Props.TrendFit
import Verif.Props.TrendChoice

/-!
# C134: fits within tolerances
-/

namespace Curvepy
namespace Props
open Spec Trend

/-- More than two points are accepted exactly if each agrees with the line of the least squares. -/
theorem C134_fit {ps : List XY} (h : 2 < ps.length) {rel tol : Option ℚ} {b : Bool} (hb : fitWithin ps rel tol = .ok b) :
    ∃ m c : ℚ, (∀ m' c' : ℚ, (ps.map fun p => (p.2 - (m * p.1 + c)) ^ 2).sum ≤ (ps.map fun p => (p.2 - (m' * p.1 + c')) ^ 2).sum) ∧
      (b = true ↔ ∀ p ∈ ps, Agrees p.2 (m * p.1 + c) rel tol) := by
  unfold fitWithin at hb
  rw [if_neg (by omega)] at hb
  cases hf : polyfit ps with
  | error e => rw [hf] at hb; cases hb
  | ok f =>
    rw [hf] at hb
    have hb : ps.all (fun p => within (some p.2) (some (f.1 * p.1 + f.2)) rel tol) = b := Except.ok.inj hb
    refine ⟨f.1, f.2, polyfit_least hf, ?_⟩
    rw [← hb, List.all_eq_true]
    simp only [C86_within]

/-- Two points always are. -/
theorem C134_few {ps : List XY} (h : ps.length ≤ 2) (rel tol : Option ℚ) (t : TLine) :
    fitWithin ps rel tol = .ok true ∧ t.fitWithin ps = .ok true := by
  simp [fitWithin, TLine.fitWithin, h]

/-- It answers if the points are not all at one position. -/
theorem C134_answers {ps : List XY} {f : ℚ × ℚ} (h : polyfit ps = .ok f) (rel tol : Option ℚ) (t : TLine) :
    (∃ b, fitWithin ps rel tol = .ok b) ∧ ∃ b, t.fitWithin ps = .ok b := by
  unfold fitWithin TLine.fitWithin
  rw [h]
  constructor <;> split <;> exact ⟨_, rfl⟩

/-- Points on one line are accepted with any tolerances that are not negative. -/
theorem C134_line {ps : List XY} {m c : ℚ} (h : ∀ p ∈ ps, p.2 = m * p.1 + c) {rel tol : Option ℚ} (hr : ∀ r, rel = some r → 0 ≤ r)
    (ht : ∀ a, tol = some a → 0 ≤ a) {b : Bool} (hb : fitWithin ps rel tol = .ok b) : b = true := by
  by_cases hl : ps.length ≤ 2
  · rw [(C134_few hl rel tol (plain 3)).1] at hb
    exact (Except.ok.inj hb).symm
  · unfold fitWithin at hb
    rw [if_neg hl] at hb
    cases hf : polyfit ps with
    | error e => rw [hf] at hb; cases hb
    | ok f =>
      rw [hf] at hb
      have hb : ps.all (fun p => within (some p.2) (some (f.1 * p.1 + f.2)) rel tol) = b := Except.ok.inj hb
      rw [← hb, List.all_eq_true]
      intro p hp
      rw [C86_within, polyfit_on h hf, h p hp]
      refine ⟨fun a ha => by simpa using ht a ha, fun r hr' _ _ => ?_⟩
      simpa using mul_nonneg (hr r hr') (abs_nonneg _)

/-- The function of `TrendLine` says the opposite: three or more points on one line, none of them negative, are never accepted. -/
theorem C134_negation {t : TLine} (ht : Tolerant t) {ps : List XY} (hl : 2 < ps.length) {m c : ℚ}
    (h : ∀ p ∈ ps, p.2 = m * p.1 + c) (h0 : ∀ p ∈ ps, 0 ≤ p.2) {b : Bool} (hb : t.fitWithin ps = .ok b) : b = false := by
  unfold TLine.fitWithin at hb
  rw [if_neg (by omega)] at hb
  cases hf : polyfit ps with
  | error e => rw [hf] at hb; cases hb
  | ok f =>
    rw [hf] at hb
    have hb : ps.all (fun p => t.withinTol (some p.2) (some (f.1 * p.1 + f.2))) = b := Except.ok.inj hb
    rw [← hb]
    cases ps with
    | nil => simp at hl
    | cons p ps =>
      rw [List.all_cons, Bool.and_eq_false_iff]
      left
      rw [C58_negation_within, polyfit_on h hf, ← h p (by simp)]
      have := C58_value_partial t ht p.2 (.inr (h0 p (by simp)))
      simp [this]

example : fitWithin [(0, 1), (1, 3), (2, 5), (3, 7)] (some (1/10)) none = .ok true ∧
    fitWithin [(0, 1), (1, 9), (2, 5), (3, 7)] (some (1/10)) none = .ok false ∧
    (plain 3).fitWithin [(0, 1), (1, 3), (2, 5), (3, 7)] = .ok false := by decide +kernel
/-! ## An instance of each theorem -/

/-- Four points of which the second is off: the best line is not close to all of them. -/
example : ∃ m c : ℚ, (∀ m' c' : ℚ, (([(0, 1), (1, 9), (2, 5), (3, 7)] : List XY).map fun p => (p.2 - (m * p.1 + c)) ^ 2).sum ≤
      (([(0, 1), (1, 9), (2, 5), (3, 7)] : List XY).map fun p => (p.2 - (m' * p.1 + c')) ^ 2).sum) ∧
    ¬ ∀ p ∈ ([(0, 1), (1, 9), (2, 5), (3, 7)] : List XY), Agrees p.2 (m * p.1 + c) (some (1/10)) none := by
  obtain ⟨m, c, h1, h2⟩ := C134_fit (ps := [(0, 1), (1, 9), (2, 5), (3, 7)]) (rel := some (1/10)) (tol := none) (b := false)
    (by decide) (by decide +kernel)
  exact ⟨m, c, h1, fun h => absurd (h2.2 h) (by decide)⟩

example : fitWithin [(0, 1), (1, 9)] (some 0) none = .ok true := (C134_few (by decide) _ _ (plain 3)).1

example : ∃ b, fitWithin [(0, 1), (1, 9), (2, 5)] none (some (1/2)) = .ok b :=
  (C134_answers (f := (2, 3)) (by decide +kernel) _ _ (plain 3)).1

/-- Points on a line pass with any tolerances, zero among them. -/
example {b : Bool} (hb : fitWithin [(0, 1), (1, 3), (2, 5), (3, 7)] (some 0) (some 0) = .ok b) : b = true :=
  C134_line (m := 2) (c := 1) (by decide +kernel) (by intro r h; cases h; exact le_rfl) (by intro r h; cases h; exact le_rfl) hb

end Props
end Curvepy
