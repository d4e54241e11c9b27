import Mathlib.Analysis.SpecialFunctions.Trigonometric.Deriv
import Verif.Model.Sin

/-!
# Properties C62, C63: sines
-/

namespace Curvepy
namespace Props
open Sine

/-! ## C63 -/

/-- C63: the values are bounded by the amplitude. -/
theorem C63_bounded (d : Data) (x : ℝ) : |Sine.y d x| ≤ |d.amplitude| := by
  rw [Sine.y, abs_mul]
  exact mul_le_of_le_one_right (abs_nonneg _) (Real.abs_sin_le_one _)

/-- C63: the bound is reached. -/
theorem C63_reached (d : Data) (hk : d.coef ≠ 0) : ∃ x, Sine.y d x = d.amplitude := by
  refine ⟨(Real.pi / 2 - d.phase) / d.coef, ?_⟩
  rw [Sine.y, mul_div_cancel₀ _ hk, sub_add_cancel, Real.sin_pi_div_two, mul_one]

theorem set_period {p am ph : ℝ} (hp : p ≠ 0) :
    Sine.set { amplitude := some am, period := some p, phase := some ph } =
      .ok ⟨am, 1 / p * Real.pi * 2, ph⟩ := by
  simp [Sine.set, frequencyOf, phaseOf, hp, bind, Except.bind]

theorem set_frequency {f am ph : ℝ} :
    Sine.set { amplitude := some am, frequency := some f, phase := some ph } =
      .ok ⟨am, f * Real.pi * 2, ph⟩ := by
  simp [Sine.set, frequencyOf, phaseOf, bind, Except.bind]

/-- C63: `Sin(amplitude=A, period=p, phase=φ)` is `A sin(2π x / p + φ)`, it has the period `p`, and
`period`, `frequency` report `p` and `1 / p`. -/
theorem C63_period {p am ph : ℝ} (hp : p ≠ 0) :
    ∃ d, Sine.set { amplitude := some am, period := some p, phase := some ph } = .ok d ∧
      (∀ x, Sine.y d x = am * Real.sin (2 * Real.pi * x / p + ph)) ∧
      (∀ x (n : ℤ), Sine.y d (x + n * p) = Sine.y d x) ∧
      Sine.period d = .ok p ∧ Sine.frequency d = 1 / p := by
  have hpi := Real.pi_ne_zero
  refine ⟨_, set_period hp, ?_, ?_, ?_, ?_⟩
  · intro x
    simp only [Sine.y]
    congr 2
    field_simp
  · intro x n
    simp only [Sine.y]
    have : 1 / p * Real.pi * 2 * (x + n * p) + ph = 1 / p * Real.pi * 2 * x + ph + n * (2 * Real.pi) := by
      field_simp
      ring
    rw [this, Real.sin_add_int_mul_two_pi]
  · simp only [Sine.period]
    rw [if_neg (by positivity)]
    congr 1
    field_simp
  · simp only [Sine.frequency]
    field_simp

/-- C63: with `frequency=f` instead, `f` periods in every unit. -/
theorem C63_frequency {f am ph : ℝ} (hf : f ≠ 0) :
    ∃ d, Sine.set { amplitude := some am, frequency := some f, phase := some ph } = .ok d ∧
      (∀ x, Sine.y d x = am * Real.sin (2 * Real.pi * f * x + ph)) ∧
      (∀ x (n : ℤ), Sine.y d (x + n / f) = Sine.y d x) ∧
      Sine.period d = .ok (1 / f) ∧ Sine.frequency d = f := by
  have hpi := Real.pi_ne_zero
  refine ⟨_, set_frequency, ?_, ?_, ?_, ?_⟩
  · intro x
    simp only [Sine.y]
    congr 2
    ring
  · intro x n
    simp only [Sine.y]
    have : f * Real.pi * 2 * (x + n / f) + ph = f * Real.pi * 2 * x + ph + n * (2 * Real.pi) := by
      field_simp
      ring
    rw [this, Real.sin_add_int_mul_two_pi]
  · simp only [Sine.period]
    rw [if_neg (by positivity)]
    congr 1
    field_simp
  · simp only [Sine.frequency]
    field_simp

/-- C63: `phase_x=s` instead of `phase` moves the curve by `s` to the left. -/
theorem C63_phase_x {p am s : ℝ} (hp : p ≠ 0) :
    ∃ d, Sine.set { amplitude := some am, period := some p, phaseX := some s } = .ok d ∧
      ∀ x, Sine.y d x = am * Real.sin (2 * Real.pi * (x + s) / p) := by
  have : Sine.set { amplitude := some am, period := some p, phaseX := some s } =
      .ok ⟨am, 1 / p * Real.pi * 2, s * (1 / p * Real.pi * 2)⟩ := by
    simp [Sine.set, frequencyOf, phaseOf, hp, bind, Except.bind]
  refine ⟨_, this, fun x => ?_⟩
  simp only [Sine.y]
  congr 2
  field_simp

theorem sin_hasDerivAt (d : Data) (x : ℝ) : HasDerivAt (Sine.y d) (d.coef * Sine.dY d x) x := by
  have h : HasDerivAt (fun t => d.coef * t + d.phase) d.coef x := by
    simpa using ((hasDerivAt_id x).const_mul d.coef).add_const d.phase
  refine ((h.sin).const_mul d.amplitude).congr_deriv ?_
  rw [Sine.dY]
  ring

/-- C63: the derivative of `y` is `x_coef * d_y`; so `d_y` is the derivative of `y` if the period is
`2π`.  What is missing: other periods, for which it fails. -/
theorem C63_slope_partial (d : Data) (x : ℝ) :
    HasDerivAt (Sine.y d) (d.coef * Sine.dY d x) x ∧
      (d.coef = 1 → HasDerivAt (Sine.y d) (Sine.dY d x) x) := by
  refine ⟨sin_hasDerivAt d x, fun h => ?_⟩
  simpa [h] using sin_hasDerivAt d x

/-- C63 fails: at a position where `d_y` is not 0 it is the derivative only if the period is `2π`. -/
theorem C63_negation_general (d : Data) (x : ℝ) (h : Sine.dY d x ≠ 0) (hk : d.coef ≠ 1) :
    ¬ HasDerivAt (Sine.y d) (Sine.dY d x) x := by
  intro hc
  have := (sin_hasDerivAt d x).unique hc
  exact hk (mul_right_cancel₀ h (by rw [this, one_mul]))

/-- C63 fails for `Sin(amplitude=1, period=1)` at 0: `d_y` is 1, the derivative is `2π`. -/
theorem C63_negation : ∃ d, Sine.set { amplitude := some 1, period := some 1 } = .ok d ∧
    Sine.dY d 0 = 1 ∧ HasDerivAt (Sine.y d) (2 * Real.pi) 0 ∧ ¬ HasDerivAt (Sine.y d) (Sine.dY d 0) 0 := by
  have hd : Sine.set { amplitude := some 1, period := some 1 } = .ok ⟨1, 1 / 1 * Real.pi * 2, 0⟩ :=
    set_period one_ne_zero
  have h1 : Sine.dY ⟨1, 1 / 1 * Real.pi * 2, 0⟩ 0 = 1 := by simp [Sine.dY]
  refine ⟨_, hd, h1, ?_, ?_⟩
  · have := sin_hasDerivAt ⟨1, 1 / 1 * Real.pi * 2, 0⟩ 0
    rw [h1] at this
    convert this using 1
    ring
  · refine C63_negation_general _ _ (by rw [h1]; exact one_ne_zero) ?_
    have := Real.two_le_pi
    simp only [div_one, one_mul, ne_eq]
    intro h
    linarith

/-- C63: a description without amplitude, or without frequency and period, is rejected. -/
theorem C63_rejects (a : Args) (h : a.amplitude = none ∨ a.frequency = none ∧ a.period = none) :
    ∃ e, Sine.set a = .error e := by
  simp only [Sine.set, bind, Except.bind]
  cases hf : frequencyOf a with
  | error e => exact ⟨e, rfl⟩
  | ok f =>
    simp only
    cases hp : phaseOf a (f.map fun f => f * Real.pi * 2) with
    | error e => exact ⟨e, rfl⟩
    | ok p =>
      simp only
      rcases h with h | ⟨h1, h2⟩
      · rw [h]; exact ⟨_, rfl⟩
      · have : f = none := by
          unfold frequencyOf at hf
          rw [h2, h1] at hf
          simpa using hf.symm
        subst this
        cases a.amplitude <;> exact ⟨_, rfl⟩

/-- C63: how the other descriptions fail: period zero; a phase in units of `x` without frequency; something missing. -/
theorem C63_errors (a : Args) :
    (a.period = some 0 → Sine.set a = .error .zeroDiv) ∧
    (a.frequency = none → a.period = none → a.phaseX ≠ none → Sine.set a = .error .type) ∧
    (a.frequency = none → a.period = none → a.phaseX = none → Sine.set a = .error .exception) ∧
    (a.amplitude = none → a.period = none → a.frequency ≠ none → Sine.set a = .error .exception) ∧
    (a.period ≠ some 0 → a.frequency ≠ none ∨ a.period ≠ none → a.phaseX = none → a.phase = none →
      Sine.set a = .error .exception) := by
  obtain ⟨am, f, p, ph, px⟩ := a
  refine ⟨?_, ?_, ?_, ?_, ?_⟩
  · rintro rfl; simp [Sine.set, frequencyOf, bind, Except.bind]
  · rintro rfl rfl h
    cases px
    · exact absurd rfl h
    · simp [Sine.set, frequencyOf, phaseOf, bind, Except.bind]
  · rintro rfl rfl rfl
    cases am <;> simp [Sine.set, frequencyOf, phaseOf, bind, Except.bind]
  · rintro rfl rfl h
    cases f
    · exact absurd rfl h
    · cases px <;> simp [Sine.set, frequencyOf, phaseOf, bind, Except.bind]
  · rintro h1 h2 rfl rfl
    cases p with
    | none =>
      cases f
      · simp at h2
      · cases am <;> simp [Sine.set, frequencyOf, phaseOf, bind, Except.bind]
    | some q =>
      have : q ≠ 0 := fun h => h1 (by rw [h])
      cases am <;> simp [Sine.set, frequencyOf, phaseOf, bind, Except.bind, this]

/-- C63: a curve of frequency zero is flat and has no period. -/
theorem C63_flat {am ph : ℝ} : ∃ d, Sine.set { amplitude := some am, frequency := some 0, phase := some ph } = .ok d ∧
    Sine.period d = .error .zeroDiv ∧ Sine.frequency d = 0 ∧ ∀ x, Sine.y d x = am * Real.sin ph :=
  ⟨_, set_frequency, by simp [Sine.period], by simp [Sine.frequency], fun x => by simp [Sine.y]⟩

example : ∃ d, Sine.set { amplitude := some 3, period := some 4 } = .ok d ∧ Sine.y d 1 = 3 ∧
    Sine.y d 5 = 3 ∧ Sine.y d 3 = -3 := by
  have hd : Sine.set { amplitude := some 3, period := some 4 } = .ok ⟨3, 1 / 4 * Real.pi * 2, 0⟩ :=
    set_period (by norm_num)
  refine ⟨_, hd, ?_, ?_, ?_⟩
  · have : (1 / 4 * Real.pi * 2 * 1 + 0 : ℝ) = Real.pi / 2 := by ring
    rw [Sine.y, this, Real.sin_pi_div_two, mul_one]
  · have : (1 / 4 * Real.pi * 2 * 5 + 0 : ℝ) = Real.pi / 2 + 2 * Real.pi := by ring
    simp only [Sine.y, this, Real.sin_add_two_pi, Real.sin_pi_div_two, mul_one]
  · have : (1 / 4 * Real.pi * 2 * 3 + 0 : ℝ) = Real.pi / 2 + Real.pi := by ring
    simp only [Sine.y, this, Real.sin_add_pi, Real.sin_pi_div_two, mul_neg, mul_one]

/-! ## C62 -/

theorem fit_polar (period x y dy : ℝ) :
    ∃ R : ℝ, 2 * Real.pi / period * y = R * Real.sin (2 * Real.pi / period * x + fitPhase period x y dy) ∧
      dy = R * Real.cos (2 * Real.pi / period * x + fitPhase period x y dy) := by
  set k := 2 * Real.pi / period with hk
  set a := k * x with ha
  set num := k * y * Real.cos a - dy * Real.sin a with hnum
  set den := k * y * Real.sin a + dy * Real.cos a with hden
  have hph : fitPhase period x y dy = Complex.arg ⟨den, num⟩ := rfl
  rw [hph]
  set z : ℂ := ⟨den, num⟩ with hz
  have hc : ‖z‖ * Real.cos (Complex.arg z) = den := Complex.norm_mul_cos_arg z
  have hs : ‖z‖ * Real.sin (Complex.arg z) = num := Complex.norm_mul_sin_arg z
  have h1 := Real.sin_sq_add_cos_sq a
  refine ⟨‖z‖, ?_, ?_⟩
  · rw [Real.sin_add]
    have : ‖z‖ * (Real.sin a * Real.cos z.arg + Real.cos a * Real.sin z.arg) =
        Real.sin a * den + Real.cos a * num := by rw [← hc, ← hs]; ring
    rw [this, hden, hnum]
    linear_combination (-(k * y)) * h1
  · rw [Real.cos_add]
    have : ‖z‖ * (Real.cos a * Real.cos z.arg - Real.sin a * Real.sin z.arg) =
        Real.cos a * den - Real.sin a * num := by rw [← hc, ← hs]; ring
    rw [this, hden, hnum]
    linear_combination (-dy) * h1

/-- C62: the sine fitted to an edge has the edge's value there, its derivative there is the edge's slope,
and it has the requested period. -/
theorem C62_fit {period : ℝ} (hp : 0 < period) (x y dy : ℝ) :
    ∃ d, Sine.fit period x y dy = .ok d ∧ Sine.y d x = y ∧ HasDerivAt (Sine.y d) dy x ∧
      ∀ t (n : ℤ), Sine.y d (t + n * period) = Sine.y d t := by
  have hp0 := hp.ne'
  have hpi := Real.pi_ne_zero
  obtain ⟨d, hd, hy, hper, -⟩ := C63_period (am := fitAmplitude period x y dy)
    (ph := fitPhase period x y dy) hp0
  have hd' := hd.symm.trans (set_period hp0)
  cases hd'
  refine ⟨_, hd, ?_, ?_, hper⟩
  all_goals
    obtain ⟨R, h1, h2⟩ := fit_polar period x y dy
    have hk : 2 * Real.pi / period ≠ 0 := by positivity
    have hang : 1 / period * Real.pi * 2 * x + fitPhase period x y dy =
        2 * Real.pi / period * x + fitPhase period x y dy := by ring
    have hkk : 1 / period * Real.pi * 2 = 2 * Real.pi / period := by ring
    set k := 2 * Real.pi / period with hkdef
    set t := k * x + fitPhase period x y dy with ht
    have hzero : (¬ ∃ n : ℤ, t = n * Real.pi) ↔ Real.sin t ≠ 0 := by
      rw [not_iff_comm, not_not, Real.sin_eq_zero_iff]
      exact ⟨fun ⟨n, hn⟩ => ⟨n, hn.symm⟩, fun ⟨n, hn⟩ => ⟨n, hn.symm⟩⟩
    have ham1 : Real.sin t ≠ 0 → fitAmplitude period x y dy = y / Real.sin t :=
      fun h => if_pos (hzero.2 h)
    have ham0 : Real.sin t = 0 → fitAmplitude period x y dy = dy / (k * Real.cos t) :=
      fun h => if_neg (by rw [hzero]; exact not_not.2 h)
  · simp only [Sine.y, hang]
    by_cases hs : Real.sin t = 0
    · rw [ham0 hs, hs, mul_zero]
      rw [hs, mul_zero] at h1
      exact ((mul_eq_zero.1 h1).resolve_left hk).symm
    · rw [ham1 hs, div_mul_cancel₀ _ hs]
  · have := sin_hasDerivAt ⟨fitAmplitude period x y dy, 1 / period * Real.pi * 2, fitPhase period x y dy⟩ x
    convert this using 1
    simp only [Sine.dY, hang, hkk]
    by_cases hs : Real.sin t = 0
    · rw [ham0 hs]
      have hc : Real.cos t ≠ 0 := by
        intro hc
        have := Real.sin_sq_add_cos_sq t
        rw [hs, hc] at this
        norm_num at this
      rw [show k * (dy / (k * Real.cos t) * Real.cos t) = dy * (k / k) * (Real.cos t / Real.cos t) by ring,
        div_self hk, div_self hc, mul_one, mul_one]
    · rw [ham1 hs]
      rw [show k * (y / Real.sin t * Real.cos t) = k * y * Real.cos t / Real.sin t by ring, h1,
        show R * Real.sin t * Real.cos t / Real.sin t = R * Real.cos t * (Real.sin t / Real.sin t) by ring,
        div_self hs, mul_one]
      exact h2

/-- With edge `(0, 0)`, slope 3 and period `2π` the sine is `3 sin x`. -/
example : ∃ d, Sine.fit (2 * Real.pi) 0 0 3 = .ok d ∧ Sine.y d (Real.pi / 2) = 3 := by
  have hph : fitPhase (2 * Real.pi) 0 0 3 = 0 := by
    have : (⟨3, 0⟩ : ℂ) = ((3 : ℝ) : ℂ) := rfl
    simp [fitPhase, atan2, this]
  have ham : fitAmplitude (2 * Real.pi) 0 0 3 = 3 := by
    have : ∃ n : ℤ, (0 : ℝ) = n * Real.pi := ⟨0, by simp⟩
    simp [fitAmplitude, hph, Real.pi_ne_zero]
  have hpi := Real.pi_ne_zero
  refine ⟨_, set_period (by positivity), ?_⟩
  rw [ham, hph]
  have : 1 / (2 * Real.pi) * Real.pi * 2 * (Real.pi / 2) + 0 = Real.pi / 2 := by field_simp; ring
  simp only [Sine.y, this, Real.sin_pi_div_two, mul_one]

/-! ## Further examples -/

/-- C63: never above 3, which is reached; what is refused. -/
example : (∀ x, |Sine.y ⟨-3, 2, 1⟩ x| ≤ 3) ∧ (∃ x, Sine.y ⟨-3, 2, 1⟩ x = -3) ∧
    Sine.set { amplitude := some 1, period := some 0, phase := some 0 } = .error .zeroDiv ∧
    Sine.set { amplitude := some 1, phaseX := some 2 } = .error .type := by
  refine ⟨fun x => (C63_bounded ⟨-3, 2, 1⟩ x).trans (by norm_num), C63_reached ⟨-3, 2, 1⟩ (by norm_num), ?_, ?_⟩
  · exact (C63_errors { amplitude := some 1, period := some 0, phase := some 0 }).1 rfl
  · exact (C63_errors { amplitude := some 1, phaseX := some 2 }).2.1 rfl rfl (by simp)

/-- C63: a phase by position moves the wave. -/
example : ∃ d, Sine.set { amplitude := some 2, period := some 4, phaseX := some 1 } = .ok d ∧ Sine.y d 0 = 2 := by
  obtain ⟨d, h1, h2⟩ := C63_phase_x (p := 4) (am := 2) (s := 1) (by norm_num)
  refine ⟨d, h1, ?_⟩
  rw [h2, show 2 * Real.pi * (0 + 1) / 4 = Real.pi / 2 by ring, Real.sin_pi_div_two]
  norm_num

/-- C63: with a coefficient of one the slope is right, with another it is not. -/
example : HasDerivAt (Sine.y ⟨3, 1, 0⟩) (Sine.dY ⟨3, 1, 0⟩ 2) 2 ∧ ¬ HasDerivAt (Sine.y ⟨3, 2, 0⟩) (Sine.dY ⟨3, 2, 0⟩ 0) 0 :=
  ⟨(C63_slope_partial ⟨3, 1, 0⟩ 2).2 rfl, C63_negation_general ⟨3, 2, 0⟩ 0 (by simp [Sine.dY]) (by norm_num)⟩

end Props
end Curvepy
