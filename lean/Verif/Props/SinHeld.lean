import Verif.Props.Sin
import Verif.Model.SinHeld
import Verif.Props.Line

/-!
# C132: assigning to sine curves
-/

namespace Curvepy
namespace Spec
open Sine

/-- The arguments describe the sine `amplitude * sin (coef * x + phase)`: `period` goes before `frequency`, `phase_x` before `phase`. -/
def Describes (a : Args) (d : Data) : Prop :=
  a.amplitude = some d.amplitude ∧
  (∃ f : ℝ, (match a.period with
    | some p => p ≠ 0 ∧ f = 1 / p
    | none => a.frequency = some f) ∧ d.coef = f * Real.pi * 2) ∧
  match a.phaseX with
  | some px => d.phase = px * d.coef
  | none => a.phase = some d.phase

/-- What the curve then holds. -/
def held (d : Data) : Fields := ⟨some d.amplitude, some d.phase, some d.coef⟩

/-- Something is missing. -/
def Broken (f : Fields) : Prop := f.amplitude = none ∨ f.phase = none ∨ f.coef = none

end Spec

namespace Props
open Spec Sine

/-- An update has begun and not ended. -/
def pending : Gate := ⟨Iv.infinite, Iv.empty⟩

theorem begin_init : Gate.init.begin Iv.infinite = (pending, some Iv.infinite) := by decide +kernel
theorem begin_pending : pending.begin Iv.infinite = (pending, none) := by decide +kernel
theorem finish_pending : pending.finish Iv.infinite = (Gate.init, some Iv.infinite) := by decide +kernel

/-- What `assign` does once the update has begun. -/
theorem assign_cases (h : Held Fields) (a : Args) (hg : (h.gate.begin Iv.infinite).1 = pending) :
    (∃ d, Describes a d ∧ assign h a = (⟨Gate.init, held d⟩,
      noteBegin (h.gate.begin Iv.infinite).2 h.data ++ [.finish Iv.infinite (held d)], none)) ∨
    ((∀ d, ¬ Describes a d) ∧ ∃ f e, Broken f ∧
      assign h a = (⟨pending, f⟩, noteBegin (h.gate.begin Iv.infinite).2 h.data, some e)) := by
  obtain ⟨am, fr, pe, ph, px⟩ := a
  unfold assign frequencyOf phaseOf Describes held Broken
  simp only [hg, finish_pending]
  rcases pe with _ | p
  · rcases fr with _ | f
    · rcases px with _ | px <;> rcases am with _ | am <;> rcases ph with _ | ph <;> simp [noteFinish]
    · rcases px with _ | px <;> rcases am with _ | am <;> rcases ph with _ | ph <;> simp [noteFinish]
      all_goals first
        | exact ⟨⟨am, f * Real.pi * 2, px * (f * Real.pi * 2)⟩, by simp⟩
        | exact ⟨⟨am, f * Real.pi * 2, ph⟩, by simp⟩
  · by_cases hp : p = 0
    · rcases px with _ | px <;> rcases am with _ | am <;> rcases ph with _ | ph <;> simp [noteFinish, hp]
    · rcases px with _ | px <;> rcases am with _ | am <;> rcases ph with _ | ph <;> simp [noteFinish, hp]
      all_goals first
        | exact ⟨⟨am, p⁻¹ * Real.pi * 2, px * (p⁻¹ * Real.pi * 2)⟩, by simp⟩
        | exact ⟨⟨am, p⁻¹ * Real.pi * 2, ph⟩, by simp⟩

theorem describes_unique {a : Args} {d d' : Data} (h : Describes a d) (h' : Describes a d') : d = d' := by
  obtain ⟨am, fr, pe, ph, px⟩ := a
  obtain ⟨d1, d2, d3⟩ := d
  obtain ⟨e1, e2, e3⟩ := d'
  obtain ⟨h1, ⟨f, h2, h3⟩, h4⟩ := h
  obtain ⟨g1, ⟨g, g2, g3⟩, g4⟩ := h'
  have hf : f = g := by
    rcases pe with _ | p
    · exact Option.some.inj (h2.symm.trans g2)
    · exact h2.2.trans g2.2.symm
  have e12 : d2 = e2 := by
    simp only at h3 g3
    rw [h3, g3, hf]
  have e11 : d1 = e1 := Option.some.inj (h1.symm.trans g1)
  have e13 : d3 = e3 := by
    rcases px with _ | px
    · exact Option.some.inj (h4.symm.trans g4)
    · simp only at h4 g4
      rw [h4, g4, e12]
  rw [e11, e12, e13]

/-- A sine that is not being updated takes a full description: it begins an update, seen with the old parameters, and ends it with the new
ones. -/
theorem C132_assign (old : Fields) {a : Args} {d : Data} (h : Describes a d) :
    assign ⟨Gate.init, old⟩ a = (⟨Gate.init, held d⟩, [.begin Iv.infinite old, .finish Iv.infinite (held d)], none) := by
  rcases assign_cases ⟨Gate.init, old⟩ a (by rw [begin_init]) with ⟨d', h1, h2⟩ | ⟨h1, _⟩
  · rw [h2, describes_unique h h1, begin_init]; rfl
  · exact absurd h (h1 d)

/-- The constructor makes exactly what is described. -/
theorem C132_make (a : Args) : (∃ d, Describes a d ∧ make a = .ok ⟨Gate.init, held d⟩) ∨
    ((∀ d, ¬ Describes a d) ∧ ∃ e, make a = .error e) := by
  unfold make
  rcases assign_cases ⟨Gate.init, ⟨none, none, none⟩⟩ a (by rw [begin_init]) with ⟨d, h1, h2⟩ | ⟨h1, f, e, _, h2⟩
  · exact .inl ⟨d, h1, by rw [h2]⟩
  · exact .inr ⟨h1, e, by rw [h2]⟩

/-- The states of a sine after any assignments. -/
theorem held_or_broken (d : Data) (as : List Args) :
    (∃ d', (assignAll ⟨Gate.init, held d⟩ as).1 = ⟨Gate.init, held d'⟩) ∨
    ∃ f, Broken f ∧ (assignAll ⟨Gate.init, held d⟩ as).1 = ⟨pending, f⟩ := by
  have key : ∀ (as : List Args) (h : Held Fields), ((∃ d', h = ⟨Gate.init, held d'⟩) ∨ ∃ f, Broken f ∧ h = ⟨pending, f⟩) →
      ((∃ d', (assignAll h as).1 = ⟨Gate.init, held d'⟩) ∨ ∃ f, Broken f ∧ (assignAll h as).1 = ⟨pending, f⟩) := by
    intro as
    induction as with
    | nil => exact fun _ hh => hh
    | cons a as ih =>
      intro h hh
      refine ih _ ?_
      have hg : (h.gate.begin Iv.infinite).1 = pending := by
        rcases hh with ⟨d, rfl⟩ | ⟨f, _, rfl⟩
        · rw [begin_init]
        · rw [begin_pending]
      rcases assign_cases h a hg with ⟨d, _, h2⟩ | ⟨_, f, e, hb, h2⟩
      · exact .inl ⟨d, by rw [h2]⟩
      · exact .inr ⟨f, hb, by rw [h2]⟩
  exact key as _ (.inl ⟨d, rfl⟩)

theorem assignAll_append (h : Held Fields) (as bs : List Args) :
    assignAll h (as ++ bs) = ((assignAll (assignAll h as).1 bs).1, (assignAll h as).2 ++ (assignAll (assignAll h as).1 bs).2) := by
  induction as generalizing h with
  | nil => rfl
  | cons a as ih => simp [assignAll, ih]

/-- After any assignments, also ones that raised, a full description gives its sine, and the update is over. -/
theorem C132_values (d₀ : Data) (as : List Args) {a : Args} {d : Data} (h : Describes a d) :
    (assignAll ⟨Gate.init, held d₀⟩ (as ++ [a])).1 = ⟨Gate.init, held d⟩ ∧
    ∀ x, value (assignAll ⟨Gate.init, held d₀⟩ (as ++ [a])).1.data x = .ok (d.amplitude * Real.sin (d.coef * x + d.phase)) := by
  have hg : ((assignAll ⟨Gate.init, held d₀⟩ as).1.gate.begin Iv.infinite).1 = pending := by
    rcases held_or_broken d₀ as with ⟨d', h1⟩ | ⟨f, _, h1⟩ <;> rw [h1]
    · rw [begin_init]
    · rw [begin_pending]
  have key : (assignAll ⟨Gate.init, held d₀⟩ (as ++ [a])).1 = ⟨Gate.init, held d⟩ := by
    rw [assignAll_append]
    show (assign (assignAll ⟨Gate.init, held d₀⟩ as).1 a).1 = _
    rcases assign_cases _ a hg with ⟨d', h1, h2⟩ | ⟨h1, _⟩
    · rw [h2, describes_unique h h1]
    · exact absurd h (h1 d)
  refine ⟨key, fun x => ?_⟩
  rw [key]; rfl

/-- After any assignments and a full description, `x_coef` times `d_y` is the slope of the sine.  What is missing: `d_y` itself is the slope only if
`x_coef` is 1 (C63). -/
theorem C132_slope_partial (d₀ : Data) (as : List Args) {a : Args} {d : Data} (h : Describes a d) (x : ℝ) :
    ∃ v, slope (assignAll ⟨Gate.init, held d₀⟩ (as ++ [a])).1.data x = .ok v ∧
      HasDerivAt (fun x => d.amplitude * Real.sin (d.coef * x + d.phase)) (d.coef * v) x := by
  refine ⟨Sine.dY d x, ?_, sin_hasDerivAt d x⟩
  rw [(C132_values d₀ as h).1]
  rfl

/-- If all assignments are full descriptions, each announces one beginning and one end. -/
theorem C132_announced_partial (d₀ : Data) (as : List Args) (h : ∀ a ∈ as, ∃ d, Describes a d) :
    ∀ r ∈ (assignAll ⟨Gate.init, held d₀⟩ as).2, ∃ d d', r = ([.begin Iv.infinite (held d), .finish Iv.infinite (held d')], none) := by
  induction as generalizing d₀ with
  | nil => exact fun r hr => absurd hr (by simp [assignAll])
  | cons a as ih =>
    obtain ⟨d, hd⟩ := h a (by simp)
    have e := C132_assign (held d₀) hd
    intro r hr
    simp only [assignAll, e, List.mem_cons] at hr
    rcases hr with rfl | hr
    · exact ⟨d₀, d, rfl⟩
    · exact ih d (fun a ha => h a (by simp [ha])) r hr

/-- An assignment that raises does not leave the curve as it was: it begins an update that it does not end, and from then on no value and
no slope can be read. -/
theorem C132_negation_rejected (d₀ : Data) {a : Args} (h : ∀ d, ¬ Describes a d) :
    ∃ f e, assign ⟨Gate.init, held d₀⟩ a = (⟨pending, f⟩, [.begin Iv.infinite (held d₀)], some e) ∧ f ≠ held d₀ ∧
      ∀ x, value f x = .error .type ∧ slope f x = .error .type := by
  rcases assign_cases ⟨Gate.init, held d₀⟩ a (by rw [begin_init]) with ⟨d', h1, _⟩ | ⟨_, f, e, hb, h2⟩
  · exact absurd h1 (h d')
  · obtain ⟨fa, fp, fc⟩ := f
    refine ⟨⟨fa, fp, fc⟩, e, by rw [h2, begin_init]; rfl, ?_, fun x => ?_⟩
    · rintro hc
      rcases hb with hb | hb | hb <;> rw [hc] at hb <;> simp [held] at hb
    · unfold Broken at hb
      simp only at hb
      rcases hb with rfl | rfl | rfl
      · rcases fp with _ | _ <;> rcases fc with _ | _ <;> exact ⟨rfl, rfl⟩
      · rcases fa with _ | _ <;> rcases fc with _ | _ <;> exact ⟨rfl, rfl⟩
      · rcases fa with _ | _ <;> rcases fp with _ | _ <;> exact ⟨rfl, rfl⟩

/-- The next full description then announces an end without a beginning. -/
theorem C132_negation_announced (d₀ : Data) {a b : Args} {d : Data} (ha : ∀ d, ¬ Describes a d) (hb : Describes b d) :
    ∃ e, (assignAll ⟨Gate.init, held d₀⟩ [a, b]).2 =
      [([.begin Iv.infinite (held d₀)], some e), ([.finish Iv.infinite (held d)], none)] := by
  obtain ⟨f, e, h1, _, _⟩ := C132_negation_rejected d₀ ha
  refine ⟨e, ?_⟩
  rcases assign_cases ⟨pending, f⟩ b (by rw [begin_pending]) with ⟨d', h2, h3⟩ | ⟨h2, _⟩
  · rw [describes_unique hb h2]
    simp [assignAll, h1, h3, begin_pending, noteBegin]
  · exact absurd hb (h2 d)

/-- `Sin(amplitude=2, period=4)`; then `set(amplitude=1)` raises; then `set(amplitude=1, frequency=1, phase_x=3)`. -/
example : Describes { amplitude := some 2, period := some 4 } ⟨2, 1 / 4 * Real.pi * 2, 0⟩ ∧
    (∀ d, ¬ Describes { amplitude := some 1 } d) ∧
    Describes { amplitude := some 1, frequency := some 1, phaseX := some 3 } ⟨1, 1 * Real.pi * 2, 3 * (1 * Real.pi * 2)⟩ := by
  refine ⟨⟨rfl, ⟨1 / 4, ⟨by norm_num, rfl⟩, rfl⟩, rfl⟩, ?_, rfl, ⟨1, rfl, rfl⟩, rfl⟩
  rintro d ⟨_, ⟨f, hf, _⟩, _⟩
  cases hf

/-! ### An instance of each theorem -/

theorem four_describes : Describes { amplitude := some 2, period := some 4 } ⟨2, 1 / 4 * Real.pi * 2, 0⟩ :=
  ⟨rfl, ⟨1 / 4, ⟨by norm_num, rfl⟩, rfl⟩, rfl⟩

-- `C132_assign`
example (old : Fields) : (assign ⟨Gate.init, old⟩ { amplitude := some 2, period := some 4 }).1 =
    ⟨Gate.init, ⟨some 2, some 0, some (1 / 4 * Real.pi * 2)⟩⟩ := by
  rw [C132_assign old four_describes]
  rfl

-- `C132_values`: an assignment that fails in between leaves no trace
example (d₀ : Data) : value (assignAll ⟨Gate.init, held d₀⟩ ([{ amplitude := some 1 }] ++ [{ amplitude := some 2, period := some 4 }])).1.data 1 =
    .ok 2 := by
  rw [(C132_values d₀ [{ amplitude := some 1 }] four_describes).2 1]
  have : (1 / 4 * Real.pi * 2 * 1 + 0 : ℝ) = Real.pi / 2 := by ring
  show Except.ok (2 * Real.sin (1 / 4 * Real.pi * 2 * 1 + 0)) = _
  rw [this, Real.sin_pi_div_two, mul_one]

-- `C132_slope_partial`: the crest is flat
example (d₀ : Data) : ∃ v, slope (assignAll ⟨Gate.init, held d₀⟩ ([] ++ [{ amplitude := some 2, period := some 4 }])).1.data 1 = .ok v ∧
    HasDerivAt (fun x => 2 * Real.sin (1 / 4 * Real.pi * 2 * x + 0)) (1 / 4 * Real.pi * 2 * v) 1 :=
  C132_slope_partial d₀ [] four_describes 1

-- `C132_announced_partial`
example (d₀ : Data) : ∀ r ∈ (assignAll ⟨Gate.init, held d₀⟩ [{ amplitude := some 2, period := some 4 }, { amplitude := some 2, period := some 4 }]).2,
    ∃ d d', r = ([.begin Iv.infinite (held d), .finish Iv.infinite (held d')], none) :=
  C132_announced_partial d₀ _ fun a ha => by
    simp only [List.mem_cons, List.not_mem_nil, or_false, or_self] at ha
    exact ⟨_, ha ▸ four_describes⟩

end Props
end Curvepy
