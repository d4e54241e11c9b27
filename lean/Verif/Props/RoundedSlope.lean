import Verif.Model.RoundedCurve
import Verif.Spec.RoundedCurve
import Verif.Props.RoundedLine
import Verif.Lemmas.Combine

/-!
# Property C157: steps and derivatives with rounded arithmetic
-/

namespace Curvepy
namespace Props
open Spec Crv

variable {fl : ℚ → ℚ} {u : ℚ}

/-! ## The derivative between two positions -/

/-- What is computed. -/
theorem dYR_eq (R : Rounding fl u) {c : Crv} {fwd : Bool} {m limit : Option Ext} {x x1 y y1 : ℚ}
    (hs : StepsTo c fwd m limit x x1) (hy : c.y (.fin x) = .ok (some (.fin y))) (hy1 : c.y (.fin x1) = .ok (some (.fin y1)))
    (h : x1 ≠ x) : c.dYR fl (.fin x) fwd m limit = .ok (some (.fin (fl (fl (y1 - y) / fl (x1 - x))))) := by
  unfold StepsTo at hs
  have hz : fl (x1 - x) ≠ 0 := R.ne_zero (sub_ne_zero.2 h)
  have hx : ¬ Ext.fin x1 = Ext.fin x := by simpa using h
  cases fwd <;>
  · simp only [Bool.false_eq_true, if_true, if_false] at hs
    simp only [dYR, hs, bind, Except.bind, Bool.false_eq_true, if_true, if_false, hy, hy1, if_neg hx, Num.ofExt, Num.sub,
      Num.neg, Num.add, Num.rounded, ← sub_eq_add_neg, Num.div, if_neg hz]
    rfl

/-- C157: the derivative is the slope between the two positions, with a relative error of at most five roundings. -/
theorem C157_error (R : Rounding fl u) {c : Crv} {fwd : Bool} {m limit : Option Ext} {x x1 y y1 : ℚ}
    (hs : StepsTo c fwd m limit x x1) (hy : c.y (.fin x) = .ok (some (.fin y))) (hy1 : c.y (.fin x1) = .ok (some (.fin y1)))
    (h : x1 ≠ x) :
    ∃ d, c.dYR fl (.fin x) fwd m limit = .ok (some (.fin d)) ∧ |d - chord x y x1 y1| ≤ 5 * u * |chord x y x1 y1| :=
  ⟨_, dYR_eq R hs hy hy1 h, R.ratio_ne _ (sub_ne_zero.2 h)⟩

theorem sign_of_error (R : Rounding fl u) {d s : ℚ} (h : |d - s| ≤ 5 * u * |s|) :
    (0 < d ↔ 0 < s) ∧ (d < 0 ↔ s < 0) ∧ (d = 0 ↔ s = 0) := by
  have hu := R.nonneg
  have hs := R.small
  have key : |d - s| ≤ 5 / 64 * |s| := h.trans (mul_le_mul_of_nonneg_right (by linarith) (abs_nonneg s))
  rw [abs_le] at key
  rcases lt_trichotomy s 0 with h0 | h0 | h0
  · rw [abs_of_neg h0] at key
    have : d < 0 := by linarith [key.2]
    exact ⟨⟨fun _ => by linarith, fun _ => by linarith⟩, ⟨fun _ => h0, fun _ => this⟩, ⟨fun _ => by linarith, fun _ => by linarith⟩⟩
  · rw [h0, abs_zero] at key
    have : d = 0 := by linarith [key.1, key.2]
    simp [this, h0]
  · rw [abs_of_pos h0] at key
    have : 0 < d := by linarith [key.1]
    exact ⟨⟨fun _ => h0, fun _ => this⟩, ⟨fun _ => by linarith, fun _ => by linarith⟩, ⟨fun _ => by linarith, fun _ => by linarith⟩⟩

/-- C157: its sign is right, and it is 0 only between equal values. -/
theorem C157_sign (R : Rounding fl u) {c : Crv} {fwd : Bool} {m limit : Option Ext} {x x1 y y1 : ℚ}
    (hs : StepsTo c fwd m limit x x1) (hy : c.y (.fin x) = .ok (some (.fin y))) (hy1 : c.y (.fin x1) = .ok (some (.fin y1)))
    (h : x1 ≠ x) :
    ∃ d, c.dYR fl (.fin x) fwd m limit = .ok (some (.fin d)) ∧ (0 < d ↔ 0 < chord x y x1 y1) ∧
      (d < 0 ↔ chord x y x1 y1 < 0) ∧ (d = 0 ↔ y1 = y) := by
  obtain ⟨d, hd, he⟩ := C157_error R hs hy hy1 h
  obtain ⟨h1, h2, h3⟩ := sign_of_error R he
  refine ⟨d, hd, h1, h2, h3.trans ?_⟩
  unfold chord
  rw [div_eq_zero_iff, sub_eq_zero, sub_eq_zero]
  exact ⟨fun k => k.resolve_right h, Or.inl⟩

/-- C157: numbers that need no rounding give the exact slope. -/
theorem C157_exact_slope (R : Rounding fl u) {c : Crv} {fwd : Bool} {m limit : Option Ext} {x x1 y y1 : ℚ}
    (hs : StepsTo c fwd m limit x x1) (hy : c.y (.fin x) = .ok (some (.fin y))) (hy1 : c.y (.fin x1) = .ok (some (.fin y1)))
    (h : x1 ≠ x) (h1 : Machine fl (y1 - y)) (h2 : Machine fl (x1 - x)) (h3 : Machine fl (chord x y x1 y1)) :
    c.dYR fl (.fin x) fwd m limit = .ok (some (.fin (chord x y x1 y1))) := by
  rw [dYR_eq R hs hy hy1 h, show fl (y1 - y) = y1 - y from h1, show fl (x1 - x) = x1 - x from h2]
  exact congrArg (fun t => Except.ok (some (Num.fin t))) h3

/-- C157: values that are wrong by at most `E` make the derivative wrong by about `2 E` over the step. -/
theorem C157_noise (R : Rounding fl u) {c : Crv} {fwd : Bool} {m limit : Option Ext} {x x1 y y1 Y Y1 E : ℚ}
    (hs : StepsTo c fwd m limit x x1) (hy : c.y (.fin x) = .ok (some (.fin y))) (hy1 : c.y (.fin x1) = .ok (some (.fin y1)))
    (h : x1 ≠ x) (hY : |y - Y| ≤ E) (hY1 : |y1 - Y1| ≤ E) :
    ∃ d, c.dYR fl (.fin x) fwd m limit = .ok (some (.fin d)) ∧
      |d - chord x Y x1 Y1| ≤ 5 * u * |chord x Y x1 Y1| + (1 + 5 * u) * (2 * E / |x1 - x|) := by
  obtain ⟨d, hd, he⟩ := C157_error R hs hy hy1 h
  refine ⟨d, hd, ?_⟩
  have hu := R.nonneg
  have hp : 0 < |x1 - x| := abs_pos.2 (sub_ne_zero.2 h)
  have k : |chord x y x1 y1 - chord x Y x1 Y1| ≤ 2 * E / |x1 - x| := by
    unfold chord
    rw [← sub_div, abs_div]
    refine div_le_div_of_nonneg_right ?_ hp.le
    rw [show y1 - y - (Y1 - Y) = (y1 - Y1) - (y - Y) by ring]
    have := abs_sub (y1 - Y1) (y - Y)
    linarith
  set s := chord x y x1 y1
  set S := chord x Y x1 Y1
  have k1 : |s| ≤ |S| + 2 * E / |x1 - x| := by
    have := abs_add_le (s - S) S
    rw [sub_add_cancel] at this
    linarith
  have k2 : |d - S| ≤ |d - s| + |s - S| := by
    have := abs_add_le (d - s) (s - S)
    rwa [sub_add_sub_cancel] at this
  have k3 : 5 * u * |s| ≤ 5 * u * (|S| + 2 * E / |x1 - x|) := mul_le_mul_of_nonneg_left k1 (by linarith)
  have e : 5 * u * (|S| + 2 * E / |x1 - x|) = 5 * u * |S| + 5 * u * (2 * E / |x1 - x|) := by ring
  linarith

/-- C157: of two curves that step alike, the one that rises more has the greater derivative. -/
theorem C157_order (R : Rounding fl u) {c c' : Crv} {fwd : Bool} {m limit : Option Ext} {x x1 y y1 y' y1' : ℚ}
    (hs : StepsTo c fwd m limit x x1) (hs' : StepsTo c' fwd m limit x x1)
    (hy : c.y (.fin x) = .ok (some (.fin y))) (hy1 : c.y (.fin x1) = .ok (some (.fin y1)))
    (hy' : c'.y (.fin x) = .ok (some (.fin y'))) (hy1' : c'.y (.fin x1) = .ok (some (.fin y1')))
    (h : x1 ≠ x) (hle : chord x y x1 y1 ≤ chord x y' x1 y1') :
    ∃ d d', c.dYR fl (.fin x) fwd m limit = .ok (some (.fin d)) ∧ c'.dYR fl (.fin x) fwd m limit = .ok (some (.fin d')) ∧
      d ≤ d' := by
  refine ⟨_, _, dYR_eq R hs hy hy1 h, dYR_eq R hs' hy' hy1' h, R.mono ?_⟩
  unfold chord at hle
  rcases lt_or_gt_of_ne (sub_ne_zero.2 h) with hn | hp
  · rw [div_le_div_right_of_neg hn] at hle
    exact div_le_div_of_nonpos_of_le (R.nonpos_of hn.le) (R.mono hle)
  · rw [div_le_div_iff_of_pos_right hp] at hle
    exact div_le_div_of_nonneg_right (R.mono hle) (R.nonneg_of hp.le)

/-- C157: a step that goes nowhere makes the derivative infinite, with a sign that says only which way it was asked for. -/
theorem C157_nowhere {c : Crv} {fwd : Bool} {m limit : Option Ext} {x y : ℚ} (hs : StepsTo c fwd m limit x x)
    (hy : c.y (.fin x) = .ok (some (.fin y))) :
    c.dYR fl (.fin x) fwd m limit = .ok (some (if fwd then .pinf else .ninf)) := by
  unfold StepsTo at hs
  have : Num.le (.fin y) (.fin y) = true := by simp [Num.le]
  cases fwd <;>
  · simp only [Bool.false_eq_true, if_true, if_false] at hs
    simp only [dYR, hs, bind, Except.bind, Bool.false_eq_true, if_true, if_false, hy, this]
    rfl

/-! ## Steps -/

/-- C157: without rounding these are the steps and derivatives of `Model/Curve`. -/
theorem num_rounded_id (n : Num) : n.rounded id = n := by cases n <;> rfl

theorem C157_exact (c : Crv) (x : Ext) (fwd : Bool) (m limit : Option Ext) : c.dYR id x fwd m limit = c.dY x fwd m limit := by
  simp only [dYR, dY, num_rounded_id]
  rfl

theorem C157_exact_generic (f : Ext → Except Err (Option Num)) (dom : Iv) (m : Option Ext) :
    genericR id f dom m = generic f dom m := by
  have h1 : baseNextR id dom m = baseNext dom m := by
    funext x arg limit
    simp only [baseNextR, baseNext]
    cases resolve m arg with
    | none => rfl
    | some e => cases x <;> cases e <;> rfl
  have h2 : basePreviousR id dom m = basePrevious dom m := by
    funext x arg limit
    simp only [basePreviousR, basePrevious]
    cases resolve m arg with
    | none => rfl
    | some e => cases x <;> cases e <;> rfl
  simp only [genericR, generic, h1, h2]

/-- C157: the differential is the derivative. -/
theorem C157_differential {c d : Crv} {fwd : Bool} (h : c.differentialR fl fwd = .ok d) :
    d.dom = c.dom ∧ ∀ {x : Ext} {v : Option Num}, c.y x = .ok v → d.y x = c.dYR fl x fwd := by
  simp only [differentialR, Crv.map] at h
  cases h
  refine ⟨rfl, fun {x v} hv => ?_⟩
  simp only [hv, bind, Except.bind, Bool.and_false]
  rfl

/-- Where the next step of a generic curve leads. -/
theorem genericR_next (f : Ext → Except Err (Option Num)) {dom : Iv} {own m : Option Ext} {q x : ℚ}
    (hm : resolve own m = some (.fin q)) (hd : dom.contains (.fin (fl (x + q))) = true) :
    StepsTo (genericR fl f dom own) true m none x (fl (x + q)) := by
  have hr : resolve own (some (.fin q)) = some (.fin q) := by
    cases own with
    | none => rfl
    | some e =>
      cases m with
      | none => simp [resolve] at hm ⊢; rw [hm]; simp
      | some a =>
        simp only [resolve, Option.some.injEq] at hm ⊢
        split_ifs at hm with hlt
        · rw [hm]; simp
        · rw [hm] at hlt; rw [if_neg hlt]
  have hd' : dom.contains (.fin (fl (x + q))) (enforceStart := false) = true := by
    rw [Iv.contains_iff] at hd
    rw [contains_noStart, Iv.not_isEmpty_of_mem ((Iv.contains_iff _ _).2 hd), hd.2]
    rfl
  simp only [StepsTo, genericR, baseNextR, hm, hr, if_true, step, Ext.isInf, Ext.addQ, Ext.rounded]
  simp [hd']

theorem genericR_previous (f : Ext → Except Err (Option Num)) {dom : Iv} {own m : Option Ext} {q x : ℚ}
    (hm : resolve own m = some (.fin q)) (hd : dom.contains (.fin (fl (x - q))) = true) :
    StepsTo (genericR fl f dom own) false m none x (fl (x - q)) := by
  have hr : resolve own (some (.fin q)) = some (.fin q) := by
    cases own with
    | none => rfl
    | some e =>
      cases m with
      | none => simp [resolve] at hm ⊢; rw [hm]; simp
      | some a =>
        simp only [resolve, Option.some.injEq] at hm ⊢
        split_ifs at hm with hlt
        · rw [hm]; simp
        · rw [hm] at hlt; rw [if_neg hlt]
  have hd' : dom.contains (.fin (fl (x - q))) (enforceEnd := false) = true := by
    rw [Iv.contains_iff] at hd
    rw [contains_noEnd, Iv.not_isEmpty_of_mem ((Iv.contains_iff _ _).2 hd), hd.1]
    rfl
  simp only [StepsTo, genericR, basePreviousR, hm, hr, stepBack, Ext.isInf, Ext.addQ, Ext.rounded, ← sub_eq_add_neg]
  simp [hd']

/-- C157: a step gets somewhere if it is longer than the rounding error of its end. -/
theorem C157_progress (R : Rounding fl u) {x m : ℚ} (h : u * (|x| + m) < m) : x < fl (x + m) ∧ fl (x - m) < x := by
  have hm : 0 ≤ m := by
    by_contra hc
    have := R.small
    have := R.nonneg
    have h0 := abs_nonneg x
    nlinarith
  have e1 := R.err (x + m)
  have e2 := R.err (x - m)
  have k1 : |x + m| ≤ |x| + m := by have := abs_add_le x m; rwa [abs_of_nonneg hm] at this
  have k2 : |x - m| ≤ |x| + m := by have := abs_sub x m; rwa [abs_of_nonneg hm] at this
  have l1 := mul_le_mul_of_nonneg_left k1 R.nonneg
  have l2 := mul_le_mul_of_nonneg_left k2 R.nonneg
  rw [abs_le] at e1 e2
  constructor
  · linarith [e1.1]
  · linarith [e2.2]

/-! ## Steps that are lost -/

theorem pyRound_near {q : ℚ} {n : ℤ} (h : |q - n| < 1 / 2) : pyRound q = n := by
  rw [abs_lt] at h
  have f1 := Int.floor_le q
  have f2 := Int.lt_floor_add_one q
  unfold pyRound
  by_cases hn : (n : ℚ) ≤ q
  · have : ⌊q⌋ = n := by
      rw [Int.floor_eq_iff]
      exact ⟨hn, by linarith [h.2]⟩
    rw [this, if_pos h.2]
  · push Not at hn
    have : ⌊q⌋ = n - 1 := by
      rw [Int.floor_eq_iff]
      push_cast
      exact ⟨by linarith [h.1], by linarith⟩
    rw [this]
    push_cast
    rw [if_neg (by linarith [h.1]), if_pos (by linarith [h.1])]
    omega

theorem roundTo_near {p : ℕ} {z : ℚ} {n : ℤ} (hz : z ≠ 0) (h : |z - n * spacing p z| < spacing p z / 2) :
    roundTo p z = n * spacing p z := by
  have hs := spacing_pos p z
  unfold roundTo
  rw [if_neg hz, pyRound_near (n := n)]
  rw [show z / spacing p z - n = (z - n * spacing p z) / spacing p z by field_simp, abs_div, abs_of_pos hs, div_lt_iff₀ hs]
  linarith

/-- A number of `binary64` that is greater than `2 ^ 37` swallows what is less than `2 ^ -16`. -/
theorem swallow_pos {x m : ℚ} (hx : Machine fl64 x) (h : 2 ^ 37 < x) (hm : |m| < 1 / 2 ^ 16) : fl64 (x + m) = x := by
  rw [abs_lt] at hm
  have x0 : 0 < x := lt_trans (by norm_num) h
  have l1 := log_le x0
  have l2 := lt_log x
  set e := Int.log 2 x with he
  have e37 : 37 ≤ e := by
    by_contra hc
    have hc : e + 1 ≤ 37 := by omega
    have : (2 : ℚ) ^ (e + 1) ≤ 2 ^ (37 : ℤ) := zpow_le_zpow_right₀ (by norm_num) hc
    norm_num at this h
    linarith
  -- the number as a multiple of its spacing
  have hsx : spacing 52 x = (2 : ℚ) ^ (e - 52) := by unfold spacing; rw [abs_of_pos x0]; rfl
  have hN : x = (pyRound (x / spacing 52 x) : ℚ) * (2 : ℚ) ^ (e - 52) := by
    have : roundTo 52 x = x := hx
    unfold roundTo at this
    rw [if_neg x0.ne'] at this
    rw [← hsx]
    exact this.symm
  set N := pyRound (x / spacing 52 x)
  have sbig : (1 : ℚ) / 2 ^ 15 ≤ (2 : ℚ) ^ (e - 52) := by
    have : (2 : ℚ) ^ (-15 : ℤ) ≤ (2 : ℚ) ^ (e - 52) := zpow_le_zpow_right₀ (by norm_num) (by omega)
    norm_num at this ⊢
    exact this
  set s : ℚ := (2 : ℚ) ^ (e - 52) with hs
  have spos : 0 < s := by positivity
  have top : (2 : ℚ) ^ (e + 1) = 2 ^ 53 * s := by
    rw [hs, ← zpow_natCast, ← zpow_add₀ (by norm_num)]
    congr 1
    push_cast
    ring
  have bot : (2 : ℚ) ^ e = 2 ^ 52 * s := by
    rw [hs, ← zpow_natCast, ← zpow_add₀ (by norm_num)]
    congr 1
    push_cast
    ring
  have N1 : N + 1 ≤ 2 ^ 53 := by
    have : (N : ℚ) < 2 ^ 53 := by
      by_contra hc
      push Not at hc
      have := mul_le_mul_of_nonneg_right hc spos.le
      rw [← top, ← hN] at this
      linarith
    have : (N : ℚ) < ((2 ^ 53 : ℤ) : ℚ) := by push_cast; exact this
    have := Int.cast_lt.1 this
    omega
  have N2 : 2 ^ 52 ≤ N := by
    have : (2 : ℚ) ^ 52 ≤ N := by
      by_contra hc
      push Not at hc
      have := mul_lt_mul_of_pos_right hc spos
      rw [← bot, ← hN] at this
      linarith
    have : ((2 ^ 52 : ℤ) : ℚ) ≤ N := by push_cast; exact this
    exact Int.cast_le.1 this
  have upper : x + m < (2 : ℚ) ^ (e + 1) := by
    have : ((N + 1 : ℤ) : ℚ) ≤ ((2 ^ 53 : ℤ) : ℚ) := Int.cast_le.2 N1
    push_cast at this
    have := mul_le_mul_of_nonneg_right this spos.le
    rw [add_mul, ← hN, one_mul] at this
    norm_num at top
    have : (1 : ℚ) / 2 ^ 16 < 1 / 2 ^ 15 := by norm_num
    linarith [hm.2]
  rcases N2.lt_or_eq with hlt | heq
  · -- the sum has the same exponent
    have lower : (2 : ℚ) ^ e ≤ x + m := by
      have : ((2 ^ 52 + 1 : ℤ) : ℚ) ≤ N := Int.cast_le.2 hlt
      push_cast at this
      have := mul_le_mul_of_nonneg_right this spos.le
      rw [← hN] at this
      norm_num at bot
      have : (1 : ℚ) / 2 ^ 16 < 1 / 2 ^ 15 := by norm_num
      linarith [hm.1]
    have z0 : 0 < x + m := lt_of_lt_of_le (by positivity) lower
    have hsz : spacing 52 (x + m) = s := by
      unfold spacing
      rw [abs_of_pos z0, log_eq lower upper]
      rfl
    have := roundTo_near (p := 52) (z := x + m) (n := N) z0.ne' (by
      rw [hsz, ← hN, add_sub_cancel_left, abs_lt]
      have : (1 : ℚ) / 2 ^ 16 = 1 / 2 ^ 15 / 2 := by norm_num
      constructor <;> linarith [hm.1, hm.2])
    rw [hsz, ← hN] at this
    exact this
  · -- a power of two
    have xe : x = (2 : ℚ) ^ e := by
      rw [bot, hN, ← heq]
      push_cast
      rfl
    have e38 : 38 ≤ e := by
      by_contra hc
      have : e = 37 := by omega
      rw [xe, this] at h
      norm_num at h
    rcases le_or_gt 0 m with hm0 | hm0
    · have lower : (2 : ℚ) ^ e ≤ x + m := by linarith
      have z0 : 0 < x + m := by linarith
      have hsz : spacing 52 (x + m) = s := by
        unfold spacing
        rw [abs_of_pos z0, log_eq lower upper]
        rfl
      have := roundTo_near (p := 52) (z := x + m) (n := N) z0.ne' (by
        rw [hsz, ← hN, add_sub_cancel_left, abs_lt]
        have : (1 : ℚ) / 2 ^ 16 = 1 / 2 ^ 15 / 2 := by norm_num
        constructor <;> linarith [hm.1, hm.2])
      rw [hsz, ← hN] at this
      exact this
    · have half : (2 : ℚ) ^ (e - 1 - 52) = s / 2 := by
        rw [hs, show e - 52 = (e - 1 - 52) + 1 by ring, zpow_add_one₀ (by norm_num)]
        ring
      have sbig' : (1 : ℚ) / 2 ^ 14 ≤ s := by
        have : (2 : ℚ) ^ (-14 : ℤ) ≤ (2 : ℚ) ^ (e - 52) := zpow_le_zpow_right₀ (by norm_num) (by omega)
        norm_num at this ⊢
        exact this
      have down : (2 : ℚ) ^ (e - 1) = 2 ^ 51 * s := by
        rw [hs, ← zpow_natCast, ← zpow_add₀ (by norm_num)]
        congr 1
        push_cast
        ring
      have lower : (2 : ℚ) ^ (e - 1) ≤ x + m := by
        rw [down, xe, bot]
        have : (1 : ℚ) / 2 ^ 16 < 1 / 2 ^ 14 := by norm_num
        linarith [hm.1]
      have upper' : x + m < (2 : ℚ) ^ (e - 1 + 1) := by rw [sub_add_cancel]; linarith
      have z0 : 0 < x + m := lt_of_lt_of_le (by positivity) lower
      have hsz : spacing 52 (x + m) = s / 2 := by
        unfold spacing
        rw [abs_of_pos z0, log_eq lower upper']
        exact half
      have hN2 : ((2 * N : ℤ) : ℚ) * (s / 2) = x := by
        rw [hN]
        push_cast
        ring
      have := roundTo_near (p := 52) (z := x + m) (n := 2 * N) z0.ne' (by
        rw [hsz, hN2, add_sub_cancel_left, abs_lt]
        have : (1 : ℚ) / 2 ^ 16 = 1 / 2 ^ 14 / 2 / 2 := by norm_num
        constructor <;> linarith [hm.1, hm.2])
      rw [hsz, hN2] at this
      exact this

/-- C157: the same with a sign. -/
theorem C157_swallow {x m : ℚ} (hx : Machine fl64 x) (h : 2 ^ 37 < |x|) (hm : |m| < 1 / 2 ^ 16) : fl64 (x + m) = x := by
  rcases lt_or_ge 0 x with h0 | h0
  · rw [abs_of_pos h0] at h
    exact swallow_pos hx h hm
  · rw [abs_of_nonpos h0] at h
    have hx' : Machine fl64 (-x) := by unfold Machine; rw [fl64_rounding.odd, show fl64 x = x from hx]
    have := swallow_pos (m := -m) hx' h (by rwa [abs_neg])
    rw [← neg_add, fl64_rounding.odd] at this
    exact neg_injective this

/-- C157, a negation: beyond `2 ^ 37` every generic curve that is asked with the usual step has infinite derivatives,
`-inf` before the position and `inf` after it, whatever its values are. -/
theorem C157_infinite {f : Ext → Except Err (Option Num)} {dom : Iv} {own m : Option Ext} {q x y : ℚ}
    (hm : resolve own m = some (.fin q)) (hq : |q| < 1 / 2 ^ 16) (hx : Machine fl64 x) (h : 2 ^ 37 < |x|)
    (hd : dom.contains (.fin x) = true) (hf : f (.fin x) = .ok (some (.fin y))) :
    (genericR fl64 f dom own).dYR fl64 (.fin x) false m = .ok (some .ninf) ∧
    (genericR fl64 f dom own).dYR fl64 (.fin x) true m = .ok (some .pinf) := by
  have hy : (genericR fl64 f dom own).y (.fin x) = .ok (some (.fin y)) := by simp [genericR, hd, hf]
  have h1 : fl64 (x + q) = x := C157_swallow hx h hq
  have h2 : fl64 (x - q) = x := by
    rw [sub_eq_add_neg]
    exact C157_swallow hx h (by rwa [abs_neg])
  constructor
  · have := genericR_previous (fl := fl64) f (dom := dom) (x := x) hm (by rw [h2]; exact hd)
    rw [h2] at this
    exact C157_nowhere this hy
  · have := genericR_next (fl := fl64) f (dom := dom) (x := x) hm (by rw [h1]; exact hd)
    rw [h1] at this
    exact C157_nowhere this hy

/-- C157: up to `2 ^ 36` the usual step gets somewhere. -/
theorem C157_usual_step {x : ℚ} (h : |x| ≤ 2 ^ 36) : x < fl64 (x + 1 / 100000) ∧ fl64 (x - 1 / 100000) < x := by
  refine C157_progress fl64_rounding ?_
  linarith

/-! ## Examples -/

/-- A curve whose value is its position. -/
def climbing : Crv := genericR fl64 (fun x => .ok (some (.ofExt x)))

/-- A curve whose value is its position, with the sign changed. -/
def sinking : Crv := genericR fl64 (fun x => .ok (some (Num.neg (.ofExt x))))

/-- C157, a negation: at `1.6 * 10 ^ 12` (milliseconds, in the year 2020) a curve that rises with slope 1 has the
derivative `-inf`. -/
theorem C157_negation : climbing.dYR fl64 (.fin 1600000000000) = .ok (some .ninf) := by decide +kernel

example : climbing.dYR fl64 (.fin 1600000000) = .ok (some (.fin 1)) := by decide +kernel
example : sinking.dYR fl64 (.fin 3) true = .ok (some (.fin (-1))) := by decide +kernel
example : climbing.dYR fl64 (.fin 1600000000000) true (some (.fin (1 / 2))) = .ok (some (.fin 1)) := by decide +kernel
example : fl64 (1600000000000 + 1 / 100000) = 1600000000000 := by decide +kernel
example : resolve (some MIN_STEP) (some MIN_STEP) = some (.fin (1 / 100000)) := by decide +kernel
example : StepsTo climbing false (some (.fin 1)) none 5 4 := by unfold StepsTo; decide +kernel
example : StepsTo sinking false (some (.fin 1)) none 5 4 := by unfold StepsTo; decide +kernel
example : chord 5 (-5) 4 (-4) ≤ chord 5 5 4 4 := by unfold chord; norm_num
example : climbing.dYR fl64 (.fin 5) false (some (.fin (1 / 3))) = .ok (some (.fin 1)) ∧
    fl64 (5 - 1 / 3) ≠ 5 - 1 / 3 := by decide +kernel
/-! ## An instance of each theorem -/

theorem climbing_back : StepsTo climbing false (some (.fin 1)) none 5 4 := by unfold StepsTo; decide +kernel

theorem sinking_back : StepsTo sinking false (some (.fin 1)) none 5 4 := by unfold StepsTo; decide +kernel

example : ∃ d, climbing.dYR fl64 (.fin 5) false (some (.fin 1)) none = .ok (some (.fin d)) ∧
    |d - chord 5 5 4 4| ≤ 5 * (1 / 2 ^ 53) * |chord 5 5 4 4| :=
  C157_error fl64_rounding climbing_back (by decide +kernel) (by decide +kernel) (by norm_num)

example : ∃ d, sinking.dYR fl64 (.fin 5) false (some (.fin 1)) none = .ok (some (.fin d)) ∧ d < 0 := by
  obtain ⟨d, h1, _, h2, _⟩ := C157_sign (y := -5) (y1 := -4) fl64_rounding sinking_back (by decide +kernel) (by decide +kernel)
    (by norm_num)
  exact ⟨d, h1, h2.2 (by norm_num [chord])⟩

example : sinking.dYR fl64 (.fin 5) false (some (.fin 1)) none = .ok (some (.fin (-1))) := by
  rw [C157_exact_slope (y := -5) (y1 := -4) fl64_rounding sinking_back (by decide +kernel) (by decide +kernel) (by norm_num)
    (by unfold Machine; decide +kernel) (by unfold Machine; decide +kernel) (by unfold Machine chord; decide +kernel)]
  norm_num [chord]

/-- Values that are off by a hundredth: the slope is off by a fiftieth and a little. -/
example : ∃ d, climbing.dYR fl64 (.fin 5) false (some (.fin 1)) none = .ok (some (.fin d)) ∧
    |d - chord 5 (501 / 100) 4 (399 / 100)| ≤ 21 / 1000 := by
  obtain ⟨d, h1, h2⟩ := C157_noise (Y := 501 / 100) (Y1 := 399 / 100) (E := 1 / 100) fl64_rounding climbing_back
    (y := 5) (y1 := 4) (by decide +kernel) (by decide +kernel) (by norm_num) (by norm_num [abs_le]) (by norm_num [abs_le])
  refine ⟨d, h1, h2.trans ?_⟩
  norm_num [chord, abs_of_nonneg]

example : ∃ d d', sinking.dYR fl64 (.fin 5) false (some (.fin 1)) none = .ok (some (.fin d)) ∧
    climbing.dYR fl64 (.fin 5) false (some (.fin 1)) none = .ok (some (.fin d')) ∧ d ≤ d' :=
  C157_order fl64_rounding sinking_back climbing_back (y := -5) (y1 := -4) (y' := 5) (y1' := 4) (by decide +kernel)
    (by decide +kernel) (by decide +kernel) (by decide +kernel) (by norm_num) (by norm_num [chord])

example : (1600000000 : ℚ) < fl64 (1600000000 + 1 / 100000) :=
  (C157_progress fl64_rounding (x := 1600000000) (m := 1 / 100000) (by norm_num [abs_of_nonneg])).1

example : fl64 (2 ^ 40 + 1 / 2 ^ 17) = 2 ^ 40 :=
  C157_swallow (by unfold Machine; decide +kernel) (by norm_num [abs_of_nonneg]) (by norm_num [abs_of_nonneg])

example : climbing.dYR id (.fin 5) false none none = climbing.dY (.fin 5) false none none := C157_exact _ _ _ _ _

end Props
end Curvepy
