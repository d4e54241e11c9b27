import Verif.Model.Harmonic
import Verif.Spec.Lucas

/-!
# Properties C108: harmonic averages
-/

namespace Curvepy
namespace Props
open Harm Real

theorem roundEven_near {r : ℝ} {n : ℤ} (h : |r - n| < 1 / 2) : roundEven r = n := by
  rw [abs_lt] at h
  unfold roundEven
  by_cases hn : (n : ℝ) ≤ r
  · have : ⌊r⌋ = n := by rw [Int.floor_eq_iff]; constructor <;> linarith
    rw [this, if_pos (by linarith)]
  · have : ⌊r⌋ = n - 1 := by
      rw [Int.floor_eq_iff]; push_cast; constructor <;> linarith
    rw [this]; push_cast
    rw [if_neg (by linarith), if_pos (by linarith)]; ring

theorem lucas_binet : ∀ n, (Spec.lucas n : ℝ) = goldenRatio ^ n + goldenConj ^ n
  | 0 => by norm_num [Spec.lucas]
  | 1 => by rw [pow_one, pow_one, goldenRatio_add_goldenConj]; norm_num [Spec.lucas]
  | n + 2 => by
    have e : Spec.lucas (n + 2) = Spec.lucas (n + 1) + Spec.lucas n := rfl
    rw [e]; push_cast
    rw [lucas_binet (n + 1), lucas_binet n, pow_add _ n 2, pow_add _ n 2, goldenRatio_sq, goldenConj_sq]; ring

theorem two_lt_sqrt5 : 2 < √5 := by
  rw [show (2 : ℝ) = √4 by rw [show (4 : ℝ) = 2 ^ 2 by norm_num, Real.sqrt_sq (by norm_num)]]
  exact Real.sqrt_lt_sqrt (by norm_num) (by norm_num)

theorem conj_small (n : ℕ) : |goldenConj ^ (n + 2)| < 1 / 2 := by
  have h1 : goldenConj ^ 2 < 1 / 2 := by
    rw [goldenConj_sq, goldenConj]; have := two_lt_sqrt5; linarith
  have h2 : |goldenConj| ≤ 1 := abs_le.mpr ⟨neg_one_lt_goldenConj.le, goldenConj_neg.le.trans zero_le_one⟩
  rw [pow_add, abs_mul, abs_pow, abs_of_nonneg (sq_nonneg goldenConj)]
  calc |goldenConj| ^ n * goldenConj ^ 2 ≤ 1 * goldenConj ^ 2 := by
        gcongr; exact pow_le_one₀ (abs_nonneg _) h2
    _ < 1 / 2 := by linarith

/-- `round`: the nearest whole number, of two the even one. -/
theorem roundEven_spec (r : ℝ) : |r - roundEven r| ≤ 1 / 2 ∧ (|r - roundEven r| = 1 / 2 → roundEven r % 2 = 0) := by
  have h1 := Int.floor_le r
  have h2 := Int.lt_floor_add_one r
  unfold roundEven
  split
  · rw [abs_of_nonneg (by linarith)]
    exact ⟨by linarith, fun h => by linarith⟩
  · split
    · push_cast
      rw [abs_of_nonpos (by linarith)]
      exact ⟨by linarith, fun h => by linarith⟩
    · have h3 : r - ⌊r⌋ = 1 / 2 := by linarith
      split
      · rename_i he
        rw [h3, abs_of_nonneg (by norm_num)]
        exact ⟨le_rfl, fun _ => he⟩
      · rename_i he
        push_cast
        rw [abs_of_nonpos (by linarith)]
        exact ⟨by linarith, fun _ => by omega⟩

/-- The powers of the golden ratio, rounded. -/
theorem round_golden : ∀ n : ℕ, roundEven (goldenRatio ^ n) = Spec.golden n
  | 0 => by apply roundEven_near; norm_num [Spec.golden]
  | 1 => by
    apply roundEven_near
    rw [pow_one, goldenRatio, Spec.golden, abs_lt]
    have := two_lt_sqrt5
    have h3 : √5 < 3 := by
      rw [show (3 : ℝ) = √9 by rw [show (9 : ℝ) = 3 ^ 2 by norm_num, Real.sqrt_sq (by norm_num)]]
      exact Real.sqrt_lt_sqrt (by norm_num) (by norm_num)
    push_cast
    constructor <;> linarith
  | n + 2 => by
    apply roundEven_near
    have := lucas_binet (n + 2)
    rw [Spec.golden]; push_cast; rw [this]
    rw [show goldenRatio ^ (n + 2) - (goldenRatio ^ (n + 2) + goldenConj ^ (n + 2)) = -goldenConj ^ (n + 2) by ring,
      abs_neg]
    exact conj_small n

theorem lucas_pos : ∀ n, 0 < Spec.lucas n
  | 0 => by decide
  | 1 => by decide
  | n + 2 => Nat.add_pos_left (lucas_pos (n + 1)) _

theorem golden_succ : ∀ n, Spec.golden n < Spec.golden (n + 1)
  | 0 => by decide
  | 1 => by decide
  | n + 2 => by
    show Spec.lucas (n + 2) < Spec.lucas (n + 2) + Spec.lucas (n + 1)
    have := lucas_pos (n + 1); omega

theorem golden_mono : StrictMono Spec.golden := strictMono_nat_of_lt_succ golden_succ

theorem golden_pos (n : ℕ) : 0 < Spec.golden n :=
  lt_of_lt_of_le (by decide) (golden_mono.monotone (Nat.zero_le n))

theorem periodAt_eq {base : ℝ} (hb : base ≠ 0) (stride i : ℕ) :
    periodAt base ((stride : ℤ) + 1) i = .ok (Spec.golden (i * (stride + 1)) * base) := by
  unfold periodAt
  rw [if_neg hb, mul_div_cancel_left₀ _ hb,
    show ((i : ℤ) * ((stride : ℤ) + 1)) = ((i * (stride + 1) : ℕ) : ℤ) by push_cast; ring, zpow_natCast, round_golden]
  push_cast; rfl

theorem harmonicLoop_eq {base : ℝ} (hb : base ≠ 0) (stride : ℕ) : ∀ is ps,
    harmonicLoop base ((stride : ℤ) + 1) is ps =
      .ok (ps ++ is.map fun i => Spec.golden (i * (stride + 1)) * base)
  | [], ps => by simp [harmonicLoop]
  | i :: is, ps => by
    rw [harmonicLoop, periodAt_eq hb]; simp only; rw [harmonicLoop_eq hb stride is]; simp

theorem centeredLoop_eq {base : ℝ} (hb : base ≠ 0) (stride : ℕ) : ∀ is ps,
    centeredLoop base ((stride : ℤ) + 1) is ps =
      .ok ((is.map fun i => Spec.golden (i * (stride + 1)) * base).reverse ++ ps)
  | [], ps => by simp [centeredLoop]
  | i :: is, ps => by
    rw [centeredLoop, periodAt_eq hb]; simp only; rw [centeredLoop_eq hb stride is]; simp

theorem smaLoop_periods : ∀ ps : List ℝ, (∀ p ∈ ps, 0 < p) → smaLoop true ps = .ok (ps.map .period)
  | [], _ => rfl
  | p :: ps, h => by
    rw [smaLoop, smaWindow, if_pos rfl, if_neg (not_le.mpr (h p (by simp)))]
    simp only
    rw [smaLoop_periods ps fun q hq => h q (by simp [hq])]; rfl

theorem smaLoop_degrees : ∀ ns : List ℤ, (∀ n ∈ ns, 0 < n) →
    smaLoop false (ns.map (Int.cast : ℤ → ℝ)) = .ok (ns.map .degree)
  | [], _ => rfl
  | n :: ns, h => by
    have hn := h n (by simp)
    have e : truncate (n : ℝ) = n := by
      unfold truncate; rw [if_pos (by exact_mod_cast hn.le), Int.floor_intCast]
    rw [List.map_cons, smaLoop, smaWindow, if_neg (by simp), e, if_neg (not_le.mpr hn)]
    simp only
    rw [smaLoop_degrees ns fun q hq => h q (by simp [hq])]; rfl

/-- C108: the averages by length are the base times 1, 2, 3, 4, 7, 11, … taken `stride + 1` apart, in order. -/
theorem C108_periods {base : ℝ} (hb : 0 < base) (count stride : ℕ) :
    harmonicSmas base count stride true =
      .ok ((List.range count).map fun i => .period (Spec.golden (i * (stride + 1)) * base)) := by
  rw [harmonicSmas, harmonicLoop_eq hb.ne']
  simp only [List.nil_append]
  rw [smaLoop_periods]
  · simp [Function.comp_def]
  · intro p hp
    obtain ⟨i, -, rfl⟩ := List.mem_map.mp hp
    exact mul_pos (by exact_mod_cast golden_pos _) hb

/-- C108: so are the averages by number of points, for a base that is a number of points. -/
theorem C108_degrees {base : ℕ} (hb : 0 < base) (count stride : ℕ) :
    harmonicSmas base count stride false =
      .ok ((List.range count).map fun i => .degree (Spec.golden (i * (stride + 1)) * base)) := by
  have hb' : (base : ℝ) ≠ 0 := by exact_mod_cast hb.ne'
  rw [harmonicSmas, harmonicLoop_eq hb']
  simp only [List.nil_append]
  rw [show ((List.range count).map fun i => (Spec.golden (i * (stride + 1)) : ℝ) * (base : ℝ)) =
    ((List.range count).map fun i => ((Spec.golden (i * (stride + 1)) : ℤ) * (base : ℤ))).map (Int.cast : ℤ → ℝ) by
      rw [List.map_map]; apply List.map_congr_left; intro i _; simp, smaLoop_degrees]
  · simp [Function.comp_def]
  · intro p hp
    obtain ⟨i, -, rfl⟩ := List.mem_map.mp hp
    exact mul_pos (by exact_mod_cast golden_pos _) (by exact_mod_cast hb)

/-- C108: `centered_macs` has the same averages from large to small. -/
theorem C108_centered {base : ℝ} (hb : 0 < base) (count stride : ℕ) (isPeriod : Bool) (ws : List Win)
    (h : harmonicSmas base count stride isPeriod = .ok ws) : centeredMacs base count stride isPeriod = .ok ws.reverse := by
  have aux : ∀ ps : List ℝ, ∀ ws, smaLoop isPeriod ps = .ok ws → ∀ qs vs, smaLoop isPeriod qs = .ok vs →
      smaLoop isPeriod (ps.reverse ++ qs) = .ok (ws.reverse ++ vs) := by
    intro ps
    induction ps with
    | nil => intro ws h qs vs h2; cases h; simpa using h2
    | cons p ps ih =>
      intro ws h qs vs h2
      rw [smaLoop] at h
      cases hw : smaWindow isPeriod p with
      | error e => rw [hw] at h; cases h
      | ok w =>
        rw [hw] at h
        simp only at h
        cases hr : smaLoop isPeriod ps with
        | error e => rw [hr] at h; cases h
        | ok ws' =>
          rw [hr] at h
          cases h
          rw [List.reverse_cons, List.append_assoc, List.reverse_cons, List.append_assoc]
          apply ih _ hr
          rw [List.singleton_append, smaLoop, hw]
          simp only; rw [h2]; rfl
  rw [harmonicSmas, harmonicLoop_eq hb.ne'] at h
  rw [centeredMacs, centeredLoop_eq hb.ne']
  simpa using aux _ _ h [] [] rfl

/-- C108: each is larger than the one before, and closer to the power of the golden ratio than half the base. -/
theorem C108_growing {base : ℝ} (hb : 0 < base) (stride i j : ℕ) (h : i < j) :
    (Spec.golden (i * (stride + 1)) : ℝ) * base < Spec.golden (j * (stride + 1)) * base := by
  have := golden_mono (Nat.mul_lt_mul_of_pos_right h (Nat.succ_pos stride))
  gcongr

theorem C108_close {base : ℝ} (hb : 0 < base) (n : ℕ) :
    |(Spec.golden n : ℝ) * base - base * goldenRatio ^ n| < base / 2 := by
  have key : |(Spec.golden n : ℝ) - goldenRatio ^ n| < 1 / 2 := by
    match n with
    | 0 => norm_num [Spec.golden]
    | 1 =>
      rw [pow_one, goldenRatio, Spec.golden, abs_lt]
      have := two_lt_sqrt5
      have h3 : √5 < 3 := by
        rw [show (3 : ℝ) = √9 by rw [show (9 : ℝ) = 3 ^ 2 by norm_num, Real.sqrt_sq (by norm_num)]]
        exact Real.sqrt_lt_sqrt (by norm_num) (by norm_num)
      push_cast
      constructor <;> linarith
    | n + 2 =>
      rw [Spec.golden, lucas_binet, add_sub_cancel_left]; exact conj_small n
  rw [show (Spec.golden n : ℝ) * base - base * goldenRatio ^ n = ((Spec.golden n : ℝ) - goldenRatio ^ n) * base by ring,
    abs_mul, abs_of_pos hb]
  nlinarith

/-- The default stride: 1, 3, 7, 18 times the base. -/
example : harmonicSmas (5 : ℕ) 4 1 false = .ok [.degree 5, .degree 15, .degree 35, .degree 90] := by
  have := C108_degrees (base := 5) (by norm_num) 4 1
  rw [show ((1 : ℕ) : ℤ) = 1 by rfl] at this
  rw [this]; simp [List.range_succ, Spec.golden, Spec.lucas]

/-- C108 fails for a base that is not a number of points: there is no average of less than one point. -/
theorem C108_negation : harmonicSmas (1 / 2) 1 1 false = .error .exception := by
  have := harmonicLoop_eq (base := 1 / 2) (by norm_num) 1 (List.range 1) []
  rw [show (((1 : ℕ) : ℤ) + 1) = 1 + 1 by rfl] at this
  rw [harmonicSmas, this]
  have : truncate (((Spec.golden (0 * (1 + 1)) : ℕ) : ℝ) * (1 / 2)) = 0 := by
    unfold truncate; norm_num [Spec.golden]
  simp only [List.range_one, List.map_cons, List.map_nil, List.nil_append, smaLoop, smaWindow, this]
  simp

/-- C108 fails for a negative stride below -1: the second window is empty. -/
theorem C108_negation_stride : harmonicSmas 5 2 (-3) true = .error .exception := by
  have h1 : goldenRatio ^ (-2 : ℤ) = goldenConj ^ 2 := by
    rw [zpow_neg, ← inv_zpow, inv_goldenRatio]
    norm_cast
    rw [neg_sq]
  have h2 : roundEven (goldenRatio ^ (-2 : ℤ)) = 0 := by
    apply roundEven_near
    rw [h1]; simpa using conj_small 0
  have h3 : roundEven 1 = 1 := roundEven_near (by norm_num)
  have h4 : periodAt 5 (-3 + 1) 0 = .ok 5 := by simp [periodAt, h3]
  have h5 : periodAt 5 (-3 + 1) 1 = .ok 0 := by
    unfold periodAt
    rw [if_neg (by norm_num), mul_div_cancel_left₀ _ (by norm_num),
      show (((1 : ℕ) : ℤ) * (-3 + 1)) = -2 by norm_num, h2]; simp
  rw [harmonicSmas, show List.range 2 = [0, 1] by rfl]
  simp only [harmonicLoop, h4, h5, List.nil_append, List.singleton_append, smaLoop, smaWindow]
  norm_num
  rfl
/-! ## An instance of each theorem -/

example : harmonicSmas (10 : ℝ) 3 0 true =
    .ok [.period (Spec.golden 0 * 10), .period (Spec.golden 1 * 10), .period (Spec.golden 2 * 10)] := by
  have := C108_periods (base := 10) (by norm_num) 3 0
  rw [show ((0 : ℕ) : ℤ) = 0 by rfl] at this
  rw [this]; simp [List.range_succ]

example : centeredMacs (10 : ℝ) 3 (0 : ℕ) true =
    .ok ((List.range 3).map fun i => Win.period (Spec.golden (i * (0 + 1)) * 10)).reverse :=
  C108_centered (by norm_num) 3 0 true _ (C108_periods (by norm_num) 3 0)

example : (Spec.golden (1 * (0 + 1)) : ℝ) * 10 < Spec.golden (2 * (0 + 1)) * 10 := C108_growing (by norm_num) 0 1 2 (by norm_num)

example : |(Spec.golden 4 : ℝ) * 10 - 10 * goldenRatio ^ 4| < 10 / 2 := C108_close (by norm_num) 4

end Props
end Curvepy
