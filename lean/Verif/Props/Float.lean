import Verif.Spec.Rounding
import Verif.Model.Float
import Verif.Props.Sampling
import Mathlib.Algebra.Order.Field.Power
import Mathlib.Tactic.Positivity
import Mathlib.Tactic.FieldSimp
import Mathlib.Tactic.NormNum
import Mathlib.Tactic.Ring

/-!
# Rounding to binary digits is a rounding
-/

namespace Curvepy
namespace Props
open Spec

/-! ## `round` -/

theorem pyRound_int (n : ℤ) : pyRound (n : ℚ) = n := by
  unfold pyRound
  rw [Int.floor_intCast, sub_self, if_pos (by norm_num)]

theorem pyRound_floor (q : ℚ) : ⌊q⌋ ≤ pyRound q ∧ pyRound q ≤ ⌊q⌋ + 1 := by
  unfold pyRound
  split_ifs <;> omega

theorem pyRound_le {q r : ℚ} (h : q ≤ r) : pyRound q ≤ pyRound r := by
  rcases (Int.floor_le_floor h).lt_or_eq with hf | hf
  · have := (pyRound_floor q).2
    have := (pyRound_floor r).1
    omega
  · unfold pyRound
    rw [hf]
    split_ifs <;> first | omega | (exfalso; linarith)

theorem pyRound_neg (q : ℚ) : pyRound (-q) = - pyRound q := by
  have h1 := Int.floor_le q
  have h2 := Int.lt_floor_add_one q
  by_cases hz : q = ⌊q⌋
  · rw [hz, ← Int.cast_neg, pyRound_int, pyRound_int]
  · have hf : ⌊-q⌋ = -⌊q⌋ - 1 := by
      rw [Int.floor_eq_iff]
      push_cast
      refine ⟨by linarith, ?_⟩
      have : (⌊q⌋ : ℚ) < q := lt_of_le_of_ne h1 (Ne.symm hz)
      linarith
    unfold pyRound
    rw [hf]
    push_cast
    split_ifs <;> first | omega | (exfalso; linarith)

/-! ## `roundTo` -/

variable {p : ℕ}

theorem spacing_pos (p : ℕ) (q : ℚ) : 0 < spacing p q := by unfold spacing; positivity

theorem spacing_neg (p : ℕ) (q : ℚ) : spacing p (-q) = spacing p q := by unfold spacing; rw [abs_neg]

theorem spacing_mul (p : ℕ) (q : ℚ) : spacing p q * 2 ^ p = (2 : ℚ) ^ Int.log 2 |q| := by
  unfold spacing
  rw [← zpow_natCast, ← zpow_add₀ (by norm_num)]
  congr 1
  ring

theorem log_le {q : ℚ} (h : 0 < q) : (2 : ℚ) ^ Int.log 2 q ≤ q := by
  have := Int.zpow_log_le_self (b := 2) (by norm_num) h
  exact_mod_cast this

theorem lt_log (q : ℚ) : q < (2 : ℚ) ^ (Int.log 2 q + 1) := by
  have := Int.lt_zpow_succ_log_self (b := 2) (by norm_num) q
  exact_mod_cast this

theorem log_eq {q : ℚ} {e : ℤ} (h1 : (2 : ℚ) ^ e ≤ q) (h2 : q < (2 : ℚ) ^ (e + 1)) : Int.log 2 q = e := by
  have hq : 0 < q := lt_of_lt_of_le (by positivity) h1
  have h3 := log_le hq
  have h4 := lt_log q
  have a := (zpow_lt_zpow_iff_right₀ (a := (2 : ℚ)) (by norm_num)).1 (lt_of_le_of_lt h1 h4)
  have b := (zpow_lt_zpow_iff_right₀ (a := (2 : ℚ)) (by norm_num)).1 (lt_of_le_of_lt h3 h2)
  omega

/-- Numbers with enough digits stay as they are. -/
theorem roundTo_fix {n k : ℤ} (h : |n| ≤ 2 ^ (p + 1)) : roundTo p (n * (2 : ℚ) ^ k) = n * (2 : ℚ) ^ k := by
  unfold roundTo
  by_cases h0 : (n : ℚ) * (2 : ℚ) ^ k = 0
  · rw [if_pos h0, h0]
  · rw [if_neg h0]
    have hs := spacing_pos p ((n : ℚ) * (2 : ℚ) ^ k)
    suffices hh : ∃ j : ℤ, (n : ℚ) * (2 : ℚ) ^ k = j * spacing p ((n : ℚ) * (2 : ℚ) ^ k) by
      obtain ⟨j, hj⟩ := hh
      have : (n : ℚ) * (2 : ℚ) ^ k / spacing p ((n : ℚ) * (2 : ℚ) ^ k) = j := by
        rw [div_eq_iff hs.ne']; exact hj
      rw [this, pyRound_int]
      exact hj.symm
    have habs : |(n : ℚ) * (2 : ℚ) ^ k| = |(n : ℚ)| * (2 : ℚ) ^ k := by
      rw [abs_mul, abs_of_pos (a := (2 : ℚ) ^ k) (by positivity)]
    set e := Int.log 2 |(n : ℚ) * (2 : ℚ) ^ k| with he
    have hpos : 0 < |(n : ℚ) * (2 : ℚ) ^ k| := abs_pos.2 h0
    have h1 := log_le hpos
    rw [← he, habs] at h1
    have hn : |(n : ℚ)| ≤ (2 : ℚ) ^ ((p : ℤ) + 1) := by
      rw [← Int.cast_abs]
      calc ((|n| : ℤ) : ℚ) ≤ ((2 ^ (p + 1) : ℤ) : ℚ) := by exact_mod_cast h
        _ = (2 : ℚ) ^ ((p : ℤ) + 1) := by push_cast; norm_cast
    have hk : e ≤ k + p + 1 := by
      have h3 : (2 : ℚ) ^ e ≤ (2 : ℚ) ^ (k + p + 1) := by
        calc (2 : ℚ) ^ e ≤ |(n : ℚ)| * (2 : ℚ) ^ k := h1
          _ ≤ (2 : ℚ) ^ ((p : ℤ) + 1) * (2 : ℚ) ^ k := by gcongr
          _ = (2 : ℚ) ^ (k + p + 1) := by rw [← zpow_add₀ (by norm_num)]; congr 1; ring
      exact (zpow_le_zpow_iff_right₀ (by norm_num)).1 h3
    unfold spacing
    rw [← he]
    by_cases hc : e - p ≤ k
    · obtain ⟨m, hm⟩ := Int.eq_ofNat_of_zero_le (show 0 ≤ k - (e - p) by omega)
      refine ⟨n * 2 ^ m, ?_⟩
      push_cast
      rw [mul_assoc]
      congr 1
      rw [← zpow_natCast, ← zpow_add₀ (by norm_num)]
      congr 1
      have : (m : ℤ) = k - (e - p) := hm.symm
      omega
    · have hee : e = k + p + 1 := by omega
      have h3 : |(n : ℚ)| = (2 : ℚ) ^ ((p : ℤ) + 1) := by
        refine le_antisymm hn ?_
        rw [hee, show k + (p : ℤ) + 1 = ((p : ℤ) + 1) + k by ring, zpow_add₀ (by norm_num)] at h1
        exact le_of_mul_le_mul_right h1 (by positivity)
      have h4 : (n : ℚ) = (2 : ℚ) ^ ((p : ℤ) + 1) ∨ (n : ℚ) = - (2 : ℚ) ^ ((p : ℤ) + 1) := by
        rcases abs_choice (n : ℚ) with h | h
        · left; rw [← h3, h]
        · right; rw [← h3, h]; ring
      have h5 : (2 : ℚ) ^ ((p : ℤ) + 1) * (2 : ℚ) ^ k = (2 : ℚ) ^ p * (2 : ℚ) ^ (k + (p : ℤ) + 1 - p) := by
        rw [← zpow_natCast, ← zpow_add₀ (by norm_num), ← zpow_add₀ (by norm_num)]
        congr 1
        ring
      rw [hee]
      rcases h4 with h4 | h4
      · refine ⟨2 ^ p, ?_⟩
        rw [h4, h5]; push_cast; rfl
      · refine ⟨-(2 ^ p), ?_⟩
        rw [h4, neg_mul, h5]; push_cast; ring

theorem roundTo_neg (p : ℕ) (q : ℚ) : roundTo p (-q) = - roundTo p q := by
  unfold roundTo
  rw [spacing_neg, neg_div, pyRound_neg]
  by_cases h : q = 0
  · rw [h]; simp
  · rw [if_neg h, if_neg (by simpa using h)]
    push_cast; ring

/-- Between the powers of two around a number. -/
theorem roundTo_between {q : ℚ} (h : 0 < q) :
    (2 : ℚ) ^ Int.log 2 q ≤ roundTo p q ∧ roundTo p q ≤ (2 : ℚ) ^ (Int.log 2 q + 1) := by
  have hs := spacing_pos p q
  have hm := spacing_mul p q
  rw [abs_of_pos h] at hm
  have hm2 : spacing p q * 2 ^ (p + 1) = (2 : ℚ) ^ (Int.log 2 q + 1) := by
    rw [zpow_add₀ (by norm_num), ← hm, pow_succ]; norm_num; ring
  unfold roundTo
  rw [if_neg h.ne']
  constructor
  · have h1 : ((2 ^ p : ℤ) : ℚ) ≤ q / spacing p q := by
      rw [le_div_iff₀ hs]; push_cast; rw [mul_comm, hm]; exact log_le h
    have h2 := pyRound_le h1
    rw [pyRound_int] at h2
    rw [← hm, mul_comm]
    have h3 : ((2 ^ p : ℤ) : ℚ) ≤ (pyRound (q / spacing p q) : ℚ) := by exact_mod_cast h2
    push_cast at h3
    exact mul_le_mul_of_nonneg_right h3 hs.le
  · have h1 : q / spacing p q ≤ ((2 ^ (p + 1) : ℤ) : ℚ) := by
      rw [div_le_iff₀ hs]; push_cast; rw [mul_comm, hm2]; exact (lt_log q).le
    have h2 := pyRound_le h1
    rw [pyRound_int] at h2
    rw [← hm2, mul_comm (spacing p q)]
    have h3 : (pyRound (q / spacing p q) : ℚ) ≤ ((2 ^ (p + 1) : ℤ) : ℚ) := by exact_mod_cast h2
    push_cast at h3
    exact mul_le_mul_of_nonneg_right h3 hs.le

theorem roundTo_mono_pos {x y : ℚ} (hx : 0 < x) (h : x ≤ y) : roundTo p x ≤ roundTo p y := by
  have hy := lt_of_lt_of_le hx h
  rcases (Int.log_mono_right (b := 2) hx h).lt_or_eq with hl | hl
  · calc roundTo p x ≤ (2 : ℚ) ^ (Int.log 2 x + 1) := (roundTo_between hx).2
      _ ≤ (2 : ℚ) ^ Int.log 2 y := zpow_le_zpow_right₀ (by norm_num) (by omega)
      _ ≤ roundTo p y := (roundTo_between hy).1
  · have hs : spacing p x = spacing p y := by
      unfold spacing; rw [abs_of_pos hx, abs_of_pos hy, hl]
    unfold roundTo
    rw [if_neg hx.ne', if_neg hy.ne', hs]
    have hp := spacing_pos p y
    have h1 : x / spacing p y ≤ y / spacing p y := by gcongr
    have h2 : (pyRound (x / spacing p y) : ℚ) ≤ (pyRound (y / spacing p y) : ℚ) := by exact_mod_cast pyRound_le h1
    exact mul_le_mul_of_nonneg_right h2 hp.le

theorem roundTo_zero (p : ℕ) : roundTo p 0 = 0 := by unfold roundTo; rw [if_pos rfl]

theorem roundTo_pos {x : ℚ} (hx : 0 < x) : 0 < roundTo p x :=
  lt_of_lt_of_le (by positivity) (roundTo_between hx).1

theorem roundTo_mono {x y : ℚ} (h : x ≤ y) : roundTo p x ≤ roundTo p y := by
  rcases lt_trichotomy x 0 with hx | hx | hx
  · rcases lt_trichotomy y 0 with hy | hy | hy
    · have := roundTo_mono_pos (p := p) (x := -y) (y := -x) (by linarith) (by linarith)
      rw [roundTo_neg, roundTo_neg] at this
      linarith
    · have := roundTo_pos (p := p) (x := -x) (by linarith)
      rw [roundTo_neg] at this
      rw [hy, roundTo_zero]; linarith
    · have := roundTo_pos (p := p) (x := -x) (by linarith)
      rw [roundTo_neg] at this
      have := roundTo_pos (p := p) hy
      linarith
  · rw [hx, roundTo_zero]
    rcases (hx ▸ h : (0 : ℚ) ≤ y).lt_or_eq with hy | hy
    · exact (roundTo_pos hy).le
    · rw [← hy, roundTo_zero]
  · exact roundTo_mono_pos hx h

theorem roundTo_err (p : ℕ) (x : ℚ) : |roundTo p x - x| ≤ 1 / 2 ^ (p + 1) * |x| := by
  unfold roundTo
  by_cases h : x = 0
  · rw [if_pos h, h]; simp
  · rw [if_neg h]
    have hs := spacing_pos p x
    have hm := spacing_mul p x
    have hl := log_le (abs_pos.2 h)
    obtain ⟨a, b⟩ := pyRound_bounds (x / spacing p x)
    have hx : x / spacing p x * spacing p x = x := div_mul_cancel₀ _ hs.ne'
    have h1 : |(pyRound (x / spacing p x) : ℚ) * spacing p x - x| ≤ spacing p x / 2 := by
      rw [abs_le]
      constructor <;> nlinarith
    refine h1.trans ?_
    rw [pow_succ, div_mul_eq_mul_div, one_mul, le_div_iff₀ (by positivity)]
    calc spacing p x / 2 * (2 ^ p * 2) = spacing p x * 2 ^ p := by ring
      _ = (2 : ℚ) ^ Int.log 2 |x| := hm
      _ ≤ |x| := hl

theorem roundTo_digits (p : ℕ) (x : ℚ) : ∃ n k : ℤ, |n| ≤ 2 ^ (p + 1) ∧ roundTo p x = n * (2 : ℚ) ^ k := by
  by_cases h : x = 0
  · exact ⟨0, 0, by simp, by rw [h, roundTo_zero]; simp⟩
  · refine ⟨pyRound (x / spacing p x), Int.log 2 |x| - p, ?_, ?_⟩
    · have hs := spacing_pos p x
      have hm := spacing_mul p x
      have hl := lt_log |x|
      rw [zpow_add₀ (by norm_num), ← hm] at hl
      have h1 : |x / spacing p x| ≤ ((2 ^ (p + 1) : ℤ) : ℚ) := by
        rw [abs_div, abs_of_pos hs, div_le_iff₀ hs]
        push_cast
        rw [pow_succ]
        norm_num at hl
        linarith
      rw [abs_le] at h1 ⊢
      constructor
      · have := pyRound_le (q := ((-(2 ^ (p + 1)) : ℤ) : ℚ)) (r := x / spacing p x) (by push_cast at h1 ⊢; exact h1.1)
        rwa [pyRound_int] at this
      · have := pyRound_le h1.2
        rwa [pyRound_int] at this
    · unfold roundTo
      rw [if_neg h]; rfl

/-- Rounding to binary digits is a rounding; its error is at most half a unit of the last digit. -/
theorem roundTo_rounding {p : ℕ} (hp : 5 ≤ p) : Rounding (roundTo p) (1 / 2 ^ (p + 1)) where
  mono h := roundTo_mono h
  idem x := by
    obtain ⟨n, k, hn, hx⟩ := roundTo_digits p x
    rw [hx]; exact roundTo_fix hn
  odd := roundTo_neg p
  err := roundTo_err p
  one := by
    have := roundTo_fix (p := p) (n := 1) (k := 0) (by simpa using one_le_pow₀ (by norm_num))
    simpa using this
  nonneg := by positivity
  small := by
    have : (2 : ℚ) ^ 6 ≤ 2 ^ (p + 1) := pow_le_pow_right₀ (by norm_num) (by omega)
    rw [div_le_div_iff₀ (by positivity) (by norm_num)]
    linarith

theorem fl64_rounding : Rounding fl64 (1 / 2 ^ 53) := roundTo_rounding (p := 52) (by norm_num)

/-- Whole numbers up to `2 ^ 53` are `binary64` numbers. -/
theorem fl64_int {n : ℤ} (h : |n| ≤ 2 ^ 53) : Machine fl64 n := by
  have := roundTo_fix (p := 52) (n := n) (k := 0) h
  simpa [Machine, fl64] using this

/-- A third is rounded, by less than the bound; whole numbers are not, up to `2 ^ 53`, and `2 ^ 53 + 1` is. -/
example : fl64 (1 / 3) ≠ 1 / 3 ∧ |fl64 (1 / 3) - 1 / 3| ≤ 1 / 2 ^ 53 * |1 / 3| ∧ Machine fl64 ((-7 : ℤ) : ℚ) ∧
    fl64 (2 ^ 53 + 1) = 2 ^ 53 := by
  refine ⟨by decide +kernel, by decide +kernel, fl64_int (by norm_num), by decide +kernel⟩

end Props
end Curvepy
