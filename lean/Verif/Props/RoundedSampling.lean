import Verif.Model.RoundedSampling
import Verif.Lemmas.Rounding
import Verif.Props.Float
import Mathlib.Algebra.Order.Archimedean.Basic

/-!
# Sampling in steps with rounded arithmetic

`C149`: the positions at which a curve is sampled in steps when every sum rounds.
-/

namespace Curvepy
namespace Props
open Spec Crv

variable {fl : ℚ → ℚ} {u : ℚ}

theorem stepLoopR_id (c : Crv) (b h : ℚ) (n : ℕ) (x : ℚ) : stepLoopR id c b h n x = stepLoop c b h n x := by
  induction n generalizing x with
  | zero => rfl
  | succ n ih =>
    unfold stepLoopR stepLoop
    by_cases hx : x ≤ b
    · simp only [hx, if_true, id]
      cases c.y (.fin x) with
      | error e => rfl
      | ok y => simp only [ih]
    · simp only [hx, if_false]

/-- One rounded step. -/
theorem stepR (R : Rounding fl u) {M h x : ℚ} (hh : 0 < h) (hM : 4 * u * M ≤ h) (hx : |x| ≤ M) :
    |fl (x + h) - (x + h)| ≤ u * (M + h) ∧ x + h / 2 ≤ fl (x + h) := by
  have hu := R.nonneg
  have hs := R.small
  have h1 := R.err (x + h)
  have h2 : |x + h| ≤ M + h := by
    have := abs_add_le x h
    rw [abs_of_pos hh] at this
    linarith
  have h3 : u * |x + h| ≤ u * (M + h) := mul_le_mul_of_nonneg_left h2 hu
  have h4 : u * h ≤ 1 / 64 * h := mul_le_mul_of_nonneg_right hs hh.le
  refine ⟨h1.trans h3, ?_⟩
  rw [abs_le] at h1
  nlinarith

/-- The samples from `x` on, `k` steps after `a`. -/
theorem stepLoopR_run (R : Rounding fl u) {c : Crv} {a b M h : ℚ} (hh : 0 < h) (ha : |a| ≤ M) (hb : |b| ≤ M)
    (hM : 4 * u * M ≤ h) (hy : ∀ x, a ≤ x → x ≤ b → ∃ v, c.y (.fin x) = .ok v) (N : ℕ) :
    ∀ (k : ℕ) (x : ℚ), a ≤ x → |x - (a + k * h)| ≤ k * (u * (M + h)) → b - x < N * (h / 2) → ∀ n, N < n →
    ∃ xs : List ℚ, ∃ l, stepLoopR fl c b h n x = some (.ok l) ∧ l.map Prod.fst = xs.map Ext.fin
      ∧ (∀ p ∈ l, c.y p.1 = .ok p.2)
      ∧ (∀ (j : ℕ) (z : ℚ), xs[j]? = some z → |z - (a + ((k + j : ℕ) : ℚ) * h)| ≤ ((k + j : ℕ) : ℚ) * (u * (M + h)))
      ∧ (∀ z ∈ xs, x ≤ z ∧ z ≤ b) ∧ (xs.IsChain fun y z => y + h / 2 ≤ z)
      ∧ b < a + ((k + xs.length : ℕ) : ℚ) * h + ((k + xs.length : ℕ) : ℚ) * (u * (M + h)) := by
  induction N with
  | zero =>
    intro k x hax he hN n hn
    have hx : ¬ x ≤ b := by
      rw [Nat.cast_zero, zero_mul] at hN
      linarith
    obtain ⟨m, rfl⟩ : ∃ m, n = m + 1 := ⟨n - 1, by omega⟩
    refine ⟨[], [], ?_, rfl, by simp, by simp, by simp, by simp, ?_⟩
    · unfold stepLoopR
      rw [if_neg hx]
    · rw [abs_le] at he
      simp only [List.length_nil, add_zero]
      linarith
  | succ N ih =>
    intro k x hax he hN n hn
    obtain ⟨m, rfl⟩ : ∃ m, n = m + 1 := ⟨n - 1, by omega⟩
    by_cases hx : x ≤ b
    · obtain ⟨v, hv⟩ := hy x hax hx
      have hxM : |x| ≤ M := by
        rw [abs_le] at ha hb ⊢
        constructor <;> linarith
      obtain ⟨s1, s2⟩ := stepR R hh hM hxM
      have e1 : |fl (x + h) - (a + ((k + 1 : ℕ) : ℚ) * h)| ≤ ((k + 1 : ℕ) : ℚ) * (u * (M + h)) := by
        have := abs_add_le (fl (x + h) - (x + h)) (x - (a + k * h))
        have e : fl (x + h) - (x + h) + (x - (a + k * h)) = fl (x + h) - (a + ((k + 1 : ℕ) : ℚ) * h) := by
          push_cast
          ring
        rw [e] at this
        push_cast at this ⊢
        linarith
      push_cast at hN
      obtain ⟨xs, l, r1, r2, r3, r4, r5, r6, r7⟩ := ih (k + 1) (fl (x + h)) (by linarith) e1 (by linarith) m (by omega)
      refine ⟨x :: xs, (.fin x, v) :: l, ?_, ?_, ?_, ?_, ?_, ?_, ?_⟩
      · unfold stepLoopR
        rw [if_pos hx, hv]
        simp only [r1, Option.map_some, Except.map]
      · simp [r2]
      · intro p hp
        rcases List.mem_cons.1 hp with rfl | hp
        · exact hv
        · exact r3 p hp
      · intro j z hz
        cases j with
        | zero =>
          simp only [List.getElem?_cons_zero, Option.some.injEq] at hz
          subst hz
          simpa using he
        | succ j =>
          have := r4 j z (by simpa using hz)
          rwa [show k + 1 + j = k + (j + 1) from by omega] at this
      · intro z hz
        rcases List.mem_cons.1 hz with rfl | hz
        · exact ⟨le_rfl, hx⟩
        · have := r5 z hz
          exact ⟨by linarith, this.2⟩
      · rw [List.isChain_cons]
        refine ⟨?_, r6⟩
        intro z hz
        have := (r5 z (List.mem_of_mem_head? hz)).1
        linarith
      · rw [show k + (x :: xs).length = k + 1 + xs.length from by simp; omega]
        exact r7
    · refine ⟨[], [], ?_, rfl, by simp, by simp, by simp, by simp, ?_⟩
      · unfold stepLoopR
        rw [if_neg hx]
      · rw [abs_le] at he
        simp only [List.length_nil, add_zero]
        linarith

/-- **Sampling in steps**: with a step `h` that is not lost in the positions (`4 u M ≤ h`, where `M` bounds them), sampling
`[a, b]` comes to an end.  The positions ascend by at least half a step, the `k`-th one is within `k u (M + h)` of
`a + k h`, none is after `b`, and at most one that should be there is missing. -/
theorem C149_grid (R : Rounding fl u) {c : Crv} {a b M h : ℚ} (hh : 0 < h) (hab : a ≤ b) (ha : |a| ≤ M) (hb : |b| ≤ M)
    (hM : 4 * u * M ≤ h) (hy : ∀ x, a ≤ x → x ≤ b → ∃ v, c.y (.fin x) = .ok v) :
    ∃ N, ∀ n, N < n → ∃ xs : List ℚ, ∃ l, stepLoopR fl c b h n (fl (a + h)) = some (.ok l)
      ∧ l.map Prod.fst = xs.map Ext.fin ∧ (∀ p ∈ l, c.y p.1 = .ok p.2)
      ∧ (∀ (j : ℕ) (z : ℚ), xs[j]? = some z → |z - (a + ((j + 1 : ℕ) : ℚ) * h)| ≤ ((j + 1 : ℕ) : ℚ) * (u * (M + h)))
      ∧ (∀ z ∈ xs, a < z ∧ z ≤ b) ∧ (xs.IsChain fun y z => y + h / 2 ≤ z)
      ∧ b < a + ((xs.length + 1 : ℕ) : ℚ) * h + ((xs.length + 1 : ℕ) : ℚ) * (u * (M + h)) := by
  obtain ⟨s1, s2⟩ := stepR R hh hM ha
  obtain ⟨N, hN⟩ := exists_nat_gt ((b - fl (a + h)) / (h / 2))
  rw [div_lt_iff₀ (by linarith)] at hN
  refine ⟨N, fun n hn => ?_⟩
  obtain ⟨xs, l, r1, r2, r3, r4, r5, r6, r7⟩ := stepLoopR_run R hh ha hb hM hy N 1 (fl (a + h)) (by linarith)
    (by push_cast; rw [one_mul, one_mul]; exact s1) hN n hn
  refine ⟨xs, l, r1, r2, r3, fun j z hz => ?_, fun z hz => ?_, r6, ?_⟩
  · have := r4 j z hz
    rwa [add_comm 1 j] at this
  · have := r5 z hz
    exact ⟨by linarith, this.2⟩
  · rwa [add_comm 1] at r7

/-- **Exact steps**: if the positions need no rounding, one step beyond the end included, nothing is lost. -/
theorem C149_exact {c : Crv} {a b h : ℚ} (hm : ∀ k : ℕ, a + k * h ≤ b + h → Machine fl (a + k * h)) (n k : ℕ)
    (hk : a + k * h ≤ b + h) : stepLoopR fl c b h n (fl (a + k * h)) = stepLoop c b h n (a + k * h) := by
  have : fl _ = _ := hm k hk
  rw [this]
  clear this hk
  induction n generalizing k with
  | zero => rfl
  | succ n ih =>
    unfold stepLoopR stepLoop
    by_cases hx : a + k * h ≤ b
    · simp only [hx, if_true]
      cases c.y (.fin (a + k * h)) with
      | error e => rfl
      | ok y =>
        have e : a + (k : ℚ) * h + h = a + ((k + 1 : ℕ) : ℚ) * h := by push_cast; ring
        have : fl _ = _ := hm (k + 1) (by rw [← e]; linarith)
        simp only [e, this, ih]
    · simp only [hx, if_false]

/-- The hypotheses hold in an ordinary case. -/
example (v : Num) : ∃ N, ∀ n, N < n → ∃ xs : List ℚ, ∃ l,
    stepLoopR fl64 (Crv.constant v) 100 (fl64 (1 / 10)) n (fl64 (0 + fl64 (1 / 10))) = some (.ok l)
      ∧ l.map Prod.fst = xs.map Ext.fin ∧ 998 ≤ xs.length := by
  have hb := fl64_rounding.bounds (by norm_num : (0 : ℚ) ≤ 1 / 10)
  obtain ⟨N, h⟩ := C149_grid fl64_rounding (c := Crv.constant v) (a := 0) (b := 100) (M := 100) (h := fl64 (1 / 10))
    (by norm_num at hb; linarith) (by norm_num) (by norm_num) (by norm_num) (by norm_num at hb ⊢; linarith)
    (fun x _ _ => ⟨some v, rfl⟩)
  refine ⟨N, fun n hn => ?_⟩
  obtain ⟨xs, l, h1, h2, -, -, -, -, h3⟩ := h n hn
  refine ⟨xs, l, h1, h2, ?_⟩
  by_contra hlt
  have : ((xs.length + 1 : ℕ) : ℚ) ≤ 998 := by exact_mod_cast (by omega : xs.length + 1 ≤ 998)
  set d := fl64 (1 / 10)
  have hd0 : 0 ≤ d := by norm_num at hb; linarith
  have e1 : ((xs.length + 1 : ℕ) : ℚ) * d ≤ 998 * d := mul_le_mul_of_nonneg_right this hd0
  have e2 : ((xs.length + 1 : ℕ) : ℚ) * (1 / 2 ^ 53 * (100 + d)) ≤ 998 * (1 / 2 ^ 53 * (100 + d)) :=
    mul_le_mul_of_nonneg_right this (by positivity)
  norm_num at hb e1 e2 h3
  linarith

/-- **The end is lost**: sampling `[0, 0.3]` in steps of `0.1` gives `0.1` and `0.2`, but not `0.3`. -/
theorem C149_negation :
    stepLoopR fl64 (Crv.constant (.fin 1)) (fl64 (3 / 10)) (fl64 (1 / 10)) 10 (fl64 (0 + fl64 (1 / 10)))
      = some (.ok [(.fin (fl64 (1 / 10)), some (.fin 1)), (.fin (fl64 (2 / 10)), some (.fin 1))]) := by
  decide +kernel

/-- **Sampling without end**: from `2 ^ 53` on a step of `1` is lost. -/
theorem C149_endless (v : Num) (n : ℕ) :
    stepLoopR fl64 (Crv.constant v) (2 ^ 53 + 4) 1 n (fl64 (2 ^ 53 + 1)) = none := by
  have e : fl64 (2 ^ 53 + 1) = 2 ^ 53 := by decide +kernel
  rw [e]
  induction n with
  | zero => rfl
  | succ n ih =>
    unfold stepLoopR
    rw [if_pos (by norm_num)]
    show (stepLoopR fl64 (Crv.constant v) (2 ^ 53 + 4) 1 n (fl64 (2 ^ 53 + 1))).map _ = none
    rw [e, ih]
    rfl

end Props
end Curvepy
