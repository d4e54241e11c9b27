import Verif.Model.RoundedCombine
import Verif.Spec.RoundedCombine
import Verif.Props.Rsi
import Verif.Props.RoundedLine

/-!
# Property C154: the relative strength index with rounded arithmetic
-/

namespace Curvepy
namespace Spec
namespace Rounding
variable {fl : ℚ → ℚ} {u : ℚ} (R : Rounding fl u)
include R

/-- The rounded EMA of values that are not negative is not negative. -/
theorem ema_nonneg {a y e : ℚ} (a0 : 0 ≤ a) (ha : a * (1 + u) ^ 2 ≤ 1) (y0 : 0 ≤ y) (e0 : 0 ≤ e) :
    0 ≤ fl (e + fl (a * fl (y - e))) := by
  have hu := R.nonneg
  apply R.nonneg_of
  have h1 : -((1 + u) * e) ≤ fl (y - e) := by
    have k1 : fl (-e) ≤ fl (y - e) := R.mono (by linarith)
    rw [R.odd] at k1
    have := (R.bounds e0).2
    linarith
  have h2 : -(a * ((1 + u) * e)) ≤ a * fl (y - e) := by
    have := mul_le_mul_of_nonneg_left h1 a0
    linarith
  have h3 : fl (-(a * ((1 + u) * e))) ≤ fl (a * fl (y - e)) := R.mono h2
  rw [R.odd] at h3
  have h4 := (R.bounds (x := a * ((1 + u) * e)) (by positivity)).2
  have h5 : (1 + u) * (a * ((1 + u) * e)) ≤ e := by
    calc (1 + u) * (a * ((1 + u) * e)) = (a * (1 + u) ^ 2) * e := by ring
      _ ≤ 1 * e := mul_le_mul_of_nonneg_right ha e0
      _ = e := one_mul e
  linarith

/-- The rounded index. -/
theorem index_bounds (h100 : Machine fl 100) {g l : ℚ} (hg : 0 ≤ g) (hl : 0 ≤ l) :
    0 ≤ roundedStrength fl g l ∧ roundedStrength fl g l ≤ 100 := by
  unfold roundedStrength
  split_ifs with h
  · norm_num
  · have k1 : 1 ≤ fl (1 + fl (g / l)) := R.ge_of R.one (by have := R.nonneg_of (div_nonneg hg hl); linarith)
    have k2 : 100 / fl (1 + fl (g / l)) ≤ 100 := by rw [div_le_iff₀ (by linarith)]; linarith
    have k3 : 0 ≤ 100 / fl (1 + fl (g / l)) := by positivity
    have k4 := R.le_of h100 k2
    have k5 := R.nonneg_of k3
    exact ⟨R.nonneg_of (by linarith), R.le_of h100 (by linarith)⟩

theorem index_mono (h100 : Machine fl 100) {g g' l l' : ℚ} (hg : 0 ≤ g) (hgg : g ≤ g') (hl' : 0 ≤ l') (hll : l' ≤ l) :
    roundedStrength fl g l ≤ roundedStrength fl g' l' := by
  by_cases h' : l' = 0
  · have := (R.index_bounds h100 hg (le_trans hl' hll)).2
    simpa [roundedStrength, h'] using this
  · have p' : 0 < l' := lt_of_le_of_ne hl' (Ne.symm h')
    have p : 0 < l := lt_of_lt_of_le p' hll
    simp only [roundedStrength, if_neg h', if_neg p.ne']
    have k1 : g / l ≤ g' / l' := div_le_div₀ (le_trans hg hgg) hgg p' hll
    have k2 : fl (1 + fl (g / l)) ≤ fl (1 + fl (g' / l')) := R.mono (by have := R.mono k1; linarith)
    have k3 : 1 ≤ fl (1 + fl (g / l)) := R.ge_of R.one (by have := R.nonneg_of (div_nonneg hg p.le); linarith)
    have k4 : 100 / fl (1 + fl (g' / l')) ≤ 100 / fl (1 + fl (g / l)) :=
      div_le_div_of_nonneg_left (by norm_num) (by linarith) k2
    have := R.mono k4
    exact R.mono (by linarith)

theorem index_error {g l : ℚ} (hg : 0 ≤ g) (hl : 0 ≤ l) : |roundedStrength fl g l - strength g l| ≤ 600 * u := by
  have hu := R.nonneg
  have hs := R.small
  unfold roundedStrength strength
  split_ifs with h
  · simp [hu]
  · have p : 0 < l := lt_of_le_of_ne hl (Ne.symm h)
    have r0 : 0 ≤ g / l := div_nonneg hg hl
    obtain ⟨b1, b2⟩ := R.bounds r0
    set r := g / l with hr
    set r' := fl r with hr'
    have r0' : 0 ≤ r' := R.nonneg_of r0
    obtain ⟨c1, c2⟩ := R.bounds (x := 1 + r') (by linarith)
    set w' := fl (1 + r') with hw'
    set w := 1 + r with hw
    have w1 : 1 ≤ w := by linarith
    have ur : 0 ≤ u * r := mul_nonneg hu r0
    have d1 : (1 - u) * w ≤ 1 + r' := by rw [hw]; nlinarith
    have d2 : 1 + r' ≤ (1 + u) * w := by rw [hw]; nlinarith
    have f1 : (1 - u) * ((1 - u) * w) ≤ w' := le_trans (mul_le_mul_of_nonneg_left d1 (by linarith)) c1
    have f2 : w' ≤ (1 + u) * ((1 + u) * w) := le_trans c2 (mul_le_mul_of_nonneg_left d2 (by linarith))
    have wp : 0 < w := by linarith
    have wp' : 0 < w' := lt_of_lt_of_le (by have : 0 < 1 - u := by linarith
                                            positivity) f1
    set Q := 100 / w with hQ
    have Q0 : 0 ≤ Q := by positivity
    have Q1 : Q ≤ 100 := by rw [hQ, div_le_iff₀ wp]; linarith
    have hQw : Q * w = 100 := by rw [hQ]; field_simp
    set q := 100 / w' with hq
    have q0 : 0 ≤ q := by positivity
    have hqw : q * w' = 100 := by rw [hq]; field_simp
    -- q (1 - u)² ≤ Q ≤ q (1 + u)²
    have g1 : q * ((1 - u) * (1 - u)) ≤ Q := by
      have : q * ((1 - u) * (1 - u)) * w ≤ Q * w := by
        rw [hQw, ← hqw]
        calc q * ((1 - u) * (1 - u)) * w = q * ((1 - u) * ((1 - u) * w)) := by ring
          _ ≤ q * w' := mul_le_mul_of_nonneg_left f1 q0
      exact le_of_mul_le_mul_right this wp
    have g2 : Q ≤ q * ((1 + u) * (1 + u)) := by
      have : Q * w ≤ q * ((1 + u) * (1 + u)) * w := by
        rw [hQw, ← hqw]
        calc q * w' ≤ q * ((1 + u) * ((1 + u) * w)) := mul_le_mul_of_nonneg_left f2 q0
          _ = q * ((1 + u) * (1 + u)) * w := by ring
      exact le_of_mul_le_mul_right this wp
    obtain ⟨j1, j2⟩ := R.bounds q0
    have uq : 0 ≤ u * q := mul_nonneg hu q0
    have uQ : 0 ≤ u * Q := mul_nonneg hu Q0
    have uuq : u * (u * q) ≤ 1 / 64 * (u * q) := mul_le_mul_of_nonneg_right hs uq
    have uuq0 : 0 ≤ u * (u * q) := mul_nonneg hu uq
    have g1' : q - 2 * (u * q) + u * (u * q) ≤ Q := by nlinarith
    have g2' : Q ≤ q + 2 * (u * q) + u * (u * q) := by nlinarith
    -- q is at most a little above 100
    have q2 : q ≤ 104 := by
      have : u * q ≤ 1 / 64 * q := mul_le_mul_of_nonneg_right hs q0
      nlinarith
    have uq2 : u * q ≤ 104 * u := by nlinarith
    have hfin : |(100 - fl q) - (100 - Q)| ≤ 400 * u := by
      rw [abs_le]
      constructor <;> linarith
    have := R.product hfin
    have hy : |100 - Q| ≤ 100 := by rw [abs_of_nonneg (by linarith)]; linarith
    have uu : u * (400 * u) ≤ 400 / 64 * u := by nlinarith
    have uy : u * |100 - Q| ≤ u * 100 := mul_le_mul_of_nonneg_left hy hu
    have e : u * (|100 - Q| + 400 * u) = u * |100 - Q| + u * (400 * u) := by ring
    rw [e] at this
    linarith

end Rounding
end Spec

namespace Rsi
open Spec Pts CScan
variable {fl : ℚ → ℚ} {u : ℚ}

theorem keeps_emaByR (R : Rounding fl u) {a : ℚ} (a0 : 0 ≤ a) (ha : a * (1 + u) ^ 2 ≤ 1) :
    Keeps (fun q => 0 ≤ q) (emaByR fl a) := by
  intro x y e v hy he h
  cases y with
  | none => simp only [emaByR, Except.ok.injEq] at h; exact he v h
  | some y =>
    have h1 := hy y rfl
    cases e with
    | none => simp only [emaByR, Except.ok.injEq, Option.some.injEq] at h; rw [← h]; exact h1
    | some e =>
      simp only [emaByR, Except.ok.injEq, Option.some.injEq] at h
      rw [← h]
      exact R.ema_nonneg a0 ha h1 (he e rfl)

/-- The rounded index, where both averages are defined. -/
def strengthOfR (fl : ℚ → ℚ) : Option ℚ → Option ℚ → Option ℚ
  | some g, some l => some (roundedStrength fl g l)
  | _, _ => none

theorem divFR_total (fl : ℚ → ℚ) (ys : List (Option Num)) (r : Option Num) : ∃ v, Crv.divFR fl ys r = .ok v := by
  induction ys generalizing r with
  | nil => exact ⟨_, rfl⟩
  | cons y ys ih =>
    cases y with
    | none => exact ⟨_, rfl⟩
    | some y =>
      cases r with
      | none => exact ih _
      | some r =>
        simp only [Crv.divFR]
        by_cases hz : y = .fin 0
        · rw [if_pos hz]
          exact ih _
        · rw [if_neg hz]
          cases y with
          | fin q =>
            have : q ≠ 0 := fun hc => hz (by rw [hc])
            simp only [Num.div, if_neg this]
            cases r <;> exact ih _
          | pinf => cases r <;> exact ih _
          | ninf => cases r <;> exact ih _
          | nan => cases r <;> exact ih _

/-- The rounded formula for given averages. -/
theorem formulaR_y (R : Rounding fl u) (d1 d2 : Iv) (g l : Option ℚ) (x : Ext) (h100 : Machine fl 100)
    (hg : ∀ q, g = some q → 0 ≤ q) (hl : ∀ q, l = some q → 0 ≤ q) :
    (formulaR fl d1 d2 g l).y x = .ok (if (d1.contains x && d2.contains x) = true then
      (strengthOfR fl g l).map .fin else none) := by
  have e1 : (Crv.divideManyR fl [.curve (.held d1 g), .curve (.held d2 l)]).y x =
      if d1.contains x && d2.contains x then Crv.divFR fl [g.map .fin, l.map .fin] none else .ok none :=
    pair_y (a := .held d1 g) (b := .held d2 l) _ rfl rfl
  have e1d : (Crv.divideManyR fl [.curve (.held d1 g), .curve (.held d2 l)]).dom.contains x =
      (d1.contains x && d2.contains x) := pair_dom (.held d1 g) (.held d2 l) _ x
  cases hin : (d1.contains x && d2.contains x) with
  | false =>
    rw [hin] at e1d
    rw [if_neg (by simp)]
    refine pair_out (.constant (.fin 100)) _ _ x ?_
    refine (Bool.and_eq_false_iff.2 (Or.inr ?_))
    refine (pair_dom (.constant (.fin 100)) _ _ x).trans (Bool.and_eq_false_iff.2 (Or.inr ?_))
    exact (pair_dom (.constant (.fin 1)) _ _ x).trans (Bool.and_eq_false_iff.2 (Or.inr e1d))
  | true =>
    rw [hin] at e1 e1d
    rw [if_pos rfl] at e1
    rw [if_pos rfl]
    obtain ⟨r, hr⟩ := divFR_total fl [g.map .fin, l.map .fin] none
    rw [hr] at e1
    set rs := Crv.divideManyR fl [.curve (.held d1 g), .curve (.held d2 l)] with hrs
    have e2 : (Crv.addManyR fl [.number (.fin 1), .curve rs]).y x =
        if (Crv.constant (.fin 1)).dom.contains x && rs.dom.contains x then .ok (Crv.addFR fl [some (.fin 1), r]) else .ok none :=
      pair_y (a := .constant (.fin 1)) (b := rs) _ rfl e1
    have c1 : ∀ v, (Crv.constant v).dom.contains x = true := fun v => Iv.contains_infinite x
    rw [c1, e1d] at e2
    have e2d : (Crv.addManyR fl [.number (.fin 1), .curve rs]).dom.contains x = true :=
      (pair_dom (.constant (.fin 1)) rs _ x).trans (by rw [c1, e1d]; rfl)
    set one := Crv.addManyR fl [.number (.fin 1), .curve rs] with hone
    obtain ⟨r2, hr2⟩ := divFR_total fl [some (.fin 100), Crv.addFR fl [some (.fin 1), r]] none
    have e3 : (Crv.divideManyR fl [.number (.fin 100), .curve one]).y x = .ok r2 := by
      refine (pair_y (a := .constant (.fin 100)) (b := one) _ rfl e2).trans ?_
      rw [c1, e2d]; exact hr2
    have e3d : (Crv.divideManyR fl [.number (.fin 100), .curve one]).dom.contains x = true :=
      (pair_dom (.constant (.fin 100)) one _ x).trans (by rw [c1, e2d]; rfl)
    have e4 : (formulaR fl d1 d2 g l).y x = .ok (Crv.subFR fl [some (.fin 100), r2] none) := by
      refine (pair_y (a := .constant (.fin 100)) (b := Crv.divideManyR fl [.number (.fin 100), .curve one]) _ rfl e3).trans ?_
      rw [c1, e3d]; rfl
    rw [e4]
    cases g with
    | none =>
      have : r = none := by cases hr; rfl
      subst this
      cases hr2; rfl
    | some g =>
      cases l with
      | none =>
        have : r = none := by cases hr; rfl
        subst this
        cases hr2; rfl
      | some l =>
        have g0 := hg g rfl
        have l0 := hl l rfl
        by_cases hz : l = 0
        · subst hz
          have : r = some .pinf := by
            simp only [Option.map_some, Crv.divFR, if_true, Num.le, g0, decide_true] at hr
            cases hr; rfl
          subst this
          have hr2' : r2 = some (.fin (fl 0)) := by cases hr2; rfl
          subst hr2'
          have h100' : fl 100 = 100 := h100
          simp [Crv.subFR, Num.sub, Num.neg, Num.add, Num.rounded, strengthOfR, roundedStrength, R.zero, h100']
        · have hl' : 0 < l := lt_of_le_of_ne l0 (Ne.symm hz)
          have hr' : r = some (.fin (fl (g / l))) := by
            have hz' : ¬ (Num.fin l = .fin 0) := by simpa using hz
            simp only [Option.map_some, Crv.divFR, if_neg hz', Num.div, if_neg hz, Num.rounded] at hr
            cases hr; rfl
          subst hr'
          have h1 : fl (1 + fl (g / l)) ≠ 0 := by
            have k1 : 1 ≤ fl (1 + fl (g / l)) := R.ge_of R.one (by have := R.nonneg_of (div_nonneg g0 l0); linarith)
            linarith
          have ha : Crv.addFR fl [some (.fin 1), some (.fin (fl (g / l)))] = some (.fin (fl (1 + fl (g / l)))) := by
            simp [Crv.addFR, Crv.allDefined, Num.add, Num.rounded, R.one]
          have h1' : ¬ (Num.fin (fl (1 + fl (g / l))) = .fin 0) := by simpa using h1
          rw [ha] at hr2
          simp only [Crv.divFR, if_neg h1', Num.div, if_neg h1, Num.rounded, Option.getD] at hr2
          cases hr2
          simp [Crv.subFR, Num.sub, Num.neg, Num.add, Num.rounded, strengthOfR, roundedStrength, hz, sub_eq_add_neg]

theorem Kept.newR {c : Crv} {degree m : ℚ} {v : Bool} {R : Rsi} (e : Rsi.newR fl c degree m v = .ok R) :
    Kept (fl (1 / degree)) R := by
  obtain ⟨d, _, e⟩ := bind_inv e
  obtain ⟨n, _, e⟩ := bind_inv e
  split_ifs at e
  · cases e
  · cases e
    exact ⟨⟨d, rfl⟩, ⟨n, rfl⟩, rfl, within_new _ _ _ _, within_new _ _ _ _⟩

theorem Kept.queryR (F : Rounding fl u) (h100 : Machine fl 100) {a : ℚ} {R S : Rsi} (h0 : 0 ≤ a) (h1 : a * (1 + u) ^ 2 ≤ 1)
    (h : Kept a R) {n : ℕ} {x : Ext} {v : Option Num} (e : R.queryR fl n x = some (.ok (S, v))) :
    Kept a S ∧ (v = none ∨ ∃ g l, 0 ≤ g ∧ 0 ≤ l ∧ v = some (.fin (roundedStrength fl g l))) := by
  have hk := keeps_emaByR F (a := R.alpha) (by rw [h.alpha]; exact h0) (by rw [h.alpha]; exact h1)
  obtain ⟨d, hup⟩ := h.up
  obtain ⟨d', hdn⟩ := h.down
  unfold Rsi.queryR at e
  split at e
  · cases e
  · cases e
  · rename_i G ug hg
    split at e
    · cases e
    · cases e
    · rename_i L ul hl
      have g := h.gains.query (by rw [hup]; exact maxZero_nonneg d) convex_nonneg hk hg
      have l := h.losses.query (by rw [hdn]; exact maxZero_nonneg d') convex_nonneg hk hl
      rw [formulaR_y F _ _ ug ul x h100 g.2 l.2] at e
      simp only [Except.map, Option.some.injEq, Except.ok.injEq, Prod.mk.injEq] at e
      obtain ⟨rfl, rfl⟩ := e
      refine ⟨⟨h.up, h.down, h.alpha, g.1, l.1⟩, ?_⟩
      split_ifs
      · cases ug with
        | none => exact Or.inl rfl
        | some u =>
          cases ul with
          | none => exact Or.inl rfl
          | some d => exact Or.inr ⟨u, d, g.2 u rfl, l.2 d rfl, rfl⟩
      · exact Or.inl rfl

theorem alphaR_ok (F : Rounding fl u) {degree : ℚ} (hd : (1 + u) ^ 3 ≤ degree) :
    0 ≤ fl (1 / degree) ∧ fl (1 / degree) * (1 + u) ^ 2 ≤ 1 := by
  have hu := F.nonneg
  have hp : 0 < degree := lt_of_lt_of_le (by positivity) hd
  have h0 : 0 ≤ 1 / degree := by positivity
  refine ⟨F.nonneg_of h0, ?_⟩
  calc fl (1 / degree) * (1 + u) ^ 2 ≤ ((1 + u) * (1 / degree)) * (1 + u) ^ 2 :=
        mul_le_mul_of_nonneg_right (F.bounds h0).2 (by positivity)
    _ = (1 + u) ^ 3 / degree := by ring
    _ ≤ 1 := by rw [div_le_one hp]; exact hd

theorem Kept.askedR (F : Rounding fl u) (h100 : Machine fl 100) {Q : ℚ → Prop} {c : Crv} {degree m : ℚ} {v : Bool} {R : Rsi}
    (hd : (1 + u) ^ 3 ≤ degree) (h : RsiAskedR fl Q c degree m v R) : Kept (fl (1 / degree)) R := by
  obtain ⟨h0, h1⟩ := alphaR_ok F hd
  induction h with
  | new e => exact .newR e
  | query _ _ e ih => exact (ih.queryR F h100 h0 h1 e).1

end Rsi

namespace Props
open Spec Pts CScan
variable {fl : ℚ → ℚ} {u : ℚ}

/-! ## C154 -/

/-- C154: the relative strength index with rounding, of a degree that is not below `(1 + u)³`, is between 0 and 100 or not
defined: for all curves, at every position, after every history of queries. -/
theorem C154_bounds (F : Rounding fl u) (h100 : Machine fl 100) {Q : ℚ → Prop} {c : Crv} {degree m : ℚ} {v : Bool} {R S : Rsi}
    (hd : (1 + u) ^ 3 ≤ degree) (h : RsiAskedR fl Q c degree m v R) {n : ℕ} {x : Ext} {y : Option Num}
    (e : R.queryR fl n x = some (.ok (S, y))) : y = none ∨ ∃ q, y = some (.fin q) ∧ 0 ≤ q ∧ q ≤ 100 := by
  obtain ⟨h0, h1⟩ := Rsi.alphaR_ok F hd
  rcases ((Rsi.Kept.askedR F h100 hd h).queryR F h100 h0 h1 e).2 with h | ⟨g, l, hg, hl, h⟩
  · exact Or.inl h
  · exact Or.inr ⟨_, h, F.index_bounds h100 hg hl⟩

/-- C154: at every position where the index is defined it is that of two averages that are not negative, with an error of at
most `600 u`. -/
theorem C154_error (F : Rounding fl u) (h100 : Machine fl 100) {Q : ℚ → Prop} {c : Crv} {degree m : ℚ} {v : Bool} {R S : Rsi}
    (hd : (1 + u) ^ 3 ≤ degree) (h : RsiAskedR fl Q c degree m v R) {n : ℕ} {x : Ext} {y : ℚ}
    (e : R.queryR fl n x = some (.ok (S, some (.fin y)))) :
    ∃ g l, 0 ≤ g ∧ 0 ≤ l ∧ y = roundedStrength fl g l ∧ |y - strength g l| ≤ 600 * u := by
  obtain ⟨h0, h1⟩ := Rsi.alphaR_ok F hd
  rcases ((Rsi.Kept.askedR F h100 hd h).queryR F h100 h0 h1 e).2 with h | ⟨g, l, hg, hl, h⟩
  · cases h
  · cases h
    exact ⟨g, l, hg, hl, rfl, F.index_error hg hl⟩

/-- C154: what the formula gives for two averages (with any domains of the curves, both containing the position). -/
theorem C154_formula (F : Rounding fl u) (h100 : Machine fl 100) (d1 d2 : Iv) {x : Ext} (h1 : d1.contains x = true)
    (h2 : d2.contains x = true) {g l : ℚ} (hg : 0 ≤ g) (hl : 0 ≤ l) :
    (Rsi.formulaR fl d1 d2 (some g) (some l)).y x = .ok (some (.fin (roundedStrength fl g l))) := by
  rw [Rsi.formulaR_y F d1 d2 _ _ x h100 (by rintro q ⟨⟩; exact hg) (by rintro q ⟨⟩; exact hl), h1, h2]
  rfl

/-- C154: higher rises and lower falls never give a lower index, in spite of the rounding; without falls it is exactly 100,
without rises exactly 0. -/
theorem C154_order (F : Rounding fl u) (h100 : Machine fl 100) :
    (∀ {g g' l l' : ℚ}, 0 ≤ g → g ≤ g' → 0 ≤ l' → l' ≤ l → roundedStrength fl g l ≤ roundedStrength fl g' l')
      ∧ (∀ g, roundedStrength fl g 0 = 100) ∧ (∀ {l : ℚ}, l ≠ 0 → roundedStrength fl 0 l = 0) := by
  refine ⟨fun a b c d => F.index_mono h100 a b c d, fun g => by simp [roundedStrength], fun hl => ?_⟩
  have h : fl 100 = 100 := h100
  simp [roundedStrength, hl, F.zero, F.one, h]

/-- C154: without rounding it is the index of `Model/CurveScan`. -/
theorem C154_exact (R : Rsi) (n : ℕ) (x : Ext) : R.queryR id n x = R.query n x := by
  have e1 : ∀ a, emaByR id a = emaBy a := by
    intro a; funext x y e; cases y <;> cases e <;> rfl
  have hr : ∀ q : Num, q.rounded id = q := fun q => by cases q <;> rfl
  have e2 : ∀ ys, Crv.addFR id ys = Crv.addF ys := by
    intro ys; simp only [Crv.addFR, Crv.addF, hr]; rfl
  have e3 : ∀ ys r, Crv.subFR id ys r = Crv.subF ys r := by
    intro ys
    induction ys with
    | nil => intro r; rfl
    | cons y ys ih => intro r; cases y <;> cases r <;> simp only [Crv.subFR, Crv.subF, hr, ih]
  have e4 : ∀ ys r, Crv.divFR id ys r = Crv.divF ys r := by
    intro ys
    induction ys with
    | nil => intro r; rfl
    | cons y ys ih =>
      intro r
      cases y with
      | none => rfl
      | some y =>
        cases r with
        | none => exact ih _
        | some r =>
          simp only [Crv.divFR, Crv.divF, hr, ih]
          rfl
  have e5 : ∀ d1 d2 g l, Rsi.formulaR id d1 d2 g l = Rsi.formula d1 d2 g l := by
    intro d1 d2 g l
    simp only [Rsi.formulaR, Rsi.formula, Crv.divideManyR, Crv.divideMany, Crv.addManyR, Crv.addMany, Crv.subtractManyR,
      Crv.subtractMany, e2, e3, e4]
  simp only [Rsi.queryR, Rsi.query, e1, e5]
  rfl

/-! ## Examples -/

/-- The index of a polyline through `pts` after the queries `ys`, with rounding. -/
def rsiAfterR (fl : ℚ → ℚ) (n : ℕ) : Rsi → List ℚ → ℚ → Option (Except Err (Option Num))
  | R, [], x => (R.queryR fl n (.fin x)).map fun r => r.map Prod.snd
  | R, y :: ys, x =>
    match R.queryR fl n (.fin y) with
    | some (.ok (S, _)) => rsiAfterR fl n S ys x
    | some (.error e) => some (.error e)
    | none => none

/-- The same from the start. -/
def sawRsiR (pts : List (Pt ℚ)) (degree : ℚ) (u : Bool) (ys : List ℚ) (x : ℚ) : Option (Except Err (Option Num)) :=
  match Rsi.newR fl64 (Crv.ofPoints (loose pts)) degree (1 / 100000) u with
  | .error e => some (.error e)
  | .ok R => rsiAfterR fl64 9 R ys x

theorem fl64_hundred : Machine fl64 100 := by show fl64 _ = _; decide +kernel

/-- The exact index is `900 / 11`; with rounding it is close to it. -/
example : sawRsi sawPts 2 false [1 / 2, 5 / 2] (3 / 2) = some (.ok (some (.fin (900 / 11))))
    ∧ sawRsiR sawPts 2 false [1 / 2, 5 / 2] (3 / 2) = some (.ok (some (.fin (fl64 (900 / 11))))) := by
  decide +kernel

/-- The hypotheses hold for a fresh index. -/
example (R : Rsi) (e : Rsi.newR fl64 (Crv.ofPoints (loose sawPts)) 2 (1 / 100000) false = .ok R) {n : ℕ} {x : Ext} {y : Option Num}
    {S : Rsi} (h : R.queryR fl64 n x = some (.ok (S, y))) : y = none ∨ ∃ q, y = some (.fin q) ∧ 0 ≤ q ∧ q ≤ 100 :=
  C154_bounds fl64_rounding fl64_hundred (Q := fun _ => True) (by norm_num) (.new e) h

/-- There is an error. -/
example : roundedStrength fl64 1 2 ≠ fl64 (strength 1 2) ∧ strength 1 2 = 100 / 3 := by
  constructor <;> decide +kernel

end Props
end Curvepy
