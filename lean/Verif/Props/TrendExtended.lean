import Verif.Model.TrendExtras
import Verif.Props.TrendExtent
import Verif.Props.TrendPoints

/-!
# Properties C99 and C100: extended trend lines, copies of trend lines
-/

namespace Curvepy
namespace Spec
open Trend

/-- Which of `n` members an index means: from the front or, if it is negative, from the back, and the closest one if there
is no such member. -/
def Means (n : ℕ) (i : ℤ) (j : ℕ) : Prop :=
  j < n ∧ ((0 ≤ i ∧ ((j : ℤ) = i ∨ (j + 1 = n ∧ (n : ℤ) ≤ i))) ∨
    (i < 0 ∧ ((j : ℤ) = n + i ∨ (j = 0 ∧ (n : ℤ) + i < 0))))

end Spec

namespace Props
open Spec Trend

variable {t : TLine} {l c : Chord}

theorem means_pick {n : ℕ} (hn : n ≠ 0) (i : ℤ) : ∃ j : ℕ, TLine.pickIndex n i = j ∧ Means n i j := by
  unfold TLine.pickIndex Means
  rw [if_pos (by exact_mod_cast hn)]
  by_cases hi : i < 0
  · rw [if_pos hi]
    refine ⟨(max 0 ((n : ℤ) + i)).toNat, by omega, by omega, .inr ⟨hi, by omega⟩⟩
  · rw [if_neg hi]
    refine ⟨(min i ((n : ℤ) - 1)).toNat, by omega, by omega, .inl ⟨by omega, by omega⟩⟩

theorem pyGet_nat {α : Type} (ls : List α) (j : ℕ) (h : j < ls.length) : pyGet ls (j : ℤ) = .ok ls[j] := by
  unfold pyGet
  rw [if_pos (by omega), Int.toNat_natCast, List.getElem?_eq_getElem h]

theorem ready_y (hl : t.line = some l) (ha : l.1.1 < l.2.1) (x : ℚ) :
    ∃ y, t.y x = .ok y ∧ OnLine l (x, y) := by
  have h := (C57_line_y l x (l.1.2 + (l.2.2 - l.1.2) / (l.2.1 - l.1.1) * (x - l.1.1))).1 ha.ne
  have e : lineY l x = some (l.1.2 + (l.2.2 - l.1.2) / (l.2.1 - l.1.1) * (x - l.1.1)) := by
    rw [lineY, if_neg ha.ne']
  exact ⟨_, by unfold TLine.y; rw [hl]; show need (lineY l x) = _; rw [e]; rfl, h.1 e⟩

theorem on_line_unique (ha : l.1.1 < l.2.1) {x y z : ℚ} (h : OnLine l (x, y)) (h' : OnLine l (x, z)) : y = z := by
  have h1 := ((C57_line_y l x y).1 ha.ne).2 h
  have h2 := ((C57_line_y l x z).1 ha.ne).2 h'
  rw [h1] at h2
  exact Option.some.inj h2

/-- The end of an extension without any intersection. -/
theorem extended_free (hl : t.line = some l) (ha : l.1.1 < l.2.1) (mult bound : Option ℚ) :
    ∃ y, t.lineExtended mult bound none = .ok (some (l.1, (TLine.stretch l.1.1 l.2.1 mult bound, y))) ∧
      OnLine l (TLine.stretch l.1.1 l.2.1 mult bound, y) := by
  obtain ⟨y, hy, ho⟩ := ready_y hl ha (TLine.stretch l.1.1 l.2.1 mult bound)
  refine ⟨y, ?_, ho⟩
  unfold TLine.lineExtended
  rw [hl]
  simp only [Option.map_none, TLine.reach, TLine.cut, bind, Except.bind, hy]
  rfl

/-- The end of an extension to an intersection. -/
theorem extended_to (hl : t.line = some l) (ha : l.1.1 < l.2.1) (mult bound : Option ℚ) (i : ℤ)
    (hn : t.intersections ≠ []) :
    ∃ (j : ℕ) (p : XY) (y : ℚ), Means t.intersections.length i j ∧ t.intersections[j]? = some p ∧
      (let e := TLine.stretch l.1.1 (max l.2.1 p.1) mult bound
       let x := match t.intersections[j + 1]? with | some q => min e q.1 | none => e
       t.lineExtended mult bound (some i) = .ok (some (l.1, (x, y))) ∧ OnLine l (x, y)) := by
  have hlen : t.intersections.length ≠ 0 := by simpa using hn
  obtain ⟨j, hj, hm⟩ := means_pick hlen i
  have hjl := hm.1
  have hr : t.reach l.2.1 (some (j : ℤ)) = .ok (max l.2.1 (t.intersections[j]).1) := by
    unfold TLine.reach
    simp only
    rw [if_pos (by exact_mod_cast hlen), pyGet_nat _ _ hjl]
    simp only [bind, Except.bind, pure, Except.pure]
    congr 1
    split
    · rw [max_eq_right]; linarith
    · rw [max_eq_left]; linarith
  obtain ⟨x, hx1, hx2⟩ : ∃ x, t.cut (TLine.stretch l.1.1 (max l.2.1 (t.intersections[j]).1) mult bound) (some (j : ℤ)) =
      .ok x ∧ x = match t.intersections[j + 1]? with
        | some q => min (TLine.stretch l.1.1 (max l.2.1 (t.intersections[j]).1) mult bound) q.1
        | none => TLine.stretch l.1.1 (max l.2.1 (t.intersections[j]).1) mult bound := by
    refine ⟨_, ?_, rfl⟩
    unfold TLine.cut
    simp only
    by_cases h : j + 1 < t.intersections.length
    · rw [if_pos (by exact_mod_cast h), List.getElem?_eq_getElem h]
      have := pyGet_nat t.intersections (j + 1) h
      push_cast at this
      rw [this]
      simp only [bind, Except.bind, pure, Except.pure]
      congr 1
      split
      · rw [min_eq_right]; linarith
      · rw [min_eq_left]; linarith
    · rw [if_neg (by exact_mod_cast h), List.getElem?_eq_none (by omega)]
  obtain ⟨y, hy, ho⟩ := ready_y hl ha x
  refine ⟨j, t.intersections[j], y, hm, List.getElem?_eq_getElem hjl, ?_⟩
  simp only
  rw [← hx2]
  refine ⟨?_, ho⟩
  unfold TLine.lineExtended
  rw [hl]
  simp only [Option.map_some, hj, hr, bind, Except.bind, hx1, hy]
  rfl

/-- C99, no options: the extension of a line is the line. -/
theorem C99_plain (h : Grown t) (hw : 0 < t.minWidth) (hl : t.line = some l) :
    t.lineExtended none none none = .ok (some l) := by
  have ha := (grown_kept h hw).asc l hl
  obtain ⟨y, h1, h2⟩ := extended_free hl ha none none
  rw [h1]
  have h3 : OnLine l (l.2.1, l.2.2) := by unfold OnLine; ring
  have := on_line_unique ha h2 h3
  rw [this]
  rfl

/-- C99, no line. -/
theorem C99_none (hl : t.line = none) (mult bound : Option ℚ) (i : Option ℤ) :
    t.lineExtended mult bound i = .ok none := by
  unfold TLine.lineExtended
  rw [hl]

/-- C99 (partial: the index, if there is one, is one of an existing intersection or at least -1): there is an extension; it
begins where the line begins, ends on it, is not wider than allowed, and ends before the intersection after the one meant.
Missing: indices below -1 for lines without intersections, see `C99_negation`. -/
theorem C99_partial (h : Grown t) (hw : 0 < t.minWidth) (hl : t.line = some l) (mult bound : Option ℚ) (i : Option ℤ)
    (hi : t.intersections ≠ [] ∨ ∀ k, i = some k → -1 ≤ k) :
    ∃ x y, t.lineExtended mult bound i = .ok (some (l.1, (x, y))) ∧ OnLine l (x, y) ∧
      (∀ w, bound = some w → x - l.1.1 ≤ w) ∧
      (∀ k j q, i = some k → Means t.intersections.length k j → t.intersections[j + 1]? = some q → x ≤ q.1) := by
  have ha := (grown_kept h hw).asc l hl
  have hst : ∀ e w, bound = some w → TLine.stretch l.1.1 e mult bound - l.1.1 ≤ w := by
    intro e w hb
    subst hb
    unfold TLine.stretch
    simp only
    cases mult <;> simp only <;> split <;> linarith
  have huniq : ∀ {n : ℕ} {k : ℤ} {a b : ℕ}, Means n k a → Means n k b → a = b := by
    intro n k a b h1 h2
    unfold Means at h1 h2
    omega
  cases i with
  | none =>
    obtain ⟨y, h1, h2⟩ := extended_free hl ha mult bound
    exact ⟨_, y, h1, h2, fun w hb => hst _ w hb, fun k j q hk => by cases hk⟩
  | some k =>
    by_cases hn : t.intersections = []
    · have hk : -1 ≤ k := by
        rcases hi with hi | hi
        · exact absurd hn hi
        · exact hi k rfl
      obtain ⟨y, h1, h2⟩ := extended_free hl ha mult bound
      refine ⟨_, y, ?_, h2, fun w hb => hst _ w hb, ?_⟩
      · rw [← h1]
        unfold TLine.lineExtended
        rw [hl]
        have h0 : ¬ k + 1 < 0 := by omega
        simp [TLine.pickIndex, TLine.reach, TLine.cut, hn, h0]
      · intro k' j q _ hm
        rw [hn] at hm
        exact absurd hm.1 (by simp)
    · obtain ⟨j, p, y, hm, hp, h1⟩ := extended_to hl ha mult bound k hn
      simp only at h1
      obtain ⟨h1, h2⟩ := h1
      refine ⟨_, y, h1, h2, ?_, ?_⟩
      · intro w hb
        have := hst (max l.2.1 p.1) w hb
        split
        · exact le_trans (sub_le_sub_right (min_le_left _ _) _) this
        · exact this
      · intro k' j' q hk hm' hq
        cases hk
        have := huniq hm hm'
        subst this
        rw [hq]
        exact min_le_right _ _

/-- C99, the reach: without a multiple and a bound, a line that is extended to an intersection ends there, or where it ended
before if that is later, or at the intersection after it if that is earlier. -/
theorem C99_reach (h : Grown t) (hw : 0 < t.minWidth) (hl : t.line = some l) (i : ℤ) (j : ℕ) {p : XY}
    (hm : Means t.intersections.length i j) (hp : t.intersections[j]? = some p) :
    ∃ y, t.lineExtended none none (some i) = .ok (some (l.1,
      ((match t.intersections[j + 1]? with | some q => min (max l.2.1 p.1) q.1 | none => max l.2.1 p.1), y))) := by
  have ha := (grown_kept h hw).asc l hl
  have hn : t.intersections ≠ [] := by
    intro h0; rw [h0] at hp; simp at hp
  obtain ⟨j', p', y, hm', hp', h1⟩ := extended_to hl ha none none i hn
  have : j' = j := by unfold Means at hm hm'; omega
  subst this
  rw [hp] at hp'
  cases hp'
  exact ⟨y, h1.1⟩

/-- C99, the multiple: without an index and a bound, the width is multiplied. -/
theorem C99_multiple (h : Grown t) (hw : 0 < t.minWidth) (hl : t.line = some l) (k : ℚ) :
    ∃ x y, t.lineExtended (some k) none none = .ok (some (l.1, (x, y))) ∧ x - l.1.1 = (l.2.1 - l.1.1) * k := by
  have ha := (grown_kept h hw).asc l hl
  obtain ⟨y, h1, _⟩ := extended_free hl ha (some k) none
  exact ⟨_, y, h1, by simp [TLine.stretch]⟩

/-- Disagreement with C99: a line without intersections cannot be extended to the last but one of them (or an earlier one),
though it can be to the first or the last. -/
theorem C99_negation (hl : t.line = some l) (hn : t.intersections = []) (mult bound : Option ℚ) (i : ℤ) (hi : i < -1) :
    t.lineExtended mult bound (some i) = .error .index := by
  unfold TLine.lineExtended
  rw [hl]
  have h0 : i + 1 < 0 := by omega
  have h1 : ¬ 0 ≤ i + 1 := by omega
  simp only [Option.map_some, TLine.pickIndex, TLine.reach, TLine.cut, hn, List.length_nil, Nat.cast_zero, ne_eq,
    not_true_eq_false, if_false, bind, Except.bind, h0, if_true, pyGet, h1, add_zero]

example : falling.lineExtended (some 2) (some 3) none = .ok (some ((0, 3), (3, 0))) ∧
    falling.lineExtended (some 2) none (some (-1)) = .ok (some ((0, 3), (4, -1))) ∧
    falling.intersections = [] ∧ falling.lineExtended none none (some (-2)) = .error .index := by decide +kernel


/-- A line that was crossed twice, extended to the intersections. -/
example : let t := fedD (plain 3) (wavy ++ [(7, 23)])
    t.line = some ((0, 30), (7, 23)) ∧ t.intersections = [(22 / 5, 128 / 5), (38 / 7, 172 / 7)] ∧
    t.lineExtended none none (some 0) = .ok (some ((0, 30), (38 / 7, 172 / 7))) ∧
    t.lineExtended (some 3) none (some (-1)) = .ok (some ((0, 30), (21, 9))) ∧
    t.lineExtended (some 3) (some 10) (some 8) = .ok (some ((0, 30), (10, 20))) := by decide +kernel

/-! ## C100 -/

theorem valid_same {u : TLine} (a : u.line = t.line) (b : u.trend = t.trend) (c : u.minWidth = t.minWidth)
    (d : u.minPoints = t.minPoints) (e : u.minDist = t.minDist) : u.isValid = t.isValid := by
  unfold TLine.isValid TLine.isReady TLine.width
  rw [a, b, c, d, e]

/-- C100, what a copy keeps: the points, the line, the search interval, the intersections and the tangent points; so it is as
valid, as wide, and has the same values. -/
theorem C100_kept (hl : t.line = some l) : ∃ u, t.copy = .ok u ∧ u.trend = t.trend ∧ u.boundary = t.boundary ∧
    u.line = t.line ∧ u.search = t.search ∧ u.intersections = t.intersections ∧ u.tangents = t.tangents ∧
    u.upper = t.upper ∧ u.minWidth = t.minWidth ∧ u.minPoints = t.minPoints ∧ u.minDist = t.minDist ∧
    u.isValid = t.isValid ∧ u.width = t.width ∧ (∀ x, u.y x = t.y x) ∧
    (∀ mult bound i, u.lineExtended mult bound i = t.lineExtended mult bound i) := by
  unfold TLine.copy
  rw [hl]
  refine ⟨_, rfl, rfl, rfl, rfl, rfl, rfl, rfl, rfl, rfl, rfl, rfl, ?_, rfl, ?_, ?_⟩
  · exact valid_same hl.symm rfl rfl rfl rfl
  · intro x
    unfold TLine.y
    rw [hl]
  · intro mult bound i
    unfold TLine.lineExtended TLine.reach TLine.cut TLine.y
    rw [hl]

/-- Disagreement with C100: a line that is not ready has no copy. -/
theorem C100_negation_ready (hl : t.line = none) : t.copy = .error .type := by
  unfold TLine.copy
  rw [hl]

/-- Disagreement with C100: a copy does not know the extremas nor the prediction. -/
theorem C100_negation_lost {u : TLine} (e : t.copy = .ok u) : u.extremas = [] ∧ u.pred = Pred.reset := by
  unfold TLine.copy at e
  split at e
  · cases e
  · cases e; exact ⟨rfl, rfl⟩

/-- Disagreement with C100: a copy fails whenever it is asked if a point in its search interval touches it, and so whenever
such a point is added to a valid copy. -/
theorem C100_negation_touch {u : TLine} (e : t.copy = .ok u) {p : XY} (hp : t.search.contains (.fin p.1) = true) :
    u.onTrend p = .error .type ∧ (t.isValid = true → ∀ us, u.didAppend p us = .error .type) := by
  obtain ⟨l, hl⟩ : ∃ l, t.line = some l := by
    cases hl : t.line with
    | none => rw [C100_negation_ready hl] at e; cases e
    | some l => exact ⟨l, rfl⟩
  obtain ⟨v, hv, _, _, h1, h2, _, _, _, _, _, _, h3, _⟩ := C100_kept hl
  rw [e] at hv
  cases hv
  have h4 : u.tolLower = none := by
    unfold TLine.copy at e
    rw [hl] at e
    cases e
    rfl
  have key : u.onTrend p = .error .type := by
    unfold TLine.onTrend
    rw [h1, hl, h2, h4, hp]
    rfl
  refine ⟨key, ?_⟩
  intro hval us
  unfold TLine.didAppend
  rw [h2, hp, h3, hval, key]
  simp only [Bool.not_true, Bool.and_false, Bool.false_eq_true, if_false]
  rfl

example : falling.isValid = true ∧ falling.onTrend (5 / 2, 1 / 2) = .ok true ∧
    (falling.copy.bind fun u => u.onTrend (5 / 2, 1 / 2)) = .error .type ∧
    (falling.copy.map fun u => (u.line, u.isValid)) = .ok (some ((0, 3), (2, 1)), true) := by decide +kernel

/-- `len` and iteration agree, and give the ends of the line. -/
theorem C100_iter (t : TLine) : t.iter.length = t.len ∧ (∀ l, t.line = some l → t.iter = [l.1, l.2]) := by
  unfold TLine.iter TLine.len TLine.isReady
  cases t.line with
  | none => exact ⟨rfl, fun l h => by cases h⟩
  | some k => exact ⟨rfl, fun l h => by cases h; rfl⟩

example : falling.iter = [(0, 3), (2, 1)] ∧ (plain 3).iter = [] := by decide +kernel

end Props
end Curvepy
