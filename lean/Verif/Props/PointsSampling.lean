import Verif.Model.PointsSampling
import Verif.Spec.PointsSampling
import Verif.Spec.Sampling
import Verif.Props.Sampling
import Verif.Props.PointsQuery

/-!
# Property C142: sampling of a list of points in steps
-/

namespace Curvepy
namespace Props
open Spec Pts

variable {V : Type} [Lerp V] {s : Pts V} {m : ℚ}

theorem stepsFrom_spec (m : ℚ) : ∀ (a : ℚ) (xs : List ℚ), xs.Pairwise (· < ·) → 0 < m →
    ((stepsFrom m a xs = [] ∧ ∀ x ∈ xs, x < a + m) ∨
      ∃ z, IsLeast {x | x ∈ xs ∧ a + m ≤ x} z ∧ stepsFrom m a xs = z :: stepsFrom m z xs)
  | a, [], _, _ => Or.inl ⟨rfl, by simp⟩
  | a, x :: xs, h, hm => by
    obtain ⟨h1, h2⟩ := List.pairwise_cons.1 h
    have skip : ∀ z : ℚ, x ≤ z → stepsFrom m z (x :: xs) = stepsFrom m z xs := by
      intro z hz
      rw [stepsFrom, if_neg (by linarith)]
    by_cases hx : a + m ≤ x
    · right
      refine ⟨x, ⟨⟨by simp, hx⟩, ?_⟩, ?_⟩
      · rintro y ⟨hy, _⟩
        rcases List.mem_cons.1 hy with rfl | hy
        · exact le_rfl
        · exact (h1 y hy).le
      · rw [skip x le_rfl, stepsFrom, if_pos hx]
    · have e : stepsFrom m a (x :: xs) = stepsFrom m a xs := by
        rw [stepsFrom, if_neg hx]
      rw [e]
      rcases stepsFrom_spec m a xs h2 hm with ⟨i1, i2⟩ | ⟨z, ⟨⟨i1, i2⟩, i3⟩, i4⟩
      · left
        refine ⟨i1, ?_⟩
        intro y hy
        rcases List.mem_cons.1 hy with rfl | hy
        · exact not_le.1 hx
        · exact i2 y hy
      · right
        refine ⟨z, ⟨⟨by simp [i1], i2⟩, ?_⟩, ?_⟩
        · rintro y ⟨hy, hy'⟩
          rcases List.mem_cons.1 hy with rfl | hy
          · exact absurd hy' hx
          · exact i3 ⟨hy, hy'⟩
        · rw [skip z (h1 z i1).le]; exact i4

theorem xs_asc (h : Honest s) : (s.points.map Prod.fst).Pairwise (· < ·) := by
  rw [List.pairwise_map]; exact h.wf.asc

theorem y_val (h : Honest s) (x : ℚ) : s.y (.fin x) = .ok (valueAt s.interp s.points x) := y_eq h.wf (.fin x)

/-- `x_next` in terms of the walk. -/
theorem next_steps (h : Honest s) (hm : 0 < m) (a : ℚ) :
    (stepsFrom m a (s.points.map Prod.fst) = [] ∧ s.xNext (.fin a) (some m) = .ok none) ∨
    ∃ z, stepsFrom m a (s.points.map Prod.fst) = z :: stepsFrom m z (s.points.map Prod.fst) ∧
      s.xNext (.fin a) (some m) = .ok (some (.fin z)) ∧ a + m ≤ z := by
  rcases stepsFrom_spec m a _ (xs_asc h) hm with ⟨h1, h2⟩ | ⟨z, ⟨⟨h1, h2⟩, h3⟩, h4⟩
  · left
    refine ⟨h1, ?_⟩
    rcases C06_x_next h a m with ⟨w, _, ⟨q, hq, rfl, hle⟩, _⟩ | ⟨h5, _⟩
    · have := h2 q.1 (List.mem_map_of_mem hq)
      linarith
    · exact h5
  · right
    refine ⟨z, h4, ?_, h2⟩
    obtain ⟨p, hp, rfl⟩ := List.mem_map.1 h1
    rcases C06_x_next h a m with ⟨w, h5, ⟨q, hq, rfl, hle⟩, h6⟩ | ⟨_, h6⟩
    · rw [h5, le_antisymm (h6 ⟨p, hp, rfl, h2⟩) (h3 ⟨List.mem_map_of_mem hq, hle⟩)]
    · have := h6 p hp; linarith

theorem bin_lt {x z : ℚ} (hm : 0 < m) (h1 : NotHalfway m x) (h2 : x + m ≤ z) : pyRound (x / m) < pyRound (z / m) := by
  apply pyRound_step h1
  rw [div_add_one hm.ne']
  exact div_le_div_of_nonneg_right h2 hm.le

theorem stepsFrom_mono (hm : 0 < m) : ∀ (l xs : List ℚ) (a : ℚ), xs.Pairwise (· < ·) → stepsFrom m a xs = l →
    ∀ x ∈ l, a < x
  | [], _, _, _, _, _, hx => by simp at hx
  | z :: l, xs, a, h, hl, x, hx => by
    rcases stepsFrom_spec m a xs h hm with ⟨h1, _⟩ | ⟨w, ⟨⟨_, h2⟩, _⟩, h4⟩
    · rw [h1] at hl; cases hl
    · rw [h4] at hl
      injection hl with e1 e2
      subst e1
      rcases List.mem_cons.1 hx with rfl | hx
      · linarith
      · have := stepsFrom_mono hm l xs w h e2 x hx
        linarith

theorem stepsLoop_spec (h : Honest s) (hm : 0 < m) (b : ℚ) : ∀ (l : List ℚ) (a : ℚ) (n : ℕ),
    stepsFrom m a (s.points.map Prod.fst) = l → (∀ x ∈ l, x ≤ b → NotHalfway m x) → l.length < n →
    ∃ x, s.xNext (.fin a) (some m) = .ok x ∧ stepsLoop s m b (pyRound (b / m)) n x =
      some (.ok (withValues s.interp s.points (l.filter fun x => decide (x ≤ b))))
  | [], a, n, hl, _, hn => by
    obtain ⟨n, rfl⟩ : ∃ k, n = k + 1 := ⟨n - 1, by simp at hn; omega⟩
    rcases next_steps h hm a with ⟨_, h2⟩ | ⟨z, h1, _⟩
    · exact ⟨none, h2, rfl⟩
    · rw [hl] at h1; cases h1
  | z :: l, a, n, hl, hh, hn => by
    obtain ⟨n, rfl⟩ : ∃ k, n = k + 1 := ⟨n - 1, by simp at hn; omega⟩
    rcases next_steps h hm a with ⟨h1, _⟩ | ⟨w, h1, h2, h3⟩
    · rw [hl] at h1; cases h1
    rw [hl] at h1
    injection h1 with e1 e2
    subst e1
    refine ⟨_, h2, ?_⟩
    have hmono := stepsFrom_mono hm l _ z (xs_asc h) e2.symm
    obtain ⟨x1, hx1, hrec⟩ := stepsLoop_spec h hm b l z n e2.symm (fun x hx => hh x (by simp [hx])) (by simpa using hn)
    unfold stepsLoop
    by_cases hz : z ≤ b
    · have hnh := hh z (by simp) hz
      rw [if_pos hz, y_val h, stepBin, if_neg hm.ne']
      simp only
      rw [List.filter_cons_of_pos (by simpa using hz)]
      by_cases hb : pyRound (z / m) = pyRound (b / m)
      · rw [if_pos hb]
        have : l.filter (fun x => decide (x ≤ b)) = [] := by
          rw [List.filter_eq_nil_iff]
          intro x hx
          simp only [decide_eq_true_eq, not_le]
          by_contra hc
          rw [not_lt] at hc
          -- the first one decides
          cases l with
          | nil => simp at hx
          | cons w l =>
            rcases next_steps h hm z with ⟨g1, _⟩ | ⟨w', g1, _, g3⟩
            · rw [← e2] at g1; cases g1
            · rw [← e2] at g1
              injection g1 with g4 g5
              subst g4
              have hwx : w ≤ x := by
                rcases List.mem_cons.1 hx with rfl | hx
                · exact le_rfl
                · exact (stepsFrom_mono hm l _ w (xs_asc h) g5.symm x hx).le
              have hwb : w ≤ b := hwx.trans hc
              have h6 := bin_lt hm hnh g3
              have h7 := pyRound_mono (hh w (by simp) hwb) (div_le_div_of_nonneg_right hwb hm.le)
              omega
        rw [this]
        rfl
      · rw [if_neg hb, hx1]
        rcases next_steps h hm z with ⟨g1, g2⟩ | ⟨w, g1, g2, g3⟩
        · rw [g2] at hx1
          cases hx1
          rw [← e2] at g1
          subst g1
          rfl
        · rw [g2] at hx1
          cases hx1
          simp only [stepBin, if_neg hm.ne']
          rw [if_neg (not_le.2 (bin_lt hm hnh g3)), hrec]
          rfl
    · rw [if_neg hz]
      have : (z :: l).filter (fun x => decide (x ≤ b)) = [] := by
        rw [List.filter_eq_nil_iff]
        intro x hx
        simp only [decide_eq_true_eq, not_le]
        rcases List.mem_cons.1 hx with rfl | hx
        · exact not_le.1 hz
        · have := hmono x hx
          linarith [not_le.1 hz]
      rw [this]
      rfl

theorem stepsFrom_length (m a : ℚ) (xs : List ℚ) : (stepsFrom m a xs).length ≤ xs.length := by
  induction xs generalizing a with
  | nil => simp [stepsFrom]
  | cons x xs ih =>
    unfold stepsFrom
    split_ifs
    · simpa using ih x
    · exact (ih a).trans (by simp)

theorem irregular_iff (hi : s.interval = intervalOf s.points) (minStep step : Option ℚ) :
    s.irregular minStep step = true ↔ ∃ d, IsAverageGap s.points d ∧
      ((∃ m, minStep = some m ∧ d < m) ∨ ∃ st, step = some st ∧ st ≠ d) := by
  unfold irregular
  rw [hi]
  cases hp : s.points with
  | nil => simp [intervalOf, IsAverageGap]
  | cons p ps =>
    cases ps with
    | nil => simp [intervalOf, IsAverageGap]
    | cons r ps =>
      have key : ∀ d : ℚ, IsAverageGap (p :: r :: ps) d ↔
          d = (((r :: ps).getLast (by simp)).1 - p.1) / ((r :: ps).length : ℕ) := by
        intro d
        have hne : (((r :: ps).length : ℕ) : ℚ) ≠ 0 := by
          rw [List.length_cons]; positivity
        rw [eq_div_iff hne]
        constructor
        · rintro ⟨p', ps', q, h1, h2, h3⟩
          cases h1
          rw [List.getLast?_eq_some_getLast (by simp)] at h2
          cases h2
          exact h3
        · intro h1
          exact ⟨p, r :: ps, _, rfl, List.getLast?_eq_some_getLast (by simp), h1⟩
      simp only [key, intervalOf, Bool.or_eq_true, exists_eq_left]
      refine or_congr ?_ ?_
      · cases minStep <;> simp
      · cases step <;> simp

/-- **C142** Points are sampled in steps if a least step above their average gap or another step is asked for; otherwise the
stored points in the domain are given. -/
theorem C142_stored (h : Honest s) (domain : Option Iv) {minStep step : Option ℚ} (fuel : ℕ)
    (hr : Regular s.points minStep step) :
    s.samplePoints domain minStep step fuel =
      some (.ok (s.points.filter fun p => (domain.getD Iv.infinite).contains (.fin p.1))) := by
  have hi : s.irregular minStep step = false := by
    rw [← Bool.not_eq_true, irregular_iff h.wf.intv]
    rintro ⟨d, h1, ⟨m, h2, h3⟩ | ⟨st, h2, h3⟩⟩
    · exact absurd ((hr d h1).1 m h2) (not_le.2 h3)
    · exact h3 ((hr d h1).2 st h2)
  unfold samplePoints
  simp only [hi, Bool.false_eq_true, if_false]
  split_ifs with he
  · rw [h.wf.domVal, getDomain_isEmpty_iff h.wf.asc] at he
    rw [he]; rfl
  · rw [C08_sample h]

theorem first_values (h : Honest s) (d : Iv) (a : ℚ) :
    (if d.loOpen = true then (.ok [] : Except Err (List (Pt V))) else (s.y (.fin a)).map fun y => [(a, y)]) =
      .ok (withValues s.interp s.points (if d.loOpen then [] else [a])) := by
  cases d.loOpen
  · rw [y_val h]; rfl
  · rfl

/-! ### The loop ends -/

theorem stepsLoop_ends (h : Honest s) (hm : 0 < m) (b : ℚ) (e : ℤ) (n : ℕ) : ∀ x : Option Ext,
    (∀ z, x = some z → ∃ p ∈ s.points, z = .fin p.1 ∧
      (s.points.filter fun q => decide (p.1 ≤ q.1)).length ≤ n) → (stepsLoop s m b e (n + 1) x).isSome := by
  induction n with
  | zero =>
    intro x hx
    cases x with
    | none => rfl
    | some z =>
      obtain ⟨p, hp, _, hl⟩ := hx z rfl
      exfalso
      have : p ∈ s.points.filter fun q => decide (p.1 ≤ q.1) := List.mem_filter.2 ⟨hp, by simp⟩
      rw [List.length_eq_zero_iff.1 (Nat.le_zero.1 hl)] at this
      simp at this
  | succ n ih =>
    intro x hx
    cases x with
    | none => rfl
    | some z =>
      obtain ⟨p, hp, rfl, hl⟩ := hx z rfl
      unfold stepsLoop
      split_ifs
      · rw [y_val h, stepBin, if_neg hm.ne']
        simp only
        split_ifs
        · rfl
        · rcases C06_x_next h p.1 m with ⟨w, h1, ⟨q, hq, rfl, hle⟩, _⟩ | ⟨h1, _⟩
          · rw [h1]
            simp only [stepBin, if_neg hm.ne']
            split_ifs
            · rfl
            · rw [Option.isSome_map]
              refine ih _ ?_
              rintro z hz
              cases hz
              refine ⟨q, hq, rfl, ?_⟩
              have hsub : (s.points.filter fun r => decide (q.1 ≤ r.1)).length <
                  (s.points.filter fun r => decide (p.1 ≤ r.1)).length := by
                have h2 : (s.points.filter fun r => decide (q.1 ≤ r.1)) =
                    (s.points.filter fun r => decide (p.1 ≤ r.1)).filter fun r => decide (q.1 ≤ r.1) := by
                  rw [List.filter_filter]
                  refine List.filter_congr fun r _ => ?_
                  by_cases hr : q.1 ≤ r.1
                  · have : p.1 ≤ r.1 := by linarith
                    simp [hr, this]
                  · simp [hr]
                rw [h2]
                refine List.length_filter_lt_length_iff_exists.2 ⟨p, List.mem_filter.2 ⟨hp, by simp⟩, ?_⟩
                simp only [decide_eq_true_eq, not_le]
                linarith
              omega
          · rw [h1]; rfl
      · rfl

/-- **C142** The number of points bounds the rounds of sampling with a least step, on any domain. -/
theorem C142_ends (h : Honest s) (hm : 0 < m) (domain : Option Iv) :
    (s.samplePoints domain (some m) none (s.points.length + 1)).isSome := by
  unfold samplePoints
  have hr : resolveMinStep s.minStep (some m) = some m := by rw [Honest.minStep h]; rfl
  simp only [hr]
  split_ifs
  · rfl
  · unfold curveSample
    by_cases he : (Iv.inter s.domVal (domain.getD Iv.infinite)).isEmpty = true
    · rw [if_pos he]; rfl
    · rw [if_neg he]
      split
      · rename_i a b _ _
        rw [first_values h]
        rcases C06_x_next h a m with ⟨w, h1, ⟨q, hq, rfl, hle⟩, _⟩ | ⟨h1, _⟩
        · simp only [endBin, stepBin, if_neg hm.ne', if_pos hm, h1, Option.isSome_map]
          refine stepsLoop_ends h hm _ _ _ _ ?_
          rintro z hz
          cases hz
          exact ⟨q, hq, rfl, List.length_filter_le _ _⟩
        · simp only [endBin, stepBin, if_neg hm.ne', if_pos hm, h1]
          rfl
      · rfl
  · rfl

/-- The setting: the common domain is between two numbers. -/
structure Between (s : Pts V) (domain : Option Iv) (d : Iv) (a b : ℚ) : Prop where
  dom : Iv.inter s.domVal (domain.getD Iv.infinite) = d
  some : d.isEmpty = false
  lo : d.lo = .fin a
  hi : d.hi = .fin b

theorem Between.nonempty (h : Honest s) {domain : Option Iv} {d : Iv} {a b : ℚ} (hd : Between s domain d a b) :
    s.domVal.isEmpty = false := by
  by_contra hc
  rw [Bool.not_eq_false] at hc
  have := hd.some
  rw [← hd.dom] at this
  have h2 := (Iv.isEmpty_iff_forall (Iv.inter s.domVal (domain.getD Iv.infinite))).2 (by
    intro x
    rw [← Bool.not_eq_true, Iv.contains_inter]
    rw [(Iv.isEmpty_iff_forall _).1 hc x]
    simp)
  rw [h2] at this
  cases this

/-- **C142** Where the curve and the domain asked for have no position in common, nothing is sampled, whatever the steps. -/
theorem C142_nothing (h : Honest s) {domain : Option Iv}
    (hn : ∀ x, (span s.points).contains x = true → (domain.getD Iv.infinite).contains x = false) (minStep step : Option ℚ)
    (fuel : ℕ) : s.samplePoints domain minStep step fuel = some (.ok []) := by
  have hd : ∀ x, s.domVal.contains x = true → (domain.getD Iv.infinite).contains x = false := by
    intro x hx
    rw [h.wf.domVal, getDomain_eq_span] at hx
    exact hn x hx
  have he : (Iv.inter s.domVal (domain.getD Iv.infinite)).isEmpty = true := by
    rw [Iv.isEmpty_iff_forall]
    intro x
    rw [← Bool.not_eq_true, Iv.contains_inter, Bool.and_eq_true]
    rintro ⟨h1, h2⟩
    rw [hd x h1] at h2
    cases h2
  unfold samplePoints
  simp only
  split_ifs with h1 h2
  · rfl
  · unfold curveSample
    rw [if_pos he]
  · rw [C08_sample h]
    have : (s.points.filter fun p => (domain.getD Iv.infinite).contains (.fin p.1)) = [] := by
      rw [List.filter_eq_nil_iff]
      intro p hp
      rw [hd]
      · simp
      · rw [h.wf.domVal]; exact getDomain_contains_mem h.wf.asc hp
    rw [this]

/-- **C142** With a least step above the average gap: the beginning of the domain, unless it is open there; the points met from
there in steps of at least the least step, also the end of the domain if it is met; the end, unless the domain is open
there.  Each with the value of the curve.  (Partial: no position met is an odd multiple of half the step, and there is a
position at all.) -/
theorem C142_steps_partial (h : Honest s) {domain : Option Iv} {d : Iv} {a b : ℚ} (hd : Between s domain d a b) (hm : 0 < m)
    {g : ℚ} (hg : IsAverageGap s.points g) (hgm : g < m)
    (hh : ∀ x ∈ stepsFrom m a (s.points.map Prod.fst), x ≤ b → NotHalfway m x)
    (hne : d.hiOpen = true ∨ stepPositions m a b d.loOpen (s.points.map Prod.fst) ≠ []) {fuel : ℕ}
    (hf : s.points.length < fuel) :
    s.samplePoints domain (some m) none fuel = some (.ok (withValues s.interp s.points
      (withEnd b d.hiOpen (stepPositions m a b d.loOpen (s.points.map Prod.fst))))) := by
  have hi : s.irregular (some m) none = true := (irregular_iff h.wf.intv _ _).2 ⟨g, hg, Or.inl ⟨m, rfl, hgm⟩⟩
  unfold samplePoints
  have hr : resolveMinStep s.minStep (some m) = some m := by rw [Honest.minStep h]; rfl
  simp only [hd.nonempty h, Bool.false_eq_true, if_false, hi, if_true, hd.dom, hr, curveSample, hd.some, hd.lo, hd.hi,
    endBin, stepBin, if_neg hm.ne', hm]
  obtain ⟨x, hx, hl⟩ := stepsLoop_spec h hm b _ a fuel rfl hh
    (lt_of_le_of_lt (by simpa using stepsFrom_length m a (s.points.map Prod.fst)) hf)
  rw [first_values h]
  simp only [hx, hl, Option.map_some]
  have happ : withValues s.interp s.points (if d.loOpen then [] else [a]) ++
      withValues s.interp s.points ((stepsFrom m a (s.points.map Prod.fst)).filter fun x => decide (x ≤ b)) =
      withValues s.interp s.points (stepPositions m a b d.loOpen (s.points.map Prod.fst)) := by
    simp [withValues, stepPositions]
  rw [happ]
  unfold closeSample withEnd
  cases ho : d.hiOpen with
  | true => simp
  | false =>
    simp only [Bool.false_eq_true, if_false, false_or]
    rw [ho] at hne
    have hne : stepPositions m a b d.loOpen (s.points.map Prod.fst) ≠ [] := by simpa using hne
    have hgl : (withValues s.interp s.points (stepPositions m a b d.loOpen (s.points.map Prod.fst))).getLast? =
        (stepPositions m a b d.loOpen (s.points.map Prod.fst)).getLast?.map fun x => (x, valueAt s.interp s.points x) := by
      simp [withValues]
    rw [hgl, List.getLast?_eq_some_getLast hne]
    simp only [Option.map_some, Option.some.injEq]
    split_ifs
    · rfl
    · rw [y_val h]
      simp [withValues]

theorem regularLoop_spec (h : Honest s) {b st : ℚ} (hst : 0 < st) (K : ℕ) : ∀ (x : ℚ) (n : ℕ), K < n →
    (∀ k : ℕ, k < K → x + k * st ≤ b) → b < x + K * st →
    regularLoop s b st n x = some (.ok (withValues s.interp s.points ((List.range K).map fun k : ℕ => x + k * st))) := by
  induction K with
  | zero =>
    intro x n hn _ hb
    obtain ⟨n, rfl⟩ : ∃ k, n = k + 1 := ⟨n - 1, by omega⟩
    unfold regularLoop
    rw [if_neg (by push_cast at hb; linarith)]
    rfl
  | succ K ih =>
    intro x n hn hk hb
    obtain ⟨n, rfl⟩ : ∃ k, n = k + 1 := ⟨n - 1, by omega⟩
    unfold regularLoop
    have h0 := hk 0 (by omega)
    rw [if_pos (by push_cast at h0; linarith), y_val h]
    simp only
    rw [ih (x + st) n (by omega) (fun k hk' => by
      have := hk (k + 1) (by omega)
      push_cast at this
      linarith) (by push_cast at hb; linarith)]
    have e : (List.range (K + 1)).map (fun k : ℕ => x + k * st) = x :: (List.range K).map fun k : ℕ => x + st + k * st := by
      rw [List.range_succ_eq_map, List.map_cons, List.map_map]
      congr 1
      · simp
      · refine List.map_congr_left fun k _ => ?_
        simp only [Function.comp_apply, Nat.succ_eq_add_one]
        push_cast
        ring
    rw [e]
    rfl

/-- **C142** With another step than the average gap: the grid with this step from the beginning of the domain. -/
theorem C142_grid (h : Honest s) {domain : Option Iv} {d : Iv} {a b : ℚ} (hd : Between s domain d a b) {st : ℚ} (hst : 0 < st)
    {g : ℚ} (hg : IsAverageGap s.points g) (hgs : st ≠ g) {minStep : Option ℚ} (hms : minStep ≠ some 0) {fuel : ℕ}
    (hf : ⌊(b - a) / st⌋₊ < fuel) :
    s.samplePoints domain minStep (some st) fuel =
      some (.ok (withValues s.interp s.points (gridPositions st a b d.loOpen))) := by
  have hi : s.irregular minStep (some st) = true := (irregular_iff h.wf.intv _ _).2 ⟨g, hg, Or.inr ⟨st, rfl, hgs⟩⟩
  have hab : a ≤ b := by
    obtain ⟨x, hx⟩ := Iv.exists_mem d hd.some
    rw [Iv.contains_iff, Iv.geLo_iff, Iv.leHi_iff, hd.lo, hd.hi] at hx
    have h1 : Ext.fin a ≤ x := hx.1.elim le_of_lt fun h => h.1.le
    have h2 : x ≤ Ext.fin b := hx.2.elim le_of_lt fun h => h.1.le
    exact (Ext.fin_le_fin _ _).1 (h1.trans h2)
  have hr : resolveMinStep s.minStep minStep = minStep := by rw [Honest.minStep h]; cases minStep <;> rfl
  unfold samplePoints
  simp only [hd.nonempty h, Bool.false_eq_true, if_false, hi, if_true, hd.dom, hr, curveSample, hd.some, hd.lo, hd.hi]
  have hbin : ∃ e, endBin b minStep = .ok e := by
    cases minStep with
    | none => exact ⟨0, rfl⟩
    | some m =>
      refine ⟨pyRound (b / m), ?_⟩
      simp only [endBin, stepBin]
      rw [if_neg (fun hc => hms (by rw [hc]))]
  obtain ⟨e, he⟩ := hbin
  rw [he]
  simp only [first_values h]
  have hq : 0 ≤ (b - a) / st := div_nonneg (by linarith) hst.le
  set K := ⌊(b - a) / st⌋₊ with hK
  have hle : (K : ℚ) * st ≤ b - a := by
    have := Nat.floor_le hq
    rwa [← hK, le_div_iff₀ hst] at this
  have hlt : b - a < (K + 1 : ℚ) * st := by
    have := Nat.lt_floor_add_one ((b - a) / st)
    rwa [← hK, div_lt_iff₀ hst] at this
  rw [regularLoop_spec h hst K (a + st) fuel hf (fun k hk => by
    have : (k + 1 : ℚ) ≤ K := by exact_mod_cast hk
    have := mul_le_mul_of_nonneg_right this hst.le
    linarith) (by linarith)]
  simp only [Option.map_some, Except.map, gridPositions, ← hK]
  have e2 : ((List.range (K + 1)).filter fun k => decide (k ≠ 0 ∨ d.loOpen = false)) =
      (if d.loOpen then [] else [0]) ++ (List.range K).map Nat.succ := by
    rw [List.range_succ_eq_map]
    have h3 : ((List.range K).map Nat.succ).filter (fun k => decide (k ≠ 0 ∨ d.loOpen = false)) =
        (List.range K).map Nat.succ := by
      rw [List.filter_eq_self]
      intro k hk
      obtain ⟨j, _, rfl⟩ := List.mem_map.1 hk
      simp
    cases ho : d.loOpen
    · rw [ho] at h3
      rw [List.filter_cons_of_pos (by simp), h3]
      rfl
    · rw [ho] at h3
      rw [List.filter_cons_of_neg (by simp), h3]
      rfl
  rw [e2, List.map_append, withValues, withValues, withValues, List.map_append, List.map_map, List.map_map, List.map_map, List.map_map]
  congr 3
  · cases d.loOpen <;> simp
  · refine List.map_congr_left fun k _ => ?_
    simp only [Function.comp_apply, Nat.succ_eq_add_one]
    have e3 : a + st + k * st = a + ((k + 1 : ℕ) : ℚ) * st := by push_cast; ring
    rw [e3]

/-! ### Which domains -/

theorem between_some (s : Pts V) (h : Honest s) {p : Pt V} {ps : List (Pt V)} (hp : s.points = p :: ps) {d : Iv} {a b : ℚ}
    (hd : d.isEmpty = false) (ha : d.lo = .fin a) (hb : d.hi = .fin b) (h1 : p.1 ≤ a) (h2 : b ≤ ((p :: ps).getLast (by simp)).1) :
    Between s (some d) d a b := by
  refine ⟨?_, hd, ha, hb⟩
  have hdom : s.domVal = Iv.closed p.1 ((p :: ps).getLast (by simp)).1 := by
    rw [h.wf.domVal, hp]; rfl
  have he : s.domVal.isEmpty = false := by
    rw [h.wf.domVal]; exact getDomain_not_isEmpty h.wf.asc (by rw [hp]; simp)
  have hlo : Iv.loLe s.domVal d = true := by
    rw [hdom]
    simp only [Iv.loLe, Iv.closed, ha, Ext.fin_lt_fin, Ext.fin.injEq]
    rcases lt_or_eq_of_le h1 with h | h <;> simp [h]
  have hhi : Iv.hiGe s.domVal d = true := by
    rw [hdom]
    simp only [Iv.hiGe, Iv.closed, hb, Ext.fin_lt_fin, Ext.fin.injEq]
    rcases lt_or_eq_of_le h2 with h | h <;> simp [h]
  have hraw : Iv.interRaw s.domVal d = d := by
    unfold Iv.interRaw
    rw [hlo, hhi]
    rfl
  rw [Option.getD_some, Iv.inter, he, hd, hraw, hd]
  rfl

/-- On the whole domain. -/
theorem between_all (s : Pts V) (h : Honest s) {p : Pt V} {ps : List (Pt V)} (hp : s.points = p :: ps) :
    Between s none (Iv.closed p.1 ((p :: ps).getLast (by simp)).1) p.1 ((p :: ps).getLast (by simp)).1 := by
  have hdom : s.domVal = Iv.closed p.1 ((p :: ps).getLast (by simp)).1 := by
    rw [h.wf.domVal, hp]; rfl
  have he : s.domVal.isEmpty = false := by
    rw [h.wf.domVal]; exact getDomain_not_isEmpty h.wf.asc (by rw [hp]; simp)
  refine ⟨?_, by rw [← hdom]; exact he, rfl, rfl⟩
  rw [Option.getD_none, ← hdom]
  have h1 : Iv.interRaw s.domVal Iv.infinite = s.domVal := by
    rw [hdom]; rfl
  rw [Iv.inter, he, h1, he]
  rfl

/-! ### Properties of the positions -/

theorem stepsFrom_apart (hm : 0 < m) : ∀ (l xs : List ℚ) (a : ℚ), xs.Pairwise (· < ·) → stepsFrom m a xs = l →
    (∀ x ∈ l, a + m ≤ x ∧ x ∈ xs) ∧ l.Pairwise fun x y => x + m ≤ y
  | [], _, _, _, _ => by simp
  | z :: l, xs, a, h, hl => by
    rcases stepsFrom_spec m a xs h hm with ⟨h1, _⟩ | ⟨w, ⟨⟨h0, h2⟩, _⟩, h4⟩
    · rw [h1] at hl; cases hl
    · rw [h4] at hl
      injection hl with e1 e2
      subst e1
      obtain ⟨i1, i2⟩ := stepsFrom_apart hm l xs w h e2
      refine ⟨?_, List.pairwise_cons.2 ⟨fun x hx => (i1 x hx).1, i2⟩⟩
      intro x hx
      rcases List.mem_cons.1 hx with rfl | hx
      · exact ⟨h2, h0⟩
      · exact ⟨by linarith [(i1 x hx).1], (i1 x hx).2⟩

/-- **C142** What is sampled with a least step is at least that far apart, but for the end; no step could have been shorter: in a step from
one position to the next, every point less than the step away is passed over and no other. -/
theorem C142_apart (h : Honest s) (hm : 0 < m) (a b : ℚ) (o : Bool) :
    (stepPositions m a b o (s.points.map Prod.fst)).Pairwise (fun x y => x + m ≤ y) ∧
    (∀ x ∈ stepPositions m a b o (s.points.map Prod.fst), x = a ∨ ∃ p ∈ s.points, p.1 = x ∧ a < x ∧ x ≤ b) ∧
    ∀ p ∈ s.points, a ≤ p.1 → p.1 ≤ b → p.1 ∈ stepPositions m a b false (s.points.map Prod.fst) ∨
      ∃ x ∈ stepPositions m a b false (s.points.map Prod.fst), x < p.1 ∧ p.1 < x + m := by
  obtain ⟨h1, h2⟩ := stepsFrom_apart hm _ _ a (xs_asc h) rfl
  refine ⟨?_, ?_, ?_⟩
  · unfold stepPositions
    rw [List.pairwise_append]
    refine ⟨by cases o <;> simp, h2.filter _, ?_⟩
    intro x hx y hy
    cases o with
    | true => simp at hx
    | false =>
      simp only [Bool.false_eq_true, if_false, List.mem_singleton] at hx
      subst hx
      exact (h1 y (List.mem_filter.1 hy).1).1
  · intro x hx
    unfold stepPositions at hx
    rcases List.mem_append.1 hx with hx | hx
    · left
      cases o <;> simp at hx
      exact hx
    · right
      obtain ⟨h3, h4⟩ := List.mem_filter.1 hx
      obtain ⟨h5, h6⟩ := h1 x h3
      obtain ⟨p, hp, rfl⟩ := List.mem_map.1 h6
      exact ⟨p, hp, rfl, by linarith, by simpa using h4⟩
  · have key : ∀ (l : List ℚ) (a : ℚ), stepsFrom m a (s.points.map Prod.fst) = l → ∀ p ∈ s.points, a ≤ p.1 → p.1 ≤ b →
        (p.1 = a ∨ p.1 ∈ l) ∨ ∃ x, (x = a ∨ x ∈ l) ∧ x < p.1 ∧ p.1 < x + m := by
      intro l
      induction l with
      | nil =>
        intro a hl p hp h3 h4
        rcases stepsFrom_spec m a _ (xs_asc h) hm with ⟨_, h5⟩ | ⟨_, _, h5⟩
        · rcases eq_or_lt_of_le h3 with h6 | h6
          · exact Or.inl (Or.inl h6.symm)
          · exact Or.inr ⟨a, Or.inl rfl, h6, h5 p.1 (List.mem_map_of_mem hp)⟩
        · rw [hl] at h5; cases h5
      | cons z l ih =>
        intro a hl p hp h3 h4
        rcases stepsFrom_spec m a _ (xs_asc h) hm with ⟨h5, _⟩ | ⟨w, ⟨⟨_, h6⟩, h7⟩, h5⟩
        · rw [hl] at h5; cases h5
        · rw [hl] at h5
          injection h5 with e1 e2
          subst e1
          by_cases hz : z ≤ p.1
          · rcases ih z e2.symm p hp hz h4 with (h8 | h8) | ⟨x, h8 | h8, h9⟩
            · exact Or.inl (Or.inr (by simp [h8]))
            · exact Or.inl (Or.inr (by simp [h8]))
            · exact Or.inr ⟨x, Or.inr (by simp [h8]), h9⟩
            · exact Or.inr ⟨x, Or.inr (by simp [h8]), h9⟩
          · rcases eq_or_lt_of_le h3 with h8 | h8
            · exact Or.inl (Or.inl h8.symm)
            · refine Or.inr ⟨a, Or.inl rfl, h8, ?_⟩
              by_contra hc
              exact hz (h7 ⟨List.mem_map_of_mem hp, not_lt.1 hc⟩)
    intro p hp h3 h4
    rcases key _ a rfl p hp h3 h4 with (h5 | h5) | ⟨x, h5, h6, h7⟩
    · left; simp [stepPositions, h5]
    · left
      unfold stepPositions
      exact List.mem_append_right _ (List.mem_filter.2 ⟨h5, by simpa using h4⟩)
    · right
      refine ⟨x, ?_, h6, h7⟩
      unfold stepPositions
      rcases h5 with rfl | h5
      · simp
      · exact List.mem_append_right _ (List.mem_filter.2 ⟨h5, by simp; linarith⟩)

example : (even .linear).samplePoints (some (Iv.closed 20 30)) (some 3) none 0 = some (.ok []) ∧
    (even .linear).samplePoints (some (Iv.closed 1 4)) none (some (3 / 2)) 9 =
      some (.ok [(1, some 3), (5 / 2, some (19 / 4)), (4, some 4)]) := by
  refine ⟨?_, ?_⟩ <;> decide +kernel

/-! ### An instance of each theorem -/

theorem even_between : Between (even .linear) (some (Iv.closed 1 4)) (Iv.closed 1 4) 1 4 :=
  ⟨by decide +kernel, rfl, rfl, rfl⟩

theorem even_gap : IsAverageGap (even .linear).points 2 := ⟨(0, some 1), [(2, some 5), (4, some 4)], (4, some 4), by decide +kernel, rfl, by norm_num⟩

-- `C142_stored`: without steps, the points within
example : (even .linear).samplePoints (some (Iv.closed 1 4)) none none 0 = some (.ok [(2, some 5), (4, some 4)]) := by
  rw [C142_stored (even_honest .linear) _ 0 (fun _ _ => ⟨fun _ hm => by simp at hm, fun _ hm => by simp at hm⟩)]
  decide +kernel

-- `C142_ends`
example : ((even .linear).samplePoints (some (Iv.closed 1 4)) (some 3) none ((even .linear).points.length + 1)).isSome :=
  C142_ends (even_honest .linear) (by norm_num) _

-- `C142_grid`: the step is not the average gap
example : (even .linear).samplePoints (some (Iv.closed 1 4)) none (some (3 / 2)) 9 =
    some (.ok (withValues .linear (even .linear).points [1, 5 / 2, 4])) := by
  rw [C142_grid (even_honest .linear) even_between (by norm_num) even_gap (by norm_num) (by simp)
    (by rw [Nat.floor_lt (by norm_num)]; norm_num)]
  decide +kernel

-- `C142_apart`: of the positions 1, 2, 4 the second is nearer than the step
example : stepPositions 3 1 4 false ((even .linear).points.map Prod.fst) = [1, 4] ∧
    (stepPositions 3 1 4 false ((even .linear).points.map Prod.fst)).Pairwise (fun x y => x + 3 ≤ y) :=
  ⟨by decide +kernel, (C142_apart (even_honest .linear) (by norm_num) 1 4 false).1⟩

end Props
end Curvepy
