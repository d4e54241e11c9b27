import Verif.Model.Indicators
import Verif.Props.Sma
import Verif.Props.Quotes
import Verif.Props.OffsetDuration

/-!
# Properties C128 and C129: indicators of quotes
-/

namespace Curvepy
namespace Props
open Spec Accum Sma Pts

variable {m : ℚ} {u : Bool}

/-- What reading the domain gives. -/
theorem touch_degree (hm : minStepQ ≤ m) {n : ℕ} (hn : 1 ≤ n) {A : Accum} (h : Averaging (.degree n) m u A) :
    ∃ B d, smaTouch (.degree n) A = (B, .ok d) ∧ Averaging (.degree n) m u B ∧ B.src.points = A.src.points ∧
      (∀ x, d.contains (.fin x) = true ↔ ∃ p q, A.src.points[n - 1]? = some p ∧
        A.src.points[A.src.points.length - 1]? = some q ∧ p.1 ≤ x ∧ x ≤ q.1) := by
  have hm0 : (0 : ℚ) < m := lt_of_lt_of_le (by norm_num [minStepQ]) hm
  obtain ⟨_, skip, seen, todo, s0⟩ := averaging_ok hm (show Fits m (.degree n) from hn) h
  obtain ⟨B, d, hB, hdB, hBp, _⟩ := smaTouch_spec s0
  refine ⟨B, d, hB, ?_, hBp, fun x => ?_⟩
  · have := Averaging.read h
    rw [hB] at this
    exact this
  · obtain ⟨d', hd', hcon⟩ := degree_domain s0.src hm0 s0.gapped n x
    rw [hdB] at hd'
    cases hd'
    exact hcon

/-- What a query at a knot gives. -/
theorem query_degree (hm : minStepQ ≤ m) {n : ℕ} (hn : 1 ≤ n) {A : Accum} (h : Averaging (.degree n) m u A) {l : List (ℚ × ℚ)}
    (hl : defined l <+: A.src.points) {k : ℕ} {q : ℚ × ℚ} (hk : l[k]? = some q) (hnk : n ≤ k + 1) (fuel : ℕ) :
    ∃ o, smaY (.degree n) (fuel + 1) A (.fin q.1) = some o ∧ Averaging (.degree n) m u o.st ∧ o.st.src.points = A.src.points ∧
      o.res = .ok (some (meanHeight (windowAt l n k))) := by
  have hok := averaging_ok hm (show Fits m (.degree n) from hn) h
  obtain ⟨o, h1, h2, h3⟩ := degree_knot hm hn hl hok hk hnk fuel
  exact ⟨o, h1, .query h h1, h2.1, h3⟩

theorem knot_within (hm : minStepQ ≤ m) {n : ℕ} (hn : 1 ≤ n) {A : Accum} (h : Averaging (.degree n) m u A) {l : List (ℚ × ℚ)}
    (hl : defined l <+: A.src.points) {k : ℕ} {q : ℚ × ℚ} (hk : l[k]? = some q) :
    (∃ p r, A.src.points[n - 1]? = some p ∧ A.src.points[A.src.points.length - 1]? = some r ∧ p.1 ≤ q.1 ∧ q.1 ≤ r.1) ↔
      n ≤ k + 1 := by
  obtain ⟨_, skip, seen, todo, s0⟩ := averaging_ok hm (show Fits m (.degree n) from hn) h
  have hasc := s0.src.wf.asc
  have hk' : A.src.points[k]? = some (q.1, some q.2) := prefix_get hl hk
  have hlt := (List.getElem?_eq_some_iff.1 hk').1
  constructor
  · rintro ⟨p, r, h1, _, h2, _⟩
    by_contra hc
    have := hasc.lt hk' h1 (by omega)
    simp at this
    linarith
  · intro hnk
    refine ⟨_, _, List.getElem?_eq_getElem (by omega), List.getElem?_eq_getElem (by omega), ?_, ?_⟩
    · exact hasc.le (List.getElem?_eq_getElem (by omega)) hk' (by omega)
    · exact hasc.le hk' (List.getElem?_eq_getElem (by omega)) (by omega)

/-! ## C128 The awesome oscillator -/

/-- An average of the last `n` of the points `l`, after any history. -/
structure Tracks (m : ℚ) (u : Bool) (n : ℕ) (l : List (ℚ × ℚ)) (a : Avg) : Prop where
  window : a.w = .degree n
  used : Averaging (.degree n) m u a.acc
  points : a.acc.src.points = defined l

/-- C128: a difference of two averages at a point: of the mean heights of the line through the last points, `None` before there are
enough; whatever was asked and edited before.  Asking leaves both averages as they are, up to what they remember. -/
theorem difference_knot (hm : minStepQ ≤ m) {n k : ℕ} (hn : 1 ≤ n) (hk : 1 ≤ k) {s : Avg × Avg} {l : List (ℚ × ℚ)}
    (t1 : Tracks m u n l s.1) (t2 : Tracks m u k l s.2) {i : ℕ} {q : ℚ × ℚ} (hi : l[i]? = some q) (fuel : ℕ) :
    ∃ s', difference (fuel + 1) s (.fin q.1) = some (s', .ok (if n ≤ i + 1 ∧ k ≤ i + 1 then
        some (meanHeight (windowAt l n i) - meanHeight (windowAt l k i)) else none)) ∧
      Tracks m u n l s'.1 ∧ Tracks m u k l s'.2 := by
  obtain ⟨w1, h1, hl1⟩ := t1
  obtain ⟨w2, h2, hl2⟩ := t2
  obtain ⟨A, d, a1, a2, a3, a4⟩ := touch_degree hm hn h1
  obtain ⟨B, d', b1, b2, b3, b4⟩ := touch_degree hm hk h2
  have c1 := (a4 q.1).trans (knot_within hm hn h1 (by rw [hl1]) hi)
  have c2 := (b4 q.1).trans (knot_within hm hk h2 (by rw [hl2]) hi)
  have hcon : (Iv.interAll [d, d']).contains (.fin q.1) = true ↔ n ≤ i + 1 ∧ k ≤ i + 1 := by
    rw [Iv.contains_interAll]
    simp [c1, c2]
  unfold difference
  simp only [w1, w2, a1, b1]
  by_cases hc : n ≤ i + 1 ∧ k ≤ i + 1
  · obtain ⟨o, e1, e2, e3, e4⟩ := query_degree hm hn a2 (by rw [a3, hl1]) hi hc.1 fuel
    obtain ⟨o', f1, f2, f3, f4⟩ := query_degree hm hk b2 (by rw [b3, hl2]) hi hc.2 fuel
    refine ⟨(⟨.degree n, o.st⟩, ⟨.degree k, o'.st⟩), ?_, ⟨rfl, e2, e3.trans (a3.trans hl1)⟩, ⟨rfl, f2, f3.trans (b3.trans hl2)⟩⟩
    simp only [hcon.2 hc, Bool.not_true, Bool.false_eq_true, if_false, e1, e4, f1, f4, minus, if_pos hc]
  · refine ⟨(⟨.degree n, A⟩, ⟨.degree k, B⟩), ?_, ⟨rfl, a2, a3.trans hl1⟩, ⟨rfl, b2, b3.trans hl2⟩⟩
    have : (Iv.interAll [d, d']).contains (.fin q.1) = false := by
      rw [← Bool.not_eq_true, hcon]; exact hc
    simp only [this, Bool.not_false, if_true, if_neg hc]

/-- The midpoints of quotes. -/
def midpoints (l : List (ℚ × Quote)) : List (ℚ × ℚ) := l.map fun p => (p.1, ((p.2.getD 1 0) + (p.2.getD 2 0)) / 2)

theorem mapped_middle {s : Pts Quote} {l : List (ℚ × Quote)} (hl : s.points = l.map fun p => (p.1, some p.2)) :
    (mapped Quotes.middle s).points = defined (midpoints l) := by
  rw [mapped_points, hl, defined, midpoints, List.map_map, List.map_map]
  rfl

/-- C128: the curve of midpoints answers what the points of midpoints answer. -/
theorem C128_midpoints {q : Quotes} (h : QHonest q)
    (hall : ∀ p ∈ q.points.points, ∀ v, p.2 = some v → 2 < v.length) (x : Ext) :
    Quotes.hl2 q x = (mapped Quotes.middle q.points).y x := by
  obtain ⟨hh, hi, _⟩ := qhonest h
  rw [mapped_y _ _ (by rw [hi]; decide)]
  unfold Quotes.hl2 Quotes.component Quotes.y
  obtain ⟨v, hv⟩ := (C04_total hh x).1
  rw [hv]
  cases v with
  | none => rfl
  | some v =>
    obtain ⟨p, h1, h2⟩ := y_previous_mem hi hv
    have h3 := hall p h1 v h2
    have e1 : pyGet v 1 = .ok v[1] := by
      unfold pyGet
      simp [show 1 < v.length by omega]
    have e2 : pyGet v 2 = .ok v[2] := by
      unfold pyGet
      simp [h3]
    change (do let c ← (do let h ← pyGet v 1; let l ← pyGet v 2; pure ((h + l) / 2)); pure (some c) : Except Err (Option ℚ)) = _
    rw [e1, e2]
    simp [Quotes.middle, Quotes.entry, Except.map, h3, show 1 < v.length by omega, bind, Except.bind, pure, Except.pure]

theorem middleSma_tracks {q : Quotes} (h : QHonest q) {l : List (ℚ × Quote)} (hl : q.points.points = l.map fun p => (p.1, some p.2))
    (hf : AllFit m u (defined (midpoints l))) {n : ℕ} (hn : (Window.degree n).valid = true) :
    ∃ a, q.middleSma m u n = .ok a ∧ Tracks m u n (midpoints l) a := by
  have hp := mapped_middle hl
  have hh := (qhonest h).2.2 Quotes.middle
  have hf' : AllFit m u (mapped Quotes.middle q.points).points := by rw [hp]; exact hf
  have hs : Sma.new (mapped Quotes.middle q.points) (.degree n) m u = .ok (Accum.new (mapped Quotes.middle q.points) m .linear u) := by
    rw [Sma.new, if_pos hn]
  exact ⟨⟨.degree n, _⟩, by simp only [Quotes.middleSma, hs]; rfl, rfl, .new hh hf' hs, hp⟩

/-- C128: the oscillator of quotes is made of averages of the last five and the last 34 midpoints. -/
theorem C128_made {q : Quotes} (h : QHonest q) {l : List (ℚ × Quote)} (hl : q.points.points = l.map fun p => (p.1, some p.2))
    (hf : AllFit m u (defined (midpoints l))) :
    ∃ s, q.ao m u = .ok s ∧ Tracks m u 5 (midpoints l) s.1 ∧ Tracks m u 34 (midpoints l) s.2 := by
  obtain ⟨a, ha, ta⟩ := middleSma_tracks h hl hf (n := 5) rfl
  obtain ⟨b, hb, tb⟩ := middleSma_tracks h hl hf (n := 34) rfl
  exact ⟨(a, b), by simp only [Quotes.ao, ha, hb]; rfl, ta, tb⟩

/-- C128: the oscillator at quote `i`, after any history: `None` before the 34th quote, and then the mean height of the line through
the midpoints of the last five quotes less that through the last 34. -/
theorem C128_value (hm : minStepQ ≤ m) {s : Avg × Avg} {l : List (ℚ × ℚ)} (h1 : Tracks m u 5 l s.1) (h2 : Tracks m u 34 l s.2)
    {i : ℕ} {q : ℚ × ℚ} (hi : l[i]? = some q) (fuel : ℕ) :
    ∃ s', difference (fuel + 1) s (.fin q.1) = some (s', .ok (if 34 ≤ i + 1 then
        some (meanHeight (windowAt l 5 i) - meanHeight (windowAt l 34 i)) else none)) ∧
      Tracks m u 5 l s'.1 ∧ Tracks m u 34 l s'.2 := by
  obtain ⟨s', e1, e2, e3⟩ := difference_knot hm (by norm_num) (by norm_num) h1 h2 hi fuel
  refine ⟨s', ?_, e2, e3⟩
  rw [e1]
  by_cases hc : 34 ≤ i + 1
  · rw [if_pos hc, if_pos ⟨by omega, hc⟩]
  · rw [if_neg hc, if_neg (by tauto)]

/-! ## C129 Averages moved by periods -/

/-- The mean at quote `j`: of the last `n` ones; `None` before there are `n` and after the last one. -/
def meanAt (l : List (ℚ × ℚ)) (n : ℕ) (j : ℤ) : Option ℚ :=
  if (n : ℤ) ≤ j + 1 ∧ j < l.length then some (meanHeight (windowAt l n j.toNat)) else none

/-- Quote `k` begins with period `a + k`. -/
def Periodic (D : Dur) (a : ℤ) (l : List (ℚ × ℚ)) : Prop := ∀ (k : ℕ) (q : ℚ × ℚ), l[k]? = some q → q.1 = D.start (a + k)

theorem within_periods {D : Dur} {a : ℤ} {l : List (ℚ × ℚ)} (hp : Periodic D a l) {n : ℕ} (hn : 1 ≤ n) {d : Iv}
    (hd : ∀ x, d.contains (.fin x) = true ↔ ∃ p q, (defined l)[n - 1]? = some p ∧
        (defined l)[(defined l).length - 1]? = some q ∧ p.1 ≤ x ∧ x ≤ q.1) (j : ℤ) :
    d.contains (.fin (D.start (a + j))) = true ↔ (n : ℤ) ≤ j + 1 ∧ j < l.length := by
  rw [hd]
  have hmono : ∀ i j : ℤ, D.start i ≤ D.start j ↔ i ≤ j := fun i j => D.mono.le_iff_le
  constructor
  · rintro ⟨p, q, h1, h2, h3, h4⟩
    simp only [defined, List.getElem?_map, List.length_map, Option.map_eq_some_iff] at h1 h2
    obtain ⟨p', e1, rfl⟩ := h1
    obtain ⟨q', e2, rfl⟩ := h2
    have f1 := hp _ _ e1
    have f2 := hp _ _ e2
    simp only [f1, f2, hmono] at h3 h4
    have := (List.getElem?_eq_some_iff.1 e1).1
    omega
  · rintro ⟨h1, h2⟩
    have hlt : n - 1 < l.length := by omega
    have hlt' : l.length - 1 < l.length := by omega
    refine ⟨_, _, by simp only [defined, List.getElem?_map, List.getElem?_eq_getElem hlt]; rfl,
      by simp only [defined, List.getElem?_map, List.length_map, List.getElem?_eq_getElem hlt']; rfl, ?_, ?_⟩
    · simp only [hp _ _ (List.getElem?_eq_getElem hlt), hmono]; omega
    · simp only [hp _ _ (List.getElem?_eq_getElem hlt'), hmono]; omega

theorem query_period (hm : minStepQ ≤ m) {n : ℕ} (hn : 1 ≤ n) {A : Accum} (h : Averaging (.degree n) m u A) {l : List (ℚ × ℚ)}
    (hl : A.src.points = defined l) {D : Dur} {a : ℤ} (hp : Periodic D a l) {j : ℤ} (hj : (n : ℤ) ≤ j + 1 ∧ j < l.length) (fuel : ℕ) :
    ∃ o, smaY (.degree n) (fuel + 1) A (.fin (D.start (a + j))) = some o ∧ Averaging (.degree n) m u o.st ∧
      o.st.src.points = defined l ∧ o.res = .ok (meanAt l n j) ∧ meanAt l n j = some (meanHeight (windowAt l n j.toNat)) := by
  have hlt : j.toNat < l.length := by omega
  have hg := List.getElem?_eq_getElem hlt
  obtain ⟨o, e1, e2, e3, e4⟩ := query_degree hm hn h (by rw [hl]) hg (by omega) fuel
  have hx := hp _ _ hg
  have hjj : ((j.toNat : ℕ) : ℤ) = j := by omega
  rw [hx, hjj] at e1
  have hm' : meanAt l n j = some (meanHeight (windowAt l n j.toNat)) := if_pos hj
  exact ⟨o, e1, e2, e3.trans hl, by rw [e4, hm'], hm'⟩

/-- C129: at the beginning of a period, whatever was asked and edited before: the mean that many quotes earlier. -/
theorem lagged_boundary (hm : minStepQ ≤ m) {n : ℕ} (hn : 1 ≤ n) {k : ℤ} {b : Avg} {l : List (ℚ × ℚ)}
    (ht : Tracks m u n l b) {D : Dur} {a : ℤ} (hp : Periodic D a l) (j : ℤ) (fuel : ℕ) :
    ∃ o, Lag.y D (fuel + 1) ⟨k, b⟩ (.fin (D.start (a + j + k))) = some o ∧ Tracks m u n l ⟨.degree n, o.st⟩ ∧ o.res = .ok (meanAt l n j) := by
  obtain ⟨hwin, h, hl⟩ := ht
  obtain ⟨B, d, b1, b2, b3, b4⟩ := touch_degree hm hn h
  rw [hl] at b3 b4
  have hw := within_periods hp hn b4 j
  unfold Lag.y
  simp only [hwin, shift_start, b1, show a + j + k + -k = a + j by ring, if_true]
  by_cases hj : (n : ℤ) ≤ j + 1 ∧ j < l.length
  · simp only [hw.2 hj, Bool.not_true, Bool.or_self, Bool.false_eq_true, if_false]
    obtain ⟨o, e1, e2, e3, e4, _⟩ := query_period hm hn b2 b3 hp hj fuel
    exact ⟨o, e1, ⟨rfl, e2, e3⟩, e4⟩
  · have : d.contains (.fin (D.start (a + j))) = false := by rw [← Bool.not_eq_true, hw]; exact hj
    simp only [this, Bool.not_false, Bool.or_self, if_true, answer]
    exact ⟨_, rfl, ⟨rfl, b2, b3⟩, by simp [meanAt, hj]⟩

/-- Both or nothing. -/
def between (s e x : ℚ) : Option ℚ → Option ℚ → Option ℚ
  | some v, some w => some (onSegment s e v w x)
  | _, _ => none

/-- C129: within a period: on the line between the means that many quotes earlier. -/
theorem lagged_between (hm : minStepQ ≤ m) {n : ℕ} (hn : 1 ≤ n) {k : ℤ} {b : Avg} {l : List (ℚ × ℚ)}
    (ht : Tracks m u n l b) {D : Dur} {a : ℤ} (hp : Periodic D a l) (hk : k ≠ 0) (j : ℤ) {x : ℚ}
    (h0 : D.start (a + j + k) < x) (h1 : x < D.start (a + j + k + 1)) (fuel : ℕ) :
    ∃ o, Lag.y D (fuel + 1) ⟨k, b⟩ (.fin x) = some o ∧ Tracks m u n l ⟨.degree n, o.st⟩ ∧
      o.res = .ok (between (D.start (a + j + k)) (D.start (a + j + k + 1)) x (meanAt l n j) (meanAt l n (j + 1))) := by
  obtain ⟨hwin, h, hl⟩ := ht
  obtain ⟨B, d, b1, b2, b3, b4⟩ := touch_degree hm hn h
  rw [hl] at b3 b4
  have hw := within_periods hp hn b4 j
  have hw' := within_periods hp hn b4 (j + 1)
  unfold Lag.y
  have hk' : -k ≠ 0 := neg_ne_zero.2 hk
  simp only [hwin, shift_floor D hk' h0 h1, shift_ceil D hk' h0 h1, b1, show a + j + k + -k = a + j by ring,
    show a + j + k + 1 + -k = a + (j + 1) by ring]
  have hne : (Ext.fin (D.start (a + j)) = Ext.fin (D.start (a + (j + 1)))) ↔ False := by
    simp only [Ext.fin.injEq, iff_false]
    exact (D.mono (by omega)).ne
  by_cases hj : (n : ℤ) ≤ j + 1 ∧ j < l.length
  · by_cases hj' : (n : ℤ) ≤ j + 1 + 1 ∧ j + 1 < l.length
    · simp only [hw.2 hj, hw'.2 hj', Bool.not_true, Bool.or_self, Bool.false_eq_true, if_false, hne]
      obtain ⟨o, e1, e2, e3, e4, e5⟩ := query_period hm hn b2 b3 hp hj fuel
      obtain ⟨o', f1, f2, f3, f4, f5⟩ := query_period hm hn e2 e3 hp hj' fuel
      simp only [e1, e4, f1, f4, answer]
      refine ⟨_, rfl, ⟨rfl, f2, f3⟩, ?_⟩
      have hlt := D.mono (show a + j + k < a + j + k + 1 by omega)
      have hz : ¬ D.start (a + j + k + 1) - D.start (a + j + k) = 0 := by linarith
      simp only [lagBetween, e5, f5, shift_start, show a + (j + 1) + k = a + j + k + 1 by ring, hz, if_false, between, onSegment]
      refine congrArg (fun z => Except.ok (some z)) ?_
      ring
    · have : d.contains (.fin (D.start (a + (j + 1)))) = false := by rw [← Bool.not_eq_true, hw']; exact hj'
      simp only [this, Bool.not_false, Bool.or_true, if_true, answer]
      exact ⟨_, rfl, ⟨rfl, b2, b3⟩, by cases hma : meanAt l n j <;> simp [meanAt, hj', between]⟩
  · have : d.contains (.fin (D.start (a + j))) = false := by rw [← Bool.not_eq_true, hw]; exact hj
    simp only [this, Bool.not_false, Bool.true_or, if_true, answer]
    exact ⟨_, rfl, ⟨rfl, b2, b3⟩, by simp [meanAt, hj, between]⟩

/-- A moved average, everywhere and after any history: at the beginning of period `a + j + k` the mean at quote `j`, straight lines
between. -/
def Moved (m : ℚ) (u : Bool) (n : ℕ) (k : ℤ) (D : Dur) (a : ℤ) (l : List (ℚ × ℚ)) (s : Lag) : Prop :=
  ∀ (b : Avg), Tracks m u n l b → ∀ (j : ℤ) (fuel : ℕ),
    (∃ o, Lag.y D (fuel + 1) { s with avg := b } (.fin (D.start (a + j + k))) = some o ∧ Tracks m u n l ⟨.degree n, o.st⟩ ∧
      o.res = .ok (meanAt l n j)) ∧
    ∀ x, D.start (a + j + k) < x → x < D.start (a + j + k + 1) → ∃ o, Lag.y D (fuel + 1) { s with avg := b } (.fin x) = some o ∧
      Tracks m u n l ⟨.degree n, o.st⟩ ∧
      o.res = .ok (between (D.start (a + j + k)) (D.start (a + j + k + 1)) x (meanAt l n j) (meanAt l n (j + 1)))

theorem moved (hm : minStepQ ≤ m) {n : ℕ} (hn : 1 ≤ n) {D : Dur} {a : ℤ} {l : List (ℚ × ℚ)} (hp : Periodic D a l) {s : Lag}
    (hk : s.k ≠ 0) : Moved m u n s.k D a l s := fun _ ht j fuel =>
  ⟨lagged_boundary hm hn ht hp j fuel, fun _ h0 h1 => lagged_between hm hn ht hp hk j h0 h1 fuel⟩

/-- C129: jaw, teeth and lips of quotes, one at the beginning of each period: means of 13, 8 and 5 midpoints moved by 8, 5 and 3
periods; after any history. -/
theorem C129_alligator (hm : minStepQ ≤ m) {q : Quotes} (h : QHonest q) {l : List (ℚ × Quote)}
    (hl : q.points.points = l.map fun p => (p.1, some p.2)) (hf : AllFit m u (defined (midpoints l))) {D : Dur} {a : ℤ}
    (hp : Periodic D a (midpoints l)) : ∃ s, q.alligator m u = .ok s ∧
      (Tracks m u 13 (midpoints l) s.1.avg ∧ Moved m u 13 8 D a (midpoints l) s.1) ∧
      (Tracks m u 8 (midpoints l) s.2.1.avg ∧ Moved m u 8 5 D a (midpoints l) s.2.1) ∧
      (Tracks m u 5 (midpoints l) s.2.2.avg ∧ Moved m u 5 3 D a (midpoints l) s.2.2) := by
  obtain ⟨x, hx, tx⟩ := middleSma_tracks h hl hf (n := 13) rfl
  obtain ⟨y, hy, ty⟩ := middleSma_tracks h hl hf (n := 8) rfl
  obtain ⟨z, hz, tz⟩ := middleSma_tracks h hl hf (n := 5) rfl
  refine ⟨(⟨8, x⟩, ⟨5, y⟩, ⟨3, z⟩), by simp only [Quotes.alligator, hx, hy, hz]; rfl, ⟨tx, ?_⟩, ⟨ty, ?_⟩, ⟨tz, ?_⟩⟩
  · exact moved hm (by norm_num) hp (s := ⟨8, x⟩) (by norm_num)
  · exact moved hm (by norm_num) hp (s := ⟨5, y⟩) (by norm_num)
  · exact moved hm (by norm_num) hp (s := ⟨3, z⟩) (by norm_num)

/-! ## Concrete cases -/

/-- 36 points, one at each second. -/
def squares : List (ℚ × ℚ) := (List.range 36).map fun i : ℕ => ((i : ℚ), (i : ℚ) ^ 2)

theorem squares_asc : Ascending (defined squares) := by
  unfold Ascending
  decide +kernel

theorem squares_gapped : Gapped 1 (defined squares) := by
  unfold Gapped
  decide +kernel

theorem squares_spaced : EquallySpaced (defined squares) := by
  refine ⟨1, ?_⟩
  decide +kernel

theorem squares_points : (loose (defined squares)).points = defined squares := by decide +kernel

theorem squares_averaging {w : Window} (hw : w.valid = true) : Averaging w 1 true (smaOver (defined squares) 1) :=
  smaOver_averaging hw squares_asc squares_spaced (by decide +kernel) squares_points squares_gapped

/-- The mean of the last `n` of the first `k + 1` values. -/
def plainMean (l : List (ℚ × ℚ)) (n k : ℕ) : ℚ := ((windowAt l n k).map Prod.snd).sum / n

theorem squares_tracks {n : ℕ} (hn : (Window.degree n).valid = true) :
    Tracks 1 true n squares ⟨.degree n, smaOver (defined squares) 1⟩ := ⟨rfl, squares_averaging hn, squares_points⟩

/-- Averages of 36 points. -/
def squaresAo : Avg × Avg := (⟨.degree 5, smaOver (defined squares) 1⟩, ⟨.degree 34, smaOver (defined squares) 1⟩)

/-- C128: `None` at the 33rd of 36 points, and a value at the 34th. -/
example : Tracks 1 true 5 squares squaresAo.1 ∧ Tracks 1 true 34 squares squaresAo.2 ∧ squares[32]? = some (32, 1024) ∧
    (difference 1 squaresAo (.fin 32)).map Prod.snd = some (.ok none) ∧ squares[33]? = some (33, 1089) ∧
    (difference 1 squaresAo (.fin 33)).map Prod.snd = some (.ok (some (1798 / 3))) := by
  refine ⟨squares_tracks rfl, squares_tracks rfl, ?_, ?_, ?_, ?_⟩ <;> decide +kernel

/-- C128 does not hold: the oscillator is not the difference of the plain means of the last five and the last 34 midpoints. -/
theorem C128_negation : ∃ s : Avg × Avg, Tracks 1 true 5 squares s.1 ∧ Tracks 1 true 34 squares s.2 ∧
    squares[33]? = some (33, 1089) ∧
    (difference 1 s (.fin 33)).map Prod.snd ≠ some (.ok (some (plainMean squares 5 33 - plainMean squares 34 33))) := by
  refine ⟨squaresAo, squares_tracks rfl, squares_tracks rfl, ?_, ?_⟩ <;> decide +kernel

/-- C128, C129: of quotes that were set. -/
example : (∃ s, twoQuotes.ao 1 true = .ok s ∧ s.1.acc.src.points = defined [(0, 5 / 2), (60, 9 / 2)]) ∧
    ∃ s, twoQuotes.alligator 1 true = .ok s ∧ s.1.avg.w = .degree 13 ∧ s.1.k = 8 := by
  have hp : twoQuotes.points.points = ([(0, [2, 4, 1, 3]), (60, [3, 6, 3, 5, 100])] : List (ℚ × Quote)).map fun p => (p.1, some p.2) := by
    decide +kernel
  obtain ⟨s, h1, h2, _⟩ := C128_made (m := 1) (u := true) twoQuotes_honest hp
    (allFit_of_spaced (by norm_num [Gapped, defined, midpoints]) ⟨60, by norm_num [defined, midpoints]⟩)
  refine ⟨⟨s, h1, h2.points.trans ?_⟩, ?_⟩
  · norm_num [defined, midpoints]
  · exact ⟨_, rfl, rfl, rfl⟩

example : twoQuotes.hl2 (.fin 30) = .ok (some (5 / 2)) ∧ twoQuotes.hl2 (.fin 60) = .ok (some (9 / 2)) := by
  constructor <;> decide +kernel

theorem squares_periodic : Periodic unitDur 0 squares := by
  intro k q hk
  simp only [squares, List.getElem?_map, Option.map_eq_some_iff] at hk
  obtain ⟨i, hi, rfl⟩ := hk
  obtain ⟨h1, h2⟩ := List.getElem?_eq_some_iff.1 hi
  simp at h2
  subst h2
  simp [unitDur]

/-- A jaw over 36 points. -/
def squaresJaw : Lag := ⟨8, ⟨.degree 13, smaOver (defined squares) 1⟩⟩

/-- C129: the jaw at the 21st point is the mean of the first 13, half a period later halfway to the next one; none earlier, and
none more than eight periods after the last one. -/
example : (∃ o, squaresJaw.y unitDur 1 (.fin 20) = some o ∧ o.res = .ok (some (289 / 6))) ∧
    (∃ o, squaresJaw.y unitDur 1 (.fin (41 / 2)) = some o ∧ o.res = .ok (some (164 / 3))) ∧
    (∃ o, squaresJaw.y unitDur 1 (.fin 19) = some o ∧ o.res = .ok none) ∧
    ∃ o, squaresJaw.y unitDur 1 (.fin 44) = some o ∧ o.res = .ok none := by
  have key := moved (m := 1) (u := true) (n := 13) (by norm_num [minStepQ]) (by norm_num) squares_periodic (s := squaresJaw)
    (by norm_num [squaresJaw]) _ (squares_tracks rfl)
  refine ⟨?_, ?_, ?_, ?_⟩
  · obtain ⟨o, h1, _, h2⟩ := (key 12 0).1
    have e : unitDur.start (0 + 12 + squaresJaw.k) = 20 := by norm_num [unitDur, squaresJaw]
    rw [e] at h1
    exact ⟨o, h1, h2.trans (by decide +kernel)⟩
  · obtain ⟨o, h1, _, h2⟩ := (key 12 0).2 (41 / 2) (by norm_num [unitDur, squaresJaw]) (by norm_num [unitDur, squaresJaw])
    refine ⟨o, h1, h2.trans ?_⟩
    have e1 : meanAt squares 13 12 = some (289 / 6) := by decide +kernel
    have e2 : meanAt squares 13 (12 + 1) = some (367 / 6) := by decide +kernel
    rw [e1, e2]
    norm_num [between, onSegment, unitDur, squaresJaw]
  · obtain ⟨o, h1, _, h2⟩ := (key 11 0).1
    have e : unitDur.start (0 + 11 + squaresJaw.k) = 19 := by norm_num [unitDur, squaresJaw]
    rw [e] at h1
    exact ⟨o, h1, h2.trans (by decide +kernel)⟩
  · obtain ⟨o, h1, _, h2⟩ := (key 36 0).1
    have e : unitDur.start (0 + 36 + squaresJaw.k) = 44 := by norm_num [unitDur, squaresJaw]
    rw [e] at h1
    exact ⟨o, h1, h2.trans (by decide +kernel)⟩

end Props
end Curvepy
