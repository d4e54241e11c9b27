import Verif.Props.TrendLinesGrown

/-!
# Lines without a tolerance stay where they are

Used for `C74`: once a line is valid, every later line between two points which it goes through is a copy of it.
-/

namespace Curvepy
namespace Props
open Spec Trend

/-! ## Insertion into lists that need not be sorted -/

theorem bisect_neighbours (a : List XY) (x : ℚ) : ∀ (lo hi i : ℕ), lo ≤ hi → hi ≤ a.length →
    bisectLoop a x lo hi = .ok i → lo ≤ i ∧ i ≤ hi ∧ (i = lo ∨ ∀ q, a[i - 1]? = some q → q.1 < x) ∧
      (i = hi ∨ ∀ q, a[i]? = some q → x ≤ q.1) := by
  intro lo hi
  induction lo, hi using bisectLoop.induct a x with
  | case1 lo hi h hn =>
    intro i _ h2
    have : (lo + hi) / 2 < a.length := by omega
    simp [List.getElem?_eq_getElem this] at hn
  | case2 lo hi h q hq hlt ih =>
    intro i h1 h2 e
    rw [bisectLoop, dif_pos h] at e
    simp only [hq, if_pos hlt] at e
    obtain ⟨a1, a2, a3, a4⟩ := ih i (by omega) h2 e
    refine ⟨by omega, a2, .inr ?_, a4⟩
    rcases a3 with rfl | a3
    · intro q' hq'
      rw [Nat.add_sub_cancel, hq] at hq'
      rw [← Option.some.inj hq']; exact hlt
    · exact a3
  | case3 lo hi h q hq hlt ih =>
    intro i h1 h2 e
    rw [bisectLoop, dif_pos h] at e
    simp only [hq, if_neg hlt] at e
    obtain ⟨a1, a2, a3, a4⟩ := ih i (by omega) (by omega) e
    refine ⟨a1, by omega, a3, .inr ?_⟩
    rcases a4 with rfl | a4
    · intro q' hq'
      rw [hq] at hq'
      rw [← Option.some.inj hq']; exact not_lt.1 hlt
    · exact a4
  | case4 lo hi h =>
    intro i h1 h2 e
    rw [bisectLoop, dif_neg h] at e
    have : lo = i := by simpa using e
    subst this
    exact ⟨le_refl _, h1, .inl rfl, .inl (by omega)⟩

/-- A point is inserted between two neighbours which it lies between. -/
theorem insort_between {a b : List XY} {p : XY} {nr : Bool} (h : insort a p (noRepeat := nr) = .ok b) :
    b = a ∨ ∃ c d, a = c ++ d ∧ b = c ++ p :: d ∧ (∀ q, c.getLast? = some q → q.1 < p.1) ∧
      ∀ q, d.head? = some q → p.1 ≤ q.1 := by
  unfold insort at h
  rw [if_neg (by simp)] at h
  obtain ⟨i, e, h⟩ := bind_inv h
  obtain ⟨-, a2, a3, a4⟩ := bisect_neighbours a p.1 0 a.length i (by omega) (le_refl _) (by simpa using e)
  split_ifs at h
  · exact .inl (pure_inv h).symm
  · right
    rw [← pure_inv h, min_eq_left a2]
    refine ⟨a.take i, a.drop i, (List.take_append_drop i a).symm, ?_, ?_, ?_⟩
    · exact insertIdx_take_drop p a i a2
    · intro q hq
      rcases a3 with rfl | a3
      · simp at hq
      · refine a3 q ?_
        rw [List.getLast?_eq_getElem?, List.length_take, min_eq_left a2] at hq
        by_cases hi : i = 0
        · subst hi; simp at hq
        · rwa [List.getElem?_take_of_lt (by omega)] at hq
    · intro q hq
      rcases a4 with rfl | a4
      · simp at hq
      · exact a4 q (by rwa [List.head?_drop] at hq)

/-! ## Distances -/

theorem spaced_cons (d : ℚ) (p q : XY) (rest : List XY) :
    spaced d (p :: q :: rest) = spaced d (q :: rest) + if d ≤ q.1 - p.1 then 1 else 0 := by
  unfold spaced
  simp only [List.tail_cons, List.zip_cons_cons, List.countP_cons, decide_eq_true_eq]

theorem spaced_insert {p : XY} : ∀ (c d : List XY), (∀ q, c.getLast? = some q → q.1 < p.1) →
    (∀ q, d.head? = some q → p.1 ≤ q.1) → spaced 0 (c ++ d) ≤ spaced 0 (c ++ p :: d)
  | [], [], _, _ => by simp [spaced]
  | [], q :: d, _, h => by
    rw [List.nil_append, List.nil_append, spaced_cons]
    omega
  | [q], [], _, _ => by simp [spaced]
  | [q], r :: d, h, h' => by
    have h1 := h q rfl
    have h2 := h' r rfl
    rw [List.singleton_append, List.singleton_append, spaced_cons, spaced_cons, spaced_cons, if_pos (by linarith),
      if_pos (by linarith), if_pos (by linarith)]
    omega
  | q :: r :: c, d, h, h' => by
    rw [List.cons_append, List.cons_append, List.cons_append, List.cons_append, spaced_cons, spaced_cons]
    have := spaced_insert (r :: c) d (fun q hq => h q (by rw [List.getLast?_cons_cons]; exact hq)) h'
    simp only [List.cons_append] at this
    omega

theorem extent_insert {p : XY} {c d : List XY} (h2 : 2 ≤ (c ++ d).length)
    (h : ∀ q, c.getLast? = some q → q.1 < p.1) (h' : ∀ q, d.head? = some q → p.1 ≤ q.1) :
    ∃ a b a' b', (c ++ d).head? = some a ∧ (c ++ d).getLast? = some b ∧ (c ++ p :: d).head? = some a' ∧
      (c ++ p :: d).getLast? = some b' ∧ a'.1 ≤ a.1 ∧ b.1 ≤ b'.1 := by
  cases c with
  | nil =>
    cases d with
    | nil => simp at h2
    | cons r d =>
      refine ⟨r, (r :: d).getLast (by simp), p, (r :: d).getLast (by simp), rfl, ?_, rfl, ?_, h' r rfl, le_refl _⟩
      · rw [List.nil_append, List.getLast?_eq_some_getLast]
      · rw [List.nil_append, List.getLast?_cons_cons, List.getLast?_eq_some_getLast]
  | cons q c =>
    cases d with
    | nil =>
      refine ⟨q, (q :: c).getLast (by simp), q, p, rfl, ?_, rfl, ?_, le_refl _, ?_⟩
      · rw [List.append_nil, List.getLast?_eq_some_getLast]
      · rw [List.getLast?_append]; rfl
      · exact (h _ (List.getLast?_eq_some_getLast (by simp))).le
    | cons r d =>
      refine ⟨q, (r :: d).getLast (by simp), q, (r :: d).getLast (by simp), rfl, ?_, rfl, ?_, le_refl _, le_refl _⟩
      · rw [List.getLast?_append, List.getLast?_eq_some_getLast (by simp)]; rfl
      · rw [List.getLast?_append, List.getLast?_cons_cons, List.getLast?_eq_some_getLast (by simp)]; rfl

theorem valid_iff (t : TLine) : t.isValid = true ↔ t.line ≠ none ∧ t.minWidth ≤ extent t.trend ∧
    t.minPoints ≤ t.trend.length ∧ t.minPoints ≤ 1 + spaced t.minDist t.trend := by
  unfold TLine.isValid TLine.isReady
  rw [extent_width]
  have h1 := distance_spaced t.minDist t.minPoints t.trend 1
  cases hl : t.line with
  | none => simp
  | some l =>
    simp only [Option.isSome_some, Bool.not_true, Bool.false_or, Bool.or_eq_true, decide_eq_true_eq, ne_eq,
      reduceCtorEq, not_false_eq_true, true_and]
    by_cases h2 : t.width < t.minWidth ∨ t.trend.length < t.minPoints
    · rw [if_pos h2]
      simp only [Bool.false_eq_true, false_iff]
      rintro ⟨a, b, -⟩
      rcases h2 with h2 | h2
      · linarith
      · omega
    · rw [if_neg h2]
      push Not at h2
      by_cases h3 : 1 + spaced t.minDist t.trend < t.minPoints
      · rw [if_pos (h1.2 h3)]
        simp only [Bool.false_eq_true, false_iff]
        rintro ⟨-, -, c⟩
        omega
      · rw [if_neg (mt h1.1 h3)]
        exact ⟨fun _ => ⟨h2.1, h2.2, by omega⟩, fun _ => rfl⟩

/-! ## Lines without a tolerance -/

/-- A line without a tolerance whose search reaches over all of it, as made by a trend. -/
structure Precise (t : TLine) : Prop where
  grown : Grown t
  sharp : Sharp t
  wide : 0 < t.minWidth
  near : t.minDist = 0
  reach : t.searchRel ≤ 0 ∨ 1 < t.searchRel

theorem Precise.append {t u : TLine} {p : XY} {us : List XY} {b : Bool} (h : Precise t)
    (e : t.didAppend p us = .ok (u, b)) : Precise u := by
  have k := same_append e
  exact ⟨h.grown.append e, ⟨k.rel.trans h.sharp.rel, k.tol.trans h.sharp.abs⟩, by rw [k.width]; exact h.wide,
    k.dist.trans h.near, by rw [k.search]; exact h.reach⟩

/-- The line is valid, goes straight through its trend points and through the two points, which are not beyond its
ends. -/
structure Covers (t : TLine) (a b : XY) : Prop where
  valid : t.isValid = true
  straight : ∃ m c : ℚ, (∀ p ∈ t.trend, p.2 = m * p.1 + c) ∧ a.2 = m * a.1 + c ∧ b.2 = m * b.1 + c
  order : a.1 ≤ b.1
  ends : ∀ l, t.line = some l → l.1.1 ≤ a.1 ∧ b.1 ≤ l.2.1

theorem sharp_tol {t : TLine} (h : Sharp t) (y : ℚ) : t.tolMin y = y ∧ t.tolMax y = y := by
  unfold TLine.tolMin TLine.tolMax
  rw [h.rel, h.abs]
  simp

/-- A precise line with enough points searches all of it, and finds exactly the points on it. -/
theorem precise_on {t : TLine} (h : Precise t) {l : Chord} (hl : t.line = some l) (hn : t.minPoints ≤ t.trend.length)
    {x : ℚ} (h1 : l.1.1 ≤ x) (h2 : x ≤ l.2.1) : t.search.contains (.fin x) = true := by
  have hk := grown_kept h.grown h.wide
  have hasc := hk.asc l hl
  rw [C84_search h.grown h.wide]
  unfold searchOf
  rw [hl]
  simp only [if_neg hasc.ne]
  have far : ∀ (hr : 1 < t.searchRel), x < l.1.1 + t.searchRel * (l.2.1 - l.1.1) := by
    intro hr
    have := mul_lt_mul_of_pos_right hr (sub_pos.2 hasc)
    linarith
  have key : ∀ (hr : 1 < t.searchRel),
      (Iv.closedOpen l.1.1 (l.1.1 + t.searchRel * (l.2.1 - l.1.1))).contains (.fin x) = true := by
    intro hr
    rw [Iv.contains_closedOpen]
    simp [h1, far hr]
  rcases h.reach with hr | hr
  · rw [if_pos hr, Iv.contains_closed]
    simp [h1, h2]
  · rw [if_neg (by linarith)]
    split
    · rw [if_neg (by omega)]; exact key hr
    · exact key hr

theorem precise_tol {t : TLine} (h : Precise t) {l : Chord} (hl : t.line = some l) :
    t.tolUpper = some l ∧ t.tolLower = some l := by
  have hk := grown_kept h.grown h.wide
  have h2 := hk.two (by rw [hl]; rfl)
  have e : ∀ b, t.tolLine b = .ok (some l) := by
    intro b
    unfold TLine.tolLine
    rw [if_neg (by omega), hl]
    simp only [need, (sharp_tol h.sharp _).1, (sharp_tol h.sharp _).2]
    cases b <;> rfl
  have e1 := hk.up
  have e2 := hk.lo
  rw [e] at e1 e2
  exact ⟨(Except.ok.inj e1).symm, (Except.ok.inj e2).symm⟩

theorem precise_onTrend {t : TLine} (h : Precise t) {l : Chord} (hl : t.line = some l) {m c : ℚ}
    (hs : ∀ p ∈ t.trend, p.2 = m * p.1 + c) {p : XY} (hp : t.search.contains (.fin p.1) = true) :
    t.onTrend p = .ok (decide (p.2 = m * p.1 + c)) := by
  have hf := grown_fit h.grown
  rw [hl] at hf
  obtain ⟨f1, f2⟩ := fit_on hs hf
  have hasc := (grown_kept h.grown h.wide).asc l hl
  obtain ⟨t1, t2⟩ := precise_tol h hl
  unfold TLine.onTrend
  rw [hl, hp, t1, t2]
  have hy := lineY_through hasc f1 f2 p.1
  simp only [Option.isNone_some, Bool.not_true, Bool.or_self, Bool.false_eq_true, if_false, need, bind, Except.bind, hy]
  change (if p.2 ≥ m * p.1 + c then Except.ok (decide (p.2 ≤ m * p.1 + c)) else Except.ok false) = _
  split_ifs with h1
  · congr 1
    exact decide_eq_decide.2 ⟨fun h2 => le_antisymm h2 h1, fun h2 => h2.le⟩
  · congr 1
    exact (decide_eq_false fun h2 => h1 h2.ge).symm

theorem Covers.line {t : TLine} {a b : XY} (h : Covers t a b) : ∃ l, t.line = some l :=
  Option.isSome_iff_exists.1 (valid_ready h.valid)

/-- What is covered is searched and found to be on the line. -/
theorem covers_on {t : TLine} {a b : XY} (hx : Precise t) (h : Covers t a b) :
    t.search.contains (.fin a.1) = true ∧ t.onTrend a = .ok true ∧ t.onTrend b = .ok true := by
  obtain ⟨l, hl⟩ := h.line
  obtain ⟨m, c, h1, h2, h3⟩ := h.straight
  obtain ⟨e1, e2⟩ := h.ends l hl
  have hn := ((valid_iff t).1 h.valid).2.2.1
  have ha := precise_on hx hl hn e1 (h.order.trans e2)
  have hb := precise_on hx hl hn (e1.trans h.order) e2
  refine ⟨ha, ?_, ?_⟩
  · rw [precise_onTrend hx hl h1 ha, decide_eq_true h2]
  · rw [precise_onTrend hx hl h1 hb, decide_eq_true h3]

/-- Appending a point does not change what is covered. -/
theorem covers_append {t u : TLine} {a b p : XY} {us : List XY} {c : Bool} (hx : Precise t) (h : Covers t a b)
    (e : t.didAppend p us = .ok (u, c)) : Covers u a b := by
  obtain ⟨l, hl⟩ := h.line
  obtain ⟨m, k, h1, h2, h3⟩ := h.straight
  have hk := grown_kept hx.grown hx.wide
  have h2l := hk.two (by rw [hl]; rfl)
  rcases append_cases e with rfl | ⟨bs, ts, -, hts, e1⟩ | ⟨-, -, v, d, e1, e2⟩
  · exact h
  · obtain ⟨v1, v2, v3, v4⟩ := (valid_iff t).1 h.valid
    obtain ⟨w1, w2⟩ := h.ends l hl
    have hf := grown_fit hx.grown
    rw [hl] at hf
    -- the new trend points
    have key : (∀ q ∈ ts, q.2 = m * q.1 + k) ∧ t.trend.length ≤ ts.length ∧
        spaced 0 t.trend ≤ spaced 0 ts ∧ ∃ x y x' y', t.trend.head? = some x ∧ t.trend.getLast? = some y ∧
          ts.head? = some x' ∧ ts.getLast? = some y' ∧ x'.1 ≤ x.1 ∧ y.1 ≤ y'.1 := by
      have same : ∃ x y x' y', t.trend.head? = some x ∧ t.trend.getLast? = some y ∧
          t.trend.head? = some x' ∧ t.trend.getLast? = some y' ∧ x'.1 ≤ x.1 ∧ y.1 ≤ y'.1 := by
        obtain ⟨x, xs, hxs⟩ := List.exists_cons_of_length_pos (l := t.trend) (by omega)
        exact ⟨x, (x :: xs).getLast (by simp), x, (x :: xs).getLast (by simp), by rw [hxs]; rfl,
          by rw [hxs, List.getLast?_eq_some_getLast], by rw [hxs]; rfl,
          by rw [hxs, List.getLast?_eq_some_getLast], le_refl _, le_refl _⟩
      rcases hts with rfl | ⟨-, hon, hin⟩
      · exact ⟨h1, le_refl _, le_refl _, same⟩
      · rcases insort_between hin with rfl | ⟨c, d, hc, rfl, g1, g2⟩
        · exact ⟨h1, le_refl _, le_refl _, same⟩
        · have hsearch : t.search.contains (.fin p.1) = true := by
            by_contra hno
            unfold TLine.onTrend at hon
            rw [Bool.not_eq_true] at hno
            simp [hno] at hon
          rw [precise_onTrend hx hl h1 hsearch] at hon
          have hp : p.2 = m * p.1 + k := by simpa using hon
          rw [hc] at h1 h2l ⊢
          refine ⟨?_, by simp, spaced_insert c d g1 g2, extent_insert h2l g1 g2⟩
          intro q hq
          simp only [List.mem_append, List.mem_cons] at hq
          rcases hq with hq | rfl | hq
          · exact h1 q (List.mem_append_left _ hq)
          · exact hp
          · exact h1 q (List.mem_append_right _ hq)
    obtain ⟨k1, k2, k3, x, y, x', y', k4, k5, k6, k7, k8, k9⟩ := key
    have ext : extent t.trend ≤ extent ts := by
      unfold extent
      rw [k4, k5, k6, k7]
      simp only
      linarith
    rw [hx.near] at v4
    have hval : TLine.isValid { t with boundary := bs, trend := ts } = true := by
      rw [valid_iff]
      refine ⟨v1, v2.trans ext, v3.trans k2, ?_⟩
      simp only [hx.near]
      omega
    obtain ⟨v, l', up, lo, i, a', e', s, d, f1, f2, -, -, rfl⟩ := TLine.updateTrend_eq e1
    unfold TLine.renew at f1
    rw [hval] at f1
    simp only [Bool.not_true, Bool.false_eq_true, if_false, Except.ok.injEq] at f1
    subst f1
    simp only at f2
    have hl' : ∃ l1, l' = some l1 := by
      obtain ⟨x, xs, hxs⟩ := List.exists_cons_of_length_pos (l := ts) (by omega)
      obtain ⟨z, zs, hzs⟩ := List.exists_cons_of_length_pos (l := xs) (by rw [hxs] at k2; simp at k2; omega)
      rw [hxs, hzs] at f2
      cases zs with
      | nil =>
        simp only [lineFit, Except.ok.injEq] at f2
        exact ⟨_, f2.symm⟩
      | cons w ws =>
        simp only [lineFit] at f2
        obtain ⟨r, -, f2⟩ := bind_inv f2
        exact ⟨_, (pure_inv f2).symm⟩
    obtain ⟨l1, rfl⟩ := hl'
    have hends : ∀ {ps : List XY} {l : Chord} {x y : XY}, lineFit ps = .ok (some l) → ps.head? = some x →
        ps.getLast? = some y → l.1.1 = x.1 ∧ l.2.1 = y.1 := by
      intro ps l x y hfit hx hy
      obtain ⟨p, q, rest, hp, q1, q2⟩ := lineFit_ends hfit
      rw [hp] at hx hy
      rw [List.getLast?_cons_cons, List.getLast?_eq_some_getLast (by simp)] at hy
      rw [q1, q2, Option.some.inj hy, ← Option.some.inj hx]
      exact ⟨rfl, rfl⟩
    obtain ⟨o1, o2⟩ := hends hf k4 k5
    obtain ⟨o3, o4⟩ := hends f2 k6 k7
    refine ⟨?_, ⟨m, k, k1, h2, h3⟩, h.order, ?_⟩
    · rw [valid_iff]
      refine ⟨by simp, v2.trans ext, v3.trans k2, ?_⟩
      simp only [hx.near]
      omega
    · intro l2 hl2
      simp only [Option.some.injEq] at hl2
      subst hl2
      constructor <;> linarith
  · obtain ⟨i, a', e', s, r1⟩ := TLine.updatePoi_eq e1
    obtain ⟨d', r2⟩ := TLine.updatePrediction_eq e2
    rw [r2, r1]
    refine ⟨?_, ⟨m, k, h1, h2, h3⟩, h.order, h.ends⟩
    rw [← h.valid]
    exact valid_same rfl rfl rfl rfl rfl

/-! ## Lines that have just become valid -/

/-- The trend points chosen without a tolerance are on a straight line. -/
theorem setTrend_straight {t u : TLine} (ht : Sharp t) (hb : StrictX t.boundary) (h : t.setTrend = .ok u) :
    u.trend.length ≤ 1 ∨ ∃ m c : ℚ, ∀ p ∈ u.trend, p.2 = m * p.1 + c := by
  have h0 := h
  unfold TLine.setTrend at h
  obtain ⟨s, h1, h⟩ := bind_inv h
  obtain ⟨fin, h2, h⟩ := bind_inv h
  obtain ⟨ts, h3, h⟩ := bind_inv h
  have := (pure_inv h).symm
  subst this
  match fin, h3 with
  | [], h3 =>
    simp only [TLine.addCoincident, Except.ok.injEq] at h3; subst h3
    exact .inl (by simp)
  | [p], h3 =>
    simp only [TLine.addCoincident, Except.ok.injEq] at h3; subst h3
    exact .inl (by simp)
  | _ :: _ :: _ :: _, h3 => simp [TLine.addCoincident] at h3
  | [p, q], h3 =>
    simp only [TLine.addCoincident, Except.ok.injEq] at h3
    right
    obtain ⟨bs, ts', e1, -, -, e2⟩ := TLine.setTrend_eq h0
    have e1' : ts = ts' := congrArg TLine.trend e1
    subst e1'
    have hpq : p.1 < q.1 := by
      rcases e2 with e2 | ⟨p', co, q', e2, hsub⟩
      · rw [← h3] at e2; simp at e2
      · rw [← h3] at e2
        have hp : p = p' := by
          simp only [List.cons_append, List.cons.injEq] at e2; exact e2.1
        have hq : q = q' := by
          have := congrArg List.getLast? e2
          simp only [List.getLast?_append] at this
          simpa using this
        rw [hp, hq]
        have := hb.sublist hsub
        simpa using this
    refine ⟨slope p q, p.2 - slope p q * p.1, ?_⟩
    intro e he
    rw [← h3] at he
    simp only [List.cons_append, List.mem_cons, List.mem_append, List.mem_filter, List.not_mem_nil,
      or_false] at he
    have key : e.2 = at_ p q e.1 := by
      rcases he with rfl | he | rfl
      · simp [at_]
      · have := he.2
        rw [on_iff ht hpq] at this
        simpa using this
      · exact (at_right hpq).symm
    rw [key]; unfold at_; ring

/-- A line that becomes valid covers its ends; these are points of its boundary, or the new point. -/
theorem covers_new {t u : TLine} {p : XY} {us : List XY} {c : Bool} (hx : Precise t) (hv : t.isValid = false)
    (e : t.didAppend p us = .ok (u, c)) (hu : u.isValid = true) :
    ∃ l, u.line = some l ∧ Covers u l.1 l.2 ∧ u.trend.head? = some l.1 ∧ u.trend.getLast? = some l.2 ∧
      (l.1 = p ∨ l.1 ∈ t.boundary) ∧ (l.2 = p ∨ l.2 ∈ t.boundary) := by
  have hxu := hx.append e
  obtain ⟨l, hl⟩ := Option.isSome_iff_exists.1 (valid_ready hu)
  have hk := grown_kept hxu.grown hxu.wide
  have hlen := hk.two (by rw [hl]; rfl)
  rcases append_cases e with rfl | ⟨bs, ts, hbs, hts, e1⟩ | ⟨hv', -⟩
  · rw [hv] at hu; cases hu
  · have hbs' := insort_strict (grown_kept hx.grown hx.wide).strict hbs
    have hmem := (insort_mem hbs).2
    have hts' : ts = t.trend := by
      rcases hts with h | h
      · exact h
      · rw [hv] at h; cases h.1
    subst hts'
    have hval : TLine.isValid { t with boundary := bs } = false := by
      rw [← hv]; exact valid_same rfl rfl rfl rfl rfl
    obtain ⟨v, l', up, lo, i, a', e', s, d, f1, f2, -, -, rfl⟩ := TLine.updateTrend_eq e1
    unfold TLine.renew at f1
    rw [hval] at f1
    simp only [Bool.not_false, if_true] at f1
    simp only at hl f2 hlen
    subst hl
    have hst : ∃ m c : ℚ, ∀ p ∈ v.trend, p.2 = m * p.1 + c := by
      rcases setTrend_straight (t := { t with boundary := bs }) ⟨hx.sharp.rel, hx.sharp.abs⟩ hbs' f1 with h | h
      · omega
      · exact h
    obtain ⟨bs2, ts', e2, -, hin, -⟩ := TLine.setTrend_eq f1
    have hin' : ∀ q ∈ v.trend, q = p ∨ q ∈ t.boundary := by
      intro q hq
      rw [e2] at hq
      exact hmem q (hin q hq)
    obtain ⟨m, k, hmk⟩ := hst
    obtain ⟨g1, g2⟩ := fit_on hmk f2
    obtain ⟨p0, q0, rest, hp0, e3, e4⟩ := lineFit_ends f2
    have hasc := hk.asc l rfl
    have m1 : p0 ∈ v.trend := by rw [hp0]; simp
    have m2 : (q0 :: rest).getLast (by simp) ∈ v.trend := by
      rw [hp0]; exact List.mem_cons_of_mem _ (List.getLast_mem _)
    have i1 : p0 = l.1 := Prod.ext e3.symm (by rw [hmk p0 m1, g1, e3])
    have i2 : (q0 :: rest).getLast (by simp) = l.2 := Prod.ext e4.symm (by rw [hmk _ m2, g2, e4])
    refine ⟨l, rfl, ⟨hu, ⟨m, k, hmk, g1, g2⟩, hasc.le, ?_⟩, ?_, ?_, ?_, ?_⟩
    · intro l2 hl2
      simp only [Option.some.injEq] at hl2
      subst hl2
      exact ⟨le_refl _, le_refl _⟩
    · simp only [hp0, List.head?_cons, i1]
    · simp only [hp0, List.getLast?_cons_cons]
      rw [List.getLast?_eq_some_getLast (by simp), i2]
    · rw [← i1]; exact hin' _ m1
    · rw [← i2]; exact hin' _ m2
  · rw [hv] at hv'; cases hv'

end Props
end Curvepy
