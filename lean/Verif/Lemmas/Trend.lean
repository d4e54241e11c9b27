import Verif.Spec.Trend

/-!
# What the functions of a trend line leave alone
-/

namespace Curvepy
namespace Trend

theorem bind_inv {α β : Type} {x : Except Err α} {f : α → Except Err β} {b : β}
    (h : (x >>= f) = .ok b) : ∃ a, x = .ok a ∧ f a = .ok b := by
  cases x with
  | error e => simp [bind, Except.bind] at h
  | ok a => exact ⟨a, rfl, h⟩

theorem pure_inv {α : Type} {a b : α} (h : (pure a : Except Err α) = .ok b) : a = b := by
  simpa [pure, Except.pure] using h

end Trend

open Trend

namespace TLine

/-- Same parameters. -/
structure Same (t u : TLine) : Prop where
  width : u.minWidth = t.minWidth
  upper : u.upper = t.upper
  points : u.minPoints = t.minPoints
  dist : u.minDist = t.minDist
  search : u.searchRel = t.searchRel
  rel : u.yRel = t.yRel
  tol : u.yAbs = t.yAbs
  gold : u.gold = t.gold

theorem Same.refl (t : TLine) : Same t t := ⟨rfl, rfl, rfl, rfl, rfl, rfl, rfl, rfl⟩

theorem Same.trans {t u v : TLine} (h : Same t u) (k : Same u v) : Same t v :=
  ⟨k.width.trans h.width, k.upper.trans h.upper, k.points.trans h.points, k.dist.trans h.dist,
    k.search.trans h.search, k.rel.trans h.rel, k.tol.trans h.tol, k.gold.trans h.gold⟩

theorem updateInterval_eq (t : TLine) : ∃ s, t.updateInterval = { t with search := s } := by
  unfold updateInterval
  split
  · split <;> exact ⟨_, rfl⟩
  · split_ifs <;> exact ⟨_, rfl⟩

theorem updatePoi_eq {t u : TLine} {ps : List XY} {b : Bool} (h : t.updatePoi ps = .ok (u, b)) :
    ∃ i a e s, u = { t with intersections := i, tangents := a, extremas := e, search := s } := by
  unfold updatePoi at h
  split_ifs at h with h1
  · simp only [Except.ok.injEq, Prod.mk.injEq] at h
    exact ⟨_, _, _, _, h.1.symm⟩
  · obtain ⟨s, -, h⟩ := bind_inv h
    obtain ⟨s', -, h⟩ := bind_inv h
    have h := pure_inv h
    unfold poiEnd at h
    simp only at h
    split_ifs at h
    · simp only [Prod.mk.injEq] at h
      obtain ⟨h, -⟩ := h
      rw [← h]
      obtain ⟨v, hv⟩ := updateInterval_eq _
      exact ⟨_, _, _, v, hv⟩
    · simp only [Prod.mk.injEq] at h
      exact ⟨_, _, _, _, h.1.symm⟩

theorem updatePrediction_eq {t u : TLine} {ps : List XY} (h : t.updatePrediction ps = .ok u) :
    ∃ d, u = { t with pred := d } := by
  unfold updatePrediction at h
  split_ifs at h
  · exact ⟨t.pred, by simpa using h.symm⟩
  · obtain ⟨l, -, h⟩ := bind_inv h
    obtain ⟨ms, -, h⟩ := bind_inv h
    obtain ⟨d, -, h⟩ := bind_inv h
    exact ⟨d, (pure_inv h).symm⟩

/-- What `update_trend` does to the trend points and the line. -/
theorem updateTrend_eq {t u : TLine} {ps : List XY} (h : t.updateTrend ps = .ok u) :
    ∃ v l up lo i a e s d, renew t = .ok v ∧ lineFit v.trend = .ok l ∧
      tolLine { v with line := l } true = .ok up ∧ tolLine { v with line := l } false = .ok lo ∧
      u = { v with line := l, tolUpper := up, tolLower := lo, intersections := i, tangents := a,
                   extremas := e, search := s, pred := d } := by
  unfold updateTrend at h
  obtain ⟨v, h1, h⟩ := bind_inv h
  obtain ⟨l, h2, h⟩ := bind_inv h
  obtain ⟨up, h3, h⟩ := bind_inv h
  obtain ⟨lo, h4, h⟩ := bind_inv h
  obtain ⟨r, h5, h⟩ := bind_inv h
  obtain ⟨i, a, e, s, h6⟩ := updatePoi_eq (u := r.1) (b := r.2) h5
  obtain ⟨d, h7⟩ := updatePrediction_eq h
  obtain ⟨s', h8⟩ := updateInterval_eq r.1
  refine ⟨v, l, up, lo, i, a, e, s', d, ?_, h2, h3, ?_, ?_⟩
  · exact h1
  · exact h4
  · rw [h7, h8, h6]

theorem pruneAt_eq {t : TLine} {s u : Prune} {i : ℕ} (h : pruneAt t s i = .ok u) :
    u.boundary.Sublist s.boundary ∧ u.extremas.Sublist s.extremas ∧
      (∀ p ∈ u.coincident, p ∈ s.coincident ∨ p ∈ s.extremas) := by
  unfold pruneAt at h
  obtain ⟨c, h1, h⟩ := bind_inv h
  obtain ⟨v, h2, h⟩ := bind_inv h
  by_cases hc : (c || v == t.upper) = true
  · rw [if_pos hc] at h
    cases hp : s.extremas[i + 1]? with
    | none => rw [hp] at h; simp at h
    | some p =>
      rw [hp] at h
      have := (pure_inv h).symm
      subst this
      refine ⟨?_, List.eraseIdx_sublist _ _, ?_⟩
      · simp only; split_ifs
        · exact List.Sublist.refl _
        · exact List.eraseIdx_sublist _ _
      · intro q hq
        simp only at hq
        split_ifs at hq
        · rcases List.mem_append.1 hq with hq | hq
          · exact .inl hq
          · rw [List.mem_singleton] at hq
            subst hq
            exact .inr (List.mem_of_getElem? hp)
        · exact .inl hq
  · rw [if_neg hc] at h
    have := (pure_inv h).symm
    subst this
    exact ⟨List.Sublist.refl _, List.Sublist.refl _, fun _ h => .inl h⟩

theorem prunePass_eq {t : TLine} : ∀ {n : ℕ} {s u : Prune}, prunePass t n s = .ok u →
    u.boundary.Sublist s.boundary ∧ u.extremas.Sublist s.extremas ∧
      (∀ p ∈ u.coincident, p ∈ s.coincident ∨ p ∈ s.extremas)
  | 0, s, u, h => by
    have := pure_inv h
    subst this
    exact ⟨List.Sublist.refl _, List.Sublist.refl _, fun _ h => .inl h⟩
  | n + 1, s, u, h => by
    rw [prunePass] at h
    obtain ⟨v, h1, h⟩ := bind_inv h
    obtain ⟨a1, a2, a3⟩ := pruneAt_eq h1
    obtain ⟨b1, b2, b3⟩ := prunePass_eq h
    refine ⟨b1.trans a1, b2.trans a2, ?_⟩
    intro p hp
    rcases b3 p hp with h | h
    · exact a3 p h
    · exact .inr (a2.subset h)

theorem pruneLoop_eq {t : TLine} : ∀ {n : ℕ} {s u : Prune}, pruneLoop t n s = .ok u →
    u.boundary.Sublist s.boundary ∧ u.extremas.Sublist s.extremas ∧
      (∀ p ∈ u.coincident, p ∈ s.coincident ∨ p ∈ s.extremas)
  | 0, s, u, h => by
    have := pure_inv h
    subst this
    exact ⟨List.Sublist.refl _, List.Sublist.refl _, fun _ h => .inl h⟩
  | n + 1, s, u, h => by
    rw [pruneLoop] at h
    obtain ⟨v, h1, h⟩ := bind_inv h
    obtain ⟨a1, a2, a3⟩ := prunePass_eq h1
    split_ifs at h
    · obtain ⟨b1, b2, b3⟩ := pruneLoop_eq h
      refine ⟨b1.trans a1, b2.trans a2, ?_⟩
      intro p hp
      rcases b3 p hp with h | h
      · exact a3 p h
      · exact .inr (a2.subset h)
    · have := pure_inv h
      subst this
      exact ⟨a1, a2, a3⟩

theorem thin_sublist (t : TLine) : ∀ (n : ℕ) (es : List XY), (thin t n es).Sublist es
  | 0, es => List.Sublist.refl _
  | n + 1, es => by
    rw [thin]
    refine (thin_sublist t n _).trans ?_
    unfold thinAt
    split
    · split_ifs
      · exact List.eraseIdx_sublist _ _
      · exact List.Sublist.refl _
    · exact List.Sublist.refl _

theorem fittest_mem {bs : List XY} : ∀ {ls : List Chord} {l : Chord} {f : ℚ},
    fittest bs ls = .ok (some (l, f)) → l ∈ ls
  | [], l, f, h => by simp [fittest] at h
  | k :: ls, l, f, h => by
    rw [fittest] at h
    obtain ⟨g, -, h⟩ := bind_inv h
    obtain ⟨r, hr, h⟩ := bind_inv h
    cases r with
    | none =>
      have := pure_inv h
      simp only [Option.some.injEq, Prod.mk.injEq] at this
      exact List.mem_cons.2 (.inl this.1.symm)
    | some r =>
      obtain ⟨k', g'⟩ := r
      simp only at h
      split_ifs at h
      · have := pure_inv h
        simp only [Option.some.injEq, Prod.mk.injEq] at this
        exact List.mem_cons.2 (.inr (this.1 ▸ fittest_mem hr))
      · have := pure_inv h
        simp only [Option.some.injEq, Prod.mk.injEq] at this
        exact List.mem_cons.2 (.inl this.1.symm)

theorem zip_tail_sublist {α : Type} : ∀ {es : List α} {l : α × α}, l ∈ es.zip es.tail →
    [l.1, l.2].Sublist es
  | [], l, h => by simp at h
  | [a], l, h => by simp at h
  | a :: b :: es, l, h => by
    simp only [List.tail_cons, List.zip_cons_cons, List.mem_cons] at h
    rcases h with rfl | h
    · exact List.Sublist.cons_cons _ (List.Sublist.cons_cons _ (List.nil_sublist _))
    · exact List.Sublist.cons _ (zip_tail_sublist (es := b :: es) h)

/-- What `set_trend_with_boundary_points` makes of the boundary points. -/
theorem setTrend_eq {t u : TLine} (h : setTrend t = .ok u) :
    ∃ bs ts, u = { t with boundary := bs, trend := ts } ∧ bs.Sublist t.boundary ∧ (∀ p ∈ ts, p ∈ t.boundary) ∧
      (ts.length ≤ 1 ∨ ∃ p co q, ts = p :: co ++ [q] ∧ [p, q].Sublist t.boundary) := by
  unfold setTrend at h
  obtain ⟨s, h1, h⟩ := bind_inv h
  obtain ⟨a1, a2, a3⟩ := pruneLoop_eq h1
  simp only [List.not_mem_nil, false_or] at a3
  have hth := (thin_sublist t (s.extremas.length - 2) s.extremas).trans a2
  simp only at hth
  obtain ⟨fin, h2, h⟩ := bind_inv h
  generalize thin t (s.extremas.length - 2) s.extremas = es at h2 hth
  obtain ⟨ts, h3, h⟩ := bind_inv h
  have := (pure_inv h).symm
  subst this
  have hf : fin.Sublist t.boundary := by
    unfold finalLine at h2
    split_ifs at h2
    · obtain ⟨r, hr, h2⟩ := bind_inv h2
      cases r with
      | none => have := pure_inv h2; subst this; exact hth
      | some r =>
        obtain ⟨l, f⟩ := r
        have := pure_inv h2
        subst this
        exact (zip_tail_sublist (fittest_mem hr)).trans hth
    · have := pure_inv h2; subst this; exact hth
  refine ⟨s.boundary, ts, rfl, a1, ?_, ?_⟩
  · match fin, hf, h3 with
    | [], _, h3 => simp only [addCoincident, Except.ok.injEq] at h3; subst h3; simp
    | [p], hf, h3 =>
      simp only [addCoincident, Except.ok.injEq] at h3; subst h3
      exact fun q hq => hf.subset hq
    | [p, q], hf, h3 =>
      simp only [addCoincident, Except.ok.injEq] at h3; subst h3
      intro r hr
      simp only [List.cons_append, List.mem_cons, List.mem_append, List.mem_filter, List.not_mem_nil,
        or_false] at hr
      rcases hr with rfl | hr | rfl
      · exact hf.subset (by simp)
      · exact a3 r hr.1
      · exact hf.subset (by simp)
    | _ :: _ :: _ :: _, _, h3 => simp [addCoincident] at h3
  · match fin, hf, h3 with
    | [], _, h3 => simp only [addCoincident, Except.ok.injEq] at h3; subst h3; simp
    | [p], hf, h3 => simp only [addCoincident, Except.ok.injEq] at h3; subst h3; simp
    | [p, q], hf, h3 =>
      simp only [addCoincident, Except.ok.injEq] at h3; subst h3
      exact .inr ⟨p, _, q, rfl, hf⟩
    | _ :: _ :: _ :: _, _, h3 => simp [addCoincident] at h3

theorem pruneAt_length {t : TLine} {s u : Prune} {i : ℕ} (h : pruneAt t s i = .ok u) :
    u.extremas.length + u.coincident.length ≤ s.extremas.length + s.coincident.length := by
  unfold pruneAt at h
  obtain ⟨c, h1, h⟩ := bind_inv h
  obtain ⟨v, h2, h⟩ := bind_inv h
  by_cases hc : (c || v == t.upper) = true
  · rw [if_pos hc] at h
    cases hp : s.extremas[i + 1]? with
    | none => rw [hp] at h; simp at h
    | some p =>
      rw [hp] at h
      have := (pure_inv h).symm
      subst this
      have hi := (List.getElem?_eq_some_iff.mp hp).1
      simp only [List.length_eraseIdx_of_lt hi]
      split_ifs
      · simp only [List.length_append, List.length_singleton]; omega
      · omega
  · rw [if_neg hc] at h
    have := (pure_inv h).symm
    subst this
    exact le_refl _

theorem prunePass_length {t : TLine} : ∀ {n : ℕ} {s u : Prune}, prunePass t n s = .ok u →
    u.extremas.length + u.coincident.length ≤ s.extremas.length + s.coincident.length
  | 0, s, u, h => by
    have := pure_inv h
    subst this
    exact le_refl _
  | n + 1, s, u, h => by
    rw [prunePass] at h
    obtain ⟨v, h1, h⟩ := bind_inv h
    exact (prunePass_length h).trans (pruneAt_length h1)

theorem pruneLoop_length {t : TLine} : ∀ {n : ℕ} {s u : Prune}, pruneLoop t n s = .ok u →
    u.extremas.length + u.coincident.length ≤ s.extremas.length + s.coincident.length
  | 0, s, u, h => by
    have := pure_inv h
    subst this
    exact le_refl _
  | n + 1, s, u, h => by
    rw [pruneLoop] at h
    obtain ⟨v, h1, h⟩ := bind_inv h
    have h2 := prunePass_length h1
    split_ifs at h
    · exact (pruneLoop_length h).trans h2
    · have := pure_inv h
      subst this
      exact h2

/-- There are no more trend points than boundary points. -/
theorem setTrend_length {t u : TLine} (h : setTrend t = .ok u) : u.trend.length ≤ t.boundary.length := by
  unfold setTrend at h
  obtain ⟨s, h1, h⟩ := bind_inv h
  have hl := pruneLoop_length h1
  simp only [List.length_nil, Nat.add_zero] at hl
  have hth := (thin_sublist t (s.extremas.length - 2) s.extremas).length_le
  obtain ⟨fin, h2, h⟩ := bind_inv h
  generalize thin t (s.extremas.length - 2) s.extremas = es at h2 hth
  obtain ⟨ts, h3, h⟩ := bind_inv h
  have := (pure_inv h).symm
  subst this
  have hf : fin.length ≤ es.length := by
    unfold finalLine at h2
    split_ifs at h2 with h4
    · obtain ⟨r, hr, h2⟩ := bind_inv h2
      cases r with
      | none => have := pure_inv h2; subst this; exact le_refl _
      | some r =>
        have := pure_inv h2
        subst this
        simp; omega
    · have := pure_inv h2; subst this; exact le_refl _
  match fin, hf, h3 with
  | [], _, h3 => simp only [addCoincident, Except.ok.injEq] at h3; subst h3; simp
  | [p], hf, h3 =>
    simp only [addCoincident, Except.ok.injEq] at h3; subst h3
    simp only [List.length_singleton] at hf ⊢
    omega
  | [p, q], hf, h3 =>
    simp only [addCoincident, Except.ok.injEq] at h3; subst h3
    have := List.length_filter_le (fun r => pointOnLine (p, q) r t.yRel t.yAbs) s.coincident
    simp only [List.length_cons, List.length_nil] at hf
    simp only [List.cons_append, List.length_cons, List.length_append, List.length_nil]
    omega
  | _ :: _ :: _ :: _, _, h3 => simp [addCoincident] at h3

theorem updateTrend_length {t u : TLine} {ps : List XY} (h : t.updateTrend ps = .ok u) :
    u.boundary.length ≤ t.boundary.length ∧ u.trend.length ≤ max t.boundary.length t.trend.length := by
  obtain ⟨v, l, up, lo, i, a, e, s, d, h1, -, -, -, rfl⟩ := updateTrend_eq h
  unfold renew at h1
  split_ifs at h1
  · have h2 := setTrend_length h1
    obtain ⟨bs, ts, rfl, hb, -, -⟩ := setTrend_eq h1
    exact ⟨hb.length_le, le_max_of_le_left h2⟩
  · simp only [Except.ok.injEq] at h1
    subst h1
    exact ⟨le_refl _, le_max_right _ _⟩

end TLine

theorem Trend.insort_length {a b : List XY} {p : XY} {nr : Bool} (h : insort a p (noRepeat := nr) = .ok b) :
    b.length ≤ a.length + 1 := by
  unfold insort at h
  split_ifs at h
  obtain ⟨i, -, h⟩ := bind_inv h
  split_ifs at h
  · have := pure_inv h; subst this; omega
  · have := pure_inv h; subst this; rw [List.length_insertIdx]; split_ifs <;> omega

end Curvepy
