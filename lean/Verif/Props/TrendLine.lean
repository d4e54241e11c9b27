import Verif.Props.Trend
import Verif.Spec.TrendChoice
import Verif.Lemmas.Trend
import Verif.Lemmas.Interval

/-!
# Properties of single trend lines: tolerance
-/

namespace Curvepy
namespace Props
open Spec Trend

theorem insort_strict {a b : List XY} {p : XY} (ha : StrictX a) (h : insort a p (noRepeat := true) = .ok b) :
    StrictX b := by
  have hs : SortedX a := List.Pairwise.imp (fun h => le_of_lt h) ha
  obtain ⟨c, d, rfl, hb, hc, he⟩ := insort_spec a p true hs
  rw [he] at h
  simp only [Except.ok.injEq] at h
  subst h
  by_cases hex : ∃ q ∈ c ++ d, q.1 = p.1
  · rw [if_pos ⟨by trivial, hex⟩]; exact ha
  · rw [if_neg (fun h => hex h.2)]
    rw [StrictX, List.pairwise_append] at ha ⊢
    refine ⟨ha.1, List.pairwise_cons.2 ⟨?_, ha.2.1⟩, ?_⟩
    · intro q hq
      exact lt_of_le_of_ne (hc q hq) fun h => hex ⟨q, List.mem_append_right _ hq, h.symm⟩
    · intro q hq r hr
      rcases List.mem_cons.1 hr with rfl | hr
      · exact hb q hq
      · exact ha.2.2 q hq r hr

theorem staleLoop_sublist (dom : Iv) : ∀ ps : List XY, (TLine.staleLoop dom ps).Sublist ps
  | [] => List.Sublist.refl _
  | p :: ps => by
    rw [TLine.staleLoop]
    split_ifs
    · exact List.Sublist.cons _ (staleLoop_sublist dom ps)
    · exact List.Sublist.refl _
    · exact List.Sublist.cons_cons _ (staleLoop_sublist dom ps)

theorem removeStale_sublist (dom : Iv) (ps : List XY) : (TLine.removeStale dom ps).Sublist ps := by
  unfold TLine.removeStale
  have := (staleLoop_sublist dom ps.reverse).reverse
  rwa [List.reverse_reverse] at this

/-- What all lines have in common. -/
structure Kept (t : TLine) : Prop where
  strict : StrictX t.boundary
  two : t.line.isSome = true → 2 ≤ t.trend.length
  asc : ∀ l, t.line = some l → l.1.1 < l.2.1
  up : t.tolLine true = .ok t.tolUpper
  lo : t.tolLine false = .ok t.tolLower

/-- The ends of a fitted line are at the first and the last point. -/
theorem lineFit_ends {ps : List XY} {l : Chord} (h : lineFit ps = .ok (some l)) :
    ∃ p q rest, ps = p :: q :: rest ∧ l.1.1 = p.1 ∧ l.2.1 = ((q :: rest).getLast (by simp)).1 := by
  match ps, h with
  | [], h => simp [lineFit] at h
  | [_], h => simp [lineFit] at h
  | [p, q], h =>
    simp only [lineFit, Except.ok.injEq, Option.some.injEq] at h
    subst h
    exact ⟨p, q, [], rfl, rfl, rfl⟩
  | p :: q :: r :: rest, h =>
    simp only [lineFit] at h
    obtain ⟨f, -, h⟩ := bind_inv h
    have := pure_inv h
    simp only [Option.some.injEq] at this
    subst this
    exact ⟨p, q, r :: rest, rfl, rfl, rfl⟩

theorem width_eq {t : TLine} {p q : XY} {rest : List XY} (h : t.trend = p :: q :: rest) :
    t.width = ((q :: rest).getLast (by simp)).1 - p.1 := by
  unfold TLine.width
  split
  · rename_i h'
    rw [h] at h'
    simp only [List.cons.injEq] at h'
    obtain ⟨rfl, rfl, rfl⟩ := h'
    rfl
  · rename_i h'
    exact absurd h (h' p q rest)

theorem same_trend {t u : TLine} {ps : List XY} (h : t.updateTrend ps = .ok u) : TLine.Same t u := by
  obtain ⟨v, l, up, lo, i, a, e, s, d, h1, h2, h3, h4, rfl⟩ := TLine.updateTrend_eq h
  have : TLine.Same t v := by
    unfold TLine.renew at h1
    split_ifs at h1 with hval
    · obtain ⟨bs, ts, rfl, a1, -, a3⟩ := TLine.setTrend_eq h1
      exact ⟨rfl, rfl, rfl, rfl, rfl, rfl, rfl, rfl⟩
    · simp only [Except.ok.injEq] at h1
      subst h1
      exact TLine.Same.refl t
  exact ⟨this.1, this.2, this.3, this.4, this.5, this.6, this.7, this.8⟩

theorem kept_trend {t u : TLine} {ps : List XY} (h : t.updateTrend ps = .ok u) (hw : 0 < t.minWidth)
    (hs : StrictX t.boundary) : Kept u := by
  obtain ⟨v, l, up, lo, i, a, e, s, d, h1, h2, h3, h4, rfl⟩ := TLine.updateTrend_eq h
  have hv : StrictX v.boundary ∧ (∀ p q rest, v.trend = p :: q :: rest →
      p.1 < ((q :: rest).getLast (by simp)).1) := by
    unfold TLine.renew at h1
    split_ifs at h1 with hval
    · obtain ⟨bs, ts, rfl, a1, -, a3⟩ := TLine.setTrend_eq h1
      refine ⟨List.Pairwise.sublist a1 hs, ?_⟩
      intro p q rest hp
      simp only at hp
      subst hp
      rcases a3 with h | ⟨p', co, q', h, hsub⟩
      · simp at h
      · have hp : p = p' := by simp only [List.cons_append, List.cons.injEq] at h; exact h.1
        have hq : (q :: rest).getLast (by simp) = q' := by
          have : q :: rest = co ++ [q'] := by
            simp only [List.cons_append, List.cons.injEq] at h; exact h.2
          simp only [this, List.getLast_append_singleton]
        rw [hp, hq]
        have := List.Pairwise.sublist hsub hs
        simpa using this
    · simp only [Except.ok.injEq] at h1
      subst h1
      refine ⟨hs, ?_⟩
      intro p q rest hp
      have hval : t.isValid = true := by simpa using hval
      have hwid : ¬ t.width < t.minWidth := by
        intro hlt
        unfold TLine.isValid at hval
        simp [hlt] at hval
      rw [width_eq hp] at hwid
      linarith
  obtain ⟨hst, hends⟩ := hv
  refine ⟨hst, ?_, ?_, h3, h4⟩
  · intro hl
    simp only at hl ⊢
    obtain ⟨l, rfl⟩ := Option.isSome_iff_exists.1 hl
    obtain ⟨p, q, rest, hp, -, -⟩ := lineFit_ends h2
    rw [hp]; simp
  · intro k hk
    simp only at hk
    subst hk
    obtain ⟨p, q, rest, hp, e1, e2⟩ := lineFit_ends h2
    rw [e1, e2]
    exact hends p q rest hp

/-- What `did_append_point` can do. -/
theorem append_cases {t u : TLine} {p : XY} {ps : List XY} {b : Bool} (h : t.didAppend p ps = .ok (u, b)) :
    u = t ∨
    (∃ bs ts, insort t.boundary p (noRepeat := true) = .ok bs ∧
      (ts = t.trend ∨ (t.isValid = true ∧ t.onTrend p = .ok true ∧
        insort t.trend p (noRepeat := true) = .ok ts)) ∧
      TLine.updateTrend { t with boundary := bs, trend := ts } ps = .ok u) ∨
    (t.isValid = true ∧ t.onTrend p = .ok false ∧
      ∃ v c, t.updatePoi ps = .ok (v, c) ∧ v.updatePrediction ps = .ok u) := by
  unfold TLine.didAppend at h
  split_ifs at h with h1 h2
  · simp only [Except.ok.injEq, Prod.mk.injEq] at h
    exact .inl h.1.symm
  · obtain ⟨bs, e1, h⟩ := bind_inv h
    obtain ⟨v, e2, h⟩ := bind_inv h
    have := pure_inv h
    simp only [Prod.mk.injEq] at this
    rw [← this.1]
    exact .inr (.inl ⟨bs, t.trend, e1, .inl rfl, e2⟩)
  · have hv : t.isValid = true := by simpa using h2
    obtain ⟨on, e0, h⟩ := bind_inv h
    cases on with
    | true =>
      simp only [if_true] at h
      obtain ⟨bs, e1, h⟩ := bind_inv h
      obtain ⟨ts, e2, h⟩ := bind_inv h
      obtain ⟨v, e3, h⟩ := bind_inv h
      have := pure_inv h
      simp only [Prod.mk.injEq] at this
      rw [← this.1]
      exact .inr (.inl ⟨bs, ts, e1, .inr ⟨hv, e0, e2⟩, e3⟩)
    | false =>
      simp only [Bool.false_eq_true, if_false] at h
      obtain ⟨r, e1, h⟩ := bind_inv h
      obtain ⟨v, e2, h⟩ := bind_inv h
      have := pure_inv h
      simp only [Prod.mk.injEq] at this
      rw [← this.1]
      exact .inr (.inr ⟨hv, e0, r.1, r.2, e1, e2⟩)

theorem same_append {t u : TLine} {p : XY} {ps : List XY} {b : Bool} (h : t.didAppend p ps = .ok (u, b)) :
    TLine.Same t u := by
  rcases append_cases h with rfl | ⟨bs, ts, -, -, e⟩ | ⟨-, -, v, c, e1, e2⟩
  · exact TLine.Same.refl _
  · have := same_trend e
    exact ⟨this.1, this.2, this.3, this.4, this.5, this.6, this.7, this.8⟩
  · obtain ⟨i, a, e, s, h6⟩ := TLine.updatePoi_eq e1
    obtain ⟨d, h7⟩ := TLine.updatePrediction_eq e2
    rw [h7, h6]
    exact ⟨rfl, rfl, rfl, rfl, rfl, rfl, rfl, rfl⟩

theorem kept_append {t u : TLine} {p : XY} {ps : List XY} {b : Bool} (hk : Kept t) (hw : 0 < t.minWidth)
    (h : t.didAppend p ps = .ok (u, b)) : Kept u := by
  rcases append_cases h with rfl | ⟨bs, ts, e0, -, e⟩ | ⟨-, -, v, c, e1, e2⟩
  · exact hk
  · exact kept_trend e hw (insort_strict hk.strict e0)
  · obtain ⟨i, a, e, s, h6⟩ := TLine.updatePoi_eq e1
    obtain ⟨d, h7⟩ := TLine.updatePrediction_eq e2
    rw [h7, h6]
    exact ⟨hk.1, hk.2, hk.3, hk.4, hk.5⟩

/-- What `begin_update` can do. -/
theorem update_cases {t u : TLine} {dom : Iv} {ps : List XY} (h : t.beginUpdate dom ps = .ok u) :
    u = t ∨ ∃ bs ts i a e, bs.Sublist t.boundary ∧ ts.Sublist t.trend ∧
      TLine.updateTrend { t with boundary := bs, trend := ts, intersections := i, tangents := a, extremas := e } ps
        = .ok u := by
  unfold TLine.beginUpdate at h
  split_ifs at h with h1
  · simp only [Except.ok.injEq] at h
    exact .inl h.symm
  · simp only at h
    split_ifs at h with h2
    · exact .inr ⟨_, _, _, _, _, removeStale_sublist dom _, removeStale_sublist dom _, h⟩
    · simp only [Except.ok.injEq] at h
      simp only [not_or, ne_eq, not_not] at h2
      rw [(removeStale_sublist dom t.trend).eq_of_length h2.1,
        (removeStale_sublist dom t.boundary).eq_of_length h2.2.1,
        (removeStale_sublist dom t.intersections).eq_of_length h2.2.2.1,
        (removeStale_sublist dom t.tangents).eq_of_length h2.2.2.2.1,
        (removeStale_sublist dom t.extremas).eq_of_length h2.2.2.2.2] at h
      exact .inl h.symm

theorem same_update {t u : TLine} {dom : Iv} {ps : List XY} (h : t.beginUpdate dom ps = .ok u) :
    TLine.Same t u := by
  rcases update_cases h with rfl | ⟨bs, ts, i, a, e, -, -, h⟩
  · exact TLine.Same.refl _
  · have := same_trend h
    exact ⟨this.1, this.2, this.3, this.4, this.5, this.6, this.7, this.8⟩

theorem kept_update {t u : TLine} {dom : Iv} {ps : List XY} (hk : Kept t) (hw : 0 < t.minWidth)
    (h : t.beginUpdate dom ps = .ok u) : Kept u := by
  rcases update_cases h with rfl | ⟨bs, ts, i, a, e, hb, -, h⟩
  · exact hk
  · exact kept_trend h hw (List.Pairwise.sublist hb hk.strict)

/-- Everything above holds for every line that can come about. -/
theorem grown_kept {t : TLine} (h : Grown t) (hw : 0 < t.minWidth) : Kept t := by
  induction h with
  | new w u m d s r a g =>
    exact ⟨List.Pairwise.nil, by simp [TLine.new], by simp [TLine.new], rfl, rfl⟩
  | append h e ih =>
    rw [(same_append e).width] at hw
    exact kept_append (ih hw) hw e
  | update h e ih =>
    rw [(same_update e).width] at hw
    exact kept_update (ih hw) hw e

/-! ## C58 -/

/-- C58 (partial: `y` not negative if the tolerance is relative): the tolerance band of a value contains it. -/
theorem C58_value_partial (t : TLine) (ht : Tolerant t) (y : ℚ) (hy : t.yRel = none ∨ 0 ≤ y) :
    t.tolMin y ≤ y ∧ y ≤ t.tolMax y := by
  obtain ⟨ha, hr⟩ := ht
  unfold TLine.tolMin TLine.tolMax
  cases h1 : t.yAbs with
  | none =>
    cases h2 : t.yRel with
    | none => simp
    | some r =>
      have := hr r h2
      have hy : 0 ≤ y := by rcases hy with h | h; · rw [h2] at h; cases h
                            · exact h
      simp only [Option.map_none]
      split_ifs <;> simp only [Option.getD_some, Option.getD_none]
      · constructor <;> nlinarith
      · exact ⟨le_refl _, le_refl _⟩
  | some a =>
    have ha := ha a h1
    cases h2 : t.yRel with
    | none => simp only [Option.map_some, Option.getD_some]; constructor <;> linarith
    | some r =>
      have := hr r h2
      have hy : 0 ≤ y := by rcases hy with h | h; · rw [h2] at h; cases h
                            · exact h
      simp only [Option.map_some]
      split_ifs <;> simp only [Option.getD_some]
      · exact ⟨max_le (by linarith) (by nlinarith), le_min (by linarith) (by nlinarith)⟩
      · constructor <;> linarith

/-- C58: it is not wider than the absolute tolerance. -/
theorem C58_value_abs (t : TLine) (a y : ℚ) (h1 : t.yAbs = some a) :
    y - a ≤ t.tolMin y ∧ t.tolMax y ≤ y + a := by
  unfold TLine.tolMin TLine.tolMax
  rw [h1]
  cases h2 : t.yRel with
  | none => simp
  | some r =>
    simp only [Option.map_some]
    split_ifs <;> simp

/-- C58: it is not wider than the relative tolerance, which is not used close to zero. -/
theorem C58_value_rel (t : TLine) (r y : ℚ) (h1 : t.yRel = some r) (hy : nearZero < |y|) :
    y * (1 - r) ≤ t.tolMin y ∧ t.tolMax y ≤ y * (1 + r) := by
  unfold TLine.tolMin TLine.tolMax
  rw [h1]
  simp only [gt_iff_lt, if_pos (show eps < |y| from hy)]
  cases h2 : t.yAbs with
  | none => simp
  | some a => simp

/-- C58, exactly: without tolerances the band is the value. -/
theorem C58_value_none (t : TLine) (y : ℚ) (h1 : t.yRel = none) (h2 : t.yAbs = none) :
    t.tolMin y = y ∧ t.tolMax y = y := by
  unfold TLine.tolMin TLine.tolMax
  rw [h1, h2]; simp

/-- Disagreement with C58: with a relative tolerance the band of a negative value is inside out. -/
theorem C58_negation_value (t : TLine) (r y : ℚ) (h1 : t.yRel = some r) (hr : 0 < r) (hy : y < -nearZero) :
    y < t.tolMin y ∧ t.tolMax y < y := by
  have he : (0 : ℚ) < nearZero := by unfold nearZero; norm_num
  have hy' : nearZero < |y| := by rw [abs_of_neg (by linarith)]; linarith
  obtain ⟨a, b⟩ := C58_value_rel t r y h1 hy'
  constructor
  · refine lt_of_lt_of_le ?_ a; nlinarith
  · refine lt_of_le_of_lt b ?_; nlinarith

/-- The line through two points at a position, as a weighted mean. -/
theorem lineY_mean {x0 x1 : ℚ} (h : x0 < x1) (a b x : ℚ) :
    lineY ((x0, a), (x1, b)) x = some ((1 - (x - x0) / (x1 - x0)) * a + (x - x0) / (x1 - x0) * b) := by
  have h' : x1 - x0 ≠ 0 := (sub_pos.2 h).ne'
  rw [lineY]
  simp only
  rw [if_neg h.ne']
  congr 1
  field_simp
  ring

/-- The check of a line that can come about. -/
theorem onTrend_eq {t : TLine} (hk : Kept t) {l : Chord} (hl : t.line = some l) {p : XY}
    (hs : t.search.contains (.fin p.1) = true) :
    let s := (p.1 - l.1.1) / (l.2.1 - l.1.1)
    t.onTrend p = .ok (decide ((1 - s) * t.tolMin l.1.2 + s * t.tolMin l.2.2 ≤ p.2 ∧
      p.2 ≤ (1 - s) * t.tolMax l.1.2 + s * t.tolMax l.2.2)) := by
  intro s
  have h2 := hk.two (by rw [hl]; rfl)
  have hasc := hk.asc l hl
  have hu := hk.up
  have hlo := hk.lo
  unfold TLine.tolLine at hu hlo
  rw [if_neg (by omega), hl] at hu hlo
  simp only [need, bind, Except.bind, if_true, Bool.false_eq_true, if_false, pure, Except.pure,
    Except.ok.injEq] at hu hlo
  unfold TLine.onTrend
  rw [hl, hs, ← hu, ← hlo]
  simp only [Option.isNone_some, Bool.not_true, Bool.or_self, Bool.false_eq_true, if_false, need, bind, Except.bind,
    lineY_mean hasc, pure, Except.pure]
  by_cases h : (1 - s) * t.tolMin l.1.2 + s * t.tolMin l.2.2 ≤ p.2
  · rw [if_pos h]; simp only [h, true_and]; rfl
  · rw [if_neg h]; simp only [h, false_and, decide_false]

theorem share_unit {x0 x1 x : ℚ} (h : x0 < x1) (h0 : x0 ≤ x) (h1 : x ≤ x1) :
    0 ≤ (x - x0) / (x1 - x0) ∧ 0 ≤ 1 - (x - x0) / (x1 - x0) := by
  have := sub_pos.2 h
  constructor
  · exact div_nonneg (by linarith) this.le
  · rw [sub_nonneg, div_le_one this]; linarith

/-- C58 (partial: between the ends of the line, and these not negative if the tolerance is relative): a point
of the line is on the trend. -/
theorem C58_on_line_partial {t : TLine} (hg : Grown t) (hw : 0 < t.minWidth) (ht : Tolerant t) {l : Chord}
    (hl : t.line = some l) (hy : t.yRel = none ∨ (0 ≤ l.1.2 ∧ 0 ≤ l.2.2)) {x y : ℚ}
    (h0 : l.1.1 ≤ x) (h1 : x ≤ l.2.1) (hs : t.search.contains (.fin x) = true) (hxy : OnLine l (x, y)) :
    t.onTrend (x, y) = .ok true := by
  have hk := grown_kept hg hw
  have hasc := hk.asc l hl
  rw [onTrend_eq hk hl hs]
  have e := ((C57_line_y l x y).1 hasc.ne).2 hxy
  rw [lineY_mean hasc, Option.some.injEq] at e
  obtain ⟨a, b⟩ := share_unit hasc h0 h1
  have v0 := C58_value_partial t ht l.1.2 (hy.imp_right And.left)
  have v1 := C58_value_partial t ht l.2.2 (hy.imp_right And.right)
  simp only [Except.ok.injEq, decide_eq_true_eq]
  generalize (x - l.1.1) / (l.2.1 - l.1.1) = s at *
  rw [← e]
  constructor
  · exact add_le_add (mul_le_mul_of_nonneg_left v0.1 b) (mul_le_mul_of_nonneg_left v1.1 a)
  · exact add_le_add (mul_le_mul_of_nonneg_left v0.2 b) (mul_le_mul_of_nonneg_left v1.2 a)

/-- C58 (partial: without relative tolerance): anywhere in the searched interval, the points on the trend are
those within the absolute tolerance of the line. -/
theorem C58_abs_partial {t : TLine} (hg : Grown t) (hw : 0 < t.minWidth) {l : Chord} (hl : t.line = some l)
    (hr : t.yRel = none) {a : ℚ} (ha : t.yAbs = some a) {x y z : ℚ} (hs : t.search.contains (.fin x) = true)
    (hxy : OnLine l (x, y)) : t.onTrend (x, z) = .ok (decide (|z - y| ≤ a)) := by
  have hk := grown_kept hg hw
  have hasc := hk.asc l hl
  rw [onTrend_eq hk hl hs]
  have e := ((C57_line_y l x y).1 hasc.ne).2 hxy
  rw [lineY_mean hasc, Option.some.injEq] at e
  have hmin : ∀ v, t.tolMin v = v - a := fun v => by unfold TLine.tolMin; rw [hr, ha]; rfl
  have hmax : ∀ v, t.tolMax v = v + a := fun v => by unfold TLine.tolMax; rw [hr, ha]; rfl
  simp only [hmin, hmax]
  generalize (x - l.1.1) / (l.2.1 - l.1.1) = s at *
  congr 1
  rw [decide_eq_decide, abs_le]
  constructor
  · rintro ⟨h1, h2⟩; constructor <;> linarith
  · rintro ⟨h1, h2⟩; constructor <;> linarith

/-- C58 (partial: between the ends of the line): a point on the trend is within the absolute tolerance. -/
theorem C58_width_abs_partial {t : TLine} (hg : Grown t) (hw : 0 < t.minWidth) {l : Chord} (hl : t.line = some l)
    {a : ℚ} (ha : t.yAbs = some a) {x y z : ℚ} (h0 : l.1.1 ≤ x) (h1 : x ≤ l.2.1) (hxy : OnLine l (x, y))
    (h : t.onTrend (x, z) = .ok true) : |z - y| ≤ a := by
  have hk := grown_kept hg hw
  have hasc := hk.asc l hl
  have hs : t.search.contains (.fin x) = true := by
    by_contra hc
    unfold TLine.onTrend at h
    rw [if_pos (by simp [hc])] at h
    cases h
  rw [onTrend_eq hk hl hs] at h
  have e := ((C57_line_y l x y).1 hasc.ne).2 hxy
  rw [lineY_mean hasc, Option.some.injEq] at e
  obtain ⟨u, v⟩ := share_unit hasc h0 h1
  have v0 := C58_value_abs t a l.1.2 ha
  have v1 := C58_value_abs t a l.2.2 ha
  simp only [Except.ok.injEq, decide_eq_true_eq] at h
  generalize (x - l.1.1) / (l.2.1 - l.1.1) = s at *
  have b0 := add_le_add (mul_le_mul_of_nonneg_left v0.1 v) (mul_le_mul_of_nonneg_left v1.1 u)
  have b1 := add_le_add (mul_le_mul_of_nonneg_left v0.2 v) (mul_le_mul_of_nonneg_left v1.2 u)
  rw [abs_le]
  constructor <;> linarith [h.1, h.2]

/-- C58 (partial: only a relative tolerance, both ends of the line positive): anywhere in the searched interval,
the points on the trend are those within the relative tolerance of the line.  Where the line is negative there
are none. -/
theorem C58_width_rel_partial {t : TLine} (hg : Grown t) (hw : 0 < t.minWidth) {l : Chord} (hl : t.line = some l)
    {r : ℚ} (hr : t.yRel = some r) (ha : t.yAbs = none) (e0 : nearZero < l.1.2) (e1 : nearZero < l.2.2)
    {x y z : ℚ} (hs : t.search.contains (.fin x) = true) (hxy : OnLine l (x, y)) :
    t.onTrend (x, z) = .ok (decide (|z - y| ≤ r * y)) := by
  have he : (0 : ℚ) < eps := by unfold eps; norm_num
  change eps < l.1.2 at e0
  change eps < l.2.2 at e1
  have hk := grown_kept hg hw
  have hasc := hk.asc l hl
  rw [onTrend_eq hk hl hs]
  have e := ((C57_line_y l x y).1 hasc.ne).2 hxy
  rw [lineY_mean hasc, Option.some.injEq] at e
  have hmin : ∀ v, eps < v → t.tolMin v = v * (1 - r) := fun v h => by
    unfold TLine.tolMin
    rw [hr, ha]
    simp only [Option.map_none, gt_iff_lt]
    rw [if_pos (by rw [abs_of_pos (by linarith)]; exact h)]
    rfl
  have hmax : ∀ v, eps < v → t.tolMax v = v * (1 + r) := fun v h => by
    unfold TLine.tolMax
    rw [hr, ha]
    simp only [Option.map_none, gt_iff_lt]
    rw [if_pos (by rw [abs_of_pos (by linarith)]; exact h)]
    rfl
  simp only [hmin _ e0, hmin _ e1, hmax _ e0, hmax _ e1]
  generalize (x - l.1.1) / (l.2.1 - l.1.1) = s at *
  have f0 : (1 - s) * (l.1.2 * (1 - r)) + s * (l.2.2 * (1 - r)) = y * (1 - r) := by rw [← e]; ring
  have f1 : (1 - s) * (l.1.2 * (1 + r)) + s * (l.2.2 * (1 + r)) = y * (1 + r) := by rw [← e]; ring
  rw [f0, f1]
  congr 1
  rw [decide_eq_decide, abs_le]
  constructor
  · rintro ⟨h1, h2⟩; constructor <;> linarith
  · rintro ⟨h1, h2⟩; constructor <;> linarith

/-- A line after appending points one by one. -/
def appended (t : TLine) : List XY → List XY → Except Err TLine
  | _, [] => .ok t
  | us, p :: ps => do
    let r ← t.didAppend p (us ++ [p])
    appended r.1 (us ++ [p]) ps

theorem appended_grown {t u : TLine} {us ps : List XY} (hg : Grown t) (h : appended t us ps = .ok u) : Grown u := by
  induction ps generalizing t us with
  | nil => simp only [appended, Except.ok.injEq] at h; exact h ▸ hg
  | cons p ps ih =>
    rw [appended] at h
    obtain ⟨r, e, h⟩ := bind_inv h
    exact ih (Grown.append (b := r.2) hg e) h

/-- What `appended` gives, to compute with. -/
def appendedD (t : TLine) (ps : List XY) : TLine :=
  match appended t [] ps with
  | .ok u => u
  | .error _ => t

theorem appendedD_grown {t : TLine} (hg : Grown t) (ps : List XY) : Grown (appendedD t ps) := by
  unfold appendedD
  split
  · rename_i u h; exact appended_grown hg h
  · exact hg

/-- A line of the default tolerance. -/
def plain (minPoints : ℕ) : TLine := TLine.new 1 true minPoints 0 10 (some (1 / 100)) none (8 / 5)

/-- A point that is already the last of the coincident ones is not recorded again; more than two points are no line. -/
example :
    let es : List XY := [(0, 3), (1, 2), (2, 1)]
    (plain 3).pruneAt ⟨es, es, [(5, 0), (1, 2)], false⟩ 0 = .ok ⟨[(0, 3), (2, 1)], es, [(5, 0), (1, 2)], true⟩ ∧
    (plain 3).pruneAt ⟨es, es, [(1, 2), (5, 0)], false⟩ 0 = .ok ⟨[(0, 3), (2, 1)], es, [(1, 2), (5, 0), (1, 2)], true⟩ ∧
    (plain 3).addCoincident es [] = .error .exception := by decide +kernel

/-- Three points on a falling line. -/
def falling : TLine := appendedD (plain 3) [(0, 3), (1, 2), (2, 1)]

example : falling.line = some ((0, 3), (2, 1)) ∧ falling.isValid = true ∧ falling.onTrend (1, 2) = .ok true ∧
    falling.onTrend (5 / 2, 1 / 2) = .ok true ∧ falling.onTrend (1, 21 / 10) = .ok false := by decide +kernel

/-- Disagreement with C58: three points at `-1` make a valid line, and none of its points is on the trend. -/
theorem C58_negation_negative : ∃ t : TLine, Grown t ∧ Tolerant t ∧ t.isValid = true ∧
    t.line = some ((0, -1), (2, -1)) ∧ t.trend = [(0, -1), (1, -1), (2, -1)] ∧
    ∀ x y, t.onTrend (x, y) = .ok false := by
  refine ⟨appendedD (plain 3) [(0, -1), (1, -1), (2, -1)], appendedD_grown (Grown.new _ _ _ _ _ _ _ _) _,
    ⟨?_, ?_⟩, by decide +kernel, by decide +kernel, by decide +kernel, ?_⟩
  · intro a h
    have : (appendedD (plain 3) [(0, -1), (1, -1), (2, -1)]).yAbs = none := by decide +kernel
    rw [this] at h; cases h
  · intro r h
    have : (appendedD (plain 3) [(0, -1), (1, -1), (2, -1)]).yRel = some (1 / 100) := by decide +kernel
    rw [this] at h; cases h; norm_num
  · intro x y
    have hg : Grown (plain 3) := Grown.new _ _ _ _ _ _ _ _
    have hk := grown_kept (appendedD_grown hg [(0, -1), (1, -1), (2, -1)]) (by decide +kernel)
    have hl : (appendedD (plain 3) [(0, -1), (1, -1), (2, -1)]).line = some ((0, -1), (2, -1)) := by decide +kernel
    by_cases hs : (appendedD (plain 3) [(0, -1), (1, -1), (2, -1)]).search.contains (.fin x) = true
    · have := onTrend_eq hk hl (p := (x, y)) hs
      have h1 : (appendedD (plain 3) [(0, -1), (1, -1), (2, -1)]).tolMin (-1) = -99 / 100 := by decide +kernel
      have h2 : (appendedD (plain 3) [(0, -1), (1, -1), (2, -1)]).tolMax (-1) = -101 / 100 := by decide +kernel
      simp only [h1, h2] at this
      refine this.trans ?_
      simp only [Except.ok.injEq, decide_eq_false_iff_not]
      rintro ⟨a, b⟩
      linarith
    · unfold TLine.onTrend
      rw [if_pos (by simp [hs])]

/-- Disagreement with C58: where a line that starts positive has become negative, its points are not on the
trend. -/
theorem C58_negation_ahead : ∃ (t : TLine) (l : Chord), Grown t ∧ Tolerant t ∧ t.isValid = true ∧
    t.line = some l ∧ 0 < l.1.2 ∧ 0 < l.2.2 ∧ t.search.contains (.fin 5) = true ∧ OnLine l (5, -2) ∧
    t.onTrend (5, -2) = .ok false := by
  refine ⟨falling, ((0, 3), (2, 1)), appendedD_grown (Grown.new _ _ _ _ _ _ _ _) _, ⟨?_, ?_⟩, ?_, ?_, ?_, ?_, ?_, ?_, ?_⟩
  · intro a h
    have : falling.yAbs = none := by decide +kernel
    rw [this] at h; cases h
  · intro r h
    have : falling.yRel = some (1 / 100) := by decide +kernel
    rw [this] at h; cases h; norm_num
  · decide +kernel
  · decide +kernel
  · decide +kernel
  · decide +kernel
  · decide +kernel
  · unfold OnLine; norm_num
  · decide +kernel

/-- Both tolerances, a rising line. -/
def rising : TLine :=
  appendedD (TLine.new 1 true 3 0 10 (some (1 / 2)) (some 1) (8 / 5)) [(0, 1), (1, 2), (2, 3)]

/-- Disagreement with C58: ahead of a line with both tolerances the band is wider than the absolute one. -/
theorem C58_negation_wide : ∃ (t : TLine) (l : Chord), Grown t ∧ Tolerant t ∧ t.isValid = true ∧
    t.line = some l ∧ t.yAbs = some 1 ∧ OnLine l (10, 11) ∧ t.onTrend (10, 13) = .ok true := by
  refine ⟨rising, ((0, 1), (2, 3)), appendedD_grown (Grown.new _ _ _ _ _ _ _ _) _, ⟨?_, ?_⟩, ?_, ?_, ?_, ?_, ?_⟩
  · intro a h
    have : rising.yAbs = some 1 := by decide +kernel
    rw [this] at h; cases h; norm_num
  · intro r h
    have : rising.yRel = some (1 / 2) := by decide +kernel
    rw [this] at h; cases h; norm_num
  · decide +kernel
  · decide +kernel
  · decide +kernel
  · unfold OnLine; norm_num
  · decide +kernel

/-- Disagreement: `TrendLine._is_value_within_tolerance` says the opposite for every value off the band and for
every value strictly in it. -/
theorem C58_negation_within (t : TLine) (y ref : ℚ) :
    t.withinTol (some y) (some ref) = !decide (t.tolMin ref ≤ y ∧ y ≤ t.tolMax ref) := by
  unfold TLine.withinTol
  by_cases h1 : y < t.tolMin ref <;> by_cases h2 : t.tolMax ref < y <;> simp [h1, h2]
  all_goals grind

/-- Missing values agree with nothing, also here. -/
theorem C58_missing (t : TLine) (y : Option ℚ) : t.withinTol none y = false ∧ t.withinTol y none = false := by
  constructor
  · rfl
  · cases y <;> rfl

example : (plain 3).withinTol (some 5) (some 5) = false ∧ (plain 3).withinTol (some 9) (some 5) = true := by
  decide +kernel

/-! ### An instance of each theorem -/

theorem falling_grown : Grown falling := appendedD_grown (.new _ _ _ _ _ _ _ _) _

/-- The same line with an absolute tolerance only. -/
def fallingAbs : TLine := appendedD (TLine.new 1 true 3 0 10 none (some (1 / 8)) (8 / 5)) [(0, 3), (1, 2), (2, 1)]

theorem fallingAbs_grown : Grown fallingAbs := appendedD_grown (.new _ _ _ _ _ _ _ _) _

-- `C58_value_partial`, `C58_value_abs`, `C58_value_rel`, `C58_value_none`
example : falling.tolMin 2 ≤ 2 ∧ (2 : ℚ) * (1 - 1 / 100) ≤ falling.tolMin 2 ∧ fallingAbs.tolMax 2 ≤ 2 + 1 / 8 ∧
    (TLine.new 1 true 3 0 10 none none (8 / 5)).tolMin (-7) = -7 := by
  have ht : Tolerant falling := ⟨by decide +kernel, by
    intro r hr
    have : falling.yRel = some (1 / 100) := by decide +kernel
    rw [this] at hr; cases hr; norm_num⟩
  refine ⟨(C58_value_partial falling ht 2 (.inr (by norm_num))).1, (C58_value_rel falling (1 / 100) 2 (by decide +kernel) ?_).1,
    (C58_value_abs fallingAbs (1 / 8) 2 (by decide +kernel)).2, (C58_value_none _ (-7) rfl rfl).1⟩
  norm_num [nearZero]

-- `C58_abs_partial`
example (z : ℚ) : fallingAbs.onTrend (3 / 2, z) = .ok (decide (|z - 3 / 2| ≤ 1 / 8)) :=
  C58_abs_partial fallingAbs_grown (by decide +kernel) (l := ((0, 3), (2, 1))) (by decide +kernel) (by decide +kernel)
    (by decide +kernel) (by decide +kernel) (by norm_num [OnLine])

-- `C58_on_line_partial`
example : falling.onTrend (3 / 2, 3 / 2) = .ok true := by
  refine C58_on_line_partial falling_grown (by decide +kernel) ⟨by decide +kernel, ?_⟩ (l := ((0, 3), (2, 1))) (by decide +kernel)
    (.inr ⟨by norm_num, by norm_num⟩) (by norm_num) (by norm_num) (by decide +kernel) (by norm_num [OnLine])
  intro r hr
  have : falling.yRel = some (1 / 100) := by decide +kernel
  rw [this] at hr; cases hr; norm_num

-- `C58_width_abs_partial`
example (z : ℚ) (h : fallingAbs.onTrend (1, z) = .ok true) : |z - 2| ≤ 1 / 8 :=
  C58_width_abs_partial fallingAbs_grown (by decide +kernel) (l := ((0, 3), (2, 1))) (by decide +kernel) (by decide +kernel)
    (x := 1) (y := 2) (by norm_num) (by norm_num) (by norm_num [OnLine]) h

-- `C58_width_rel_partial`
example (z : ℚ) : falling.onTrend (5 / 2, z) = .ok (decide (|z - 1 / 2| ≤ 1 / 100 * (1 / 2))) :=
  C58_width_rel_partial falling_grown (by decide +kernel) (l := ((0, 3), (2, 1))) (by decide +kernel) (by decide +kernel)
    (by decide +kernel) (by norm_num [nearZero]) (by norm_num [nearZero]) (by decide +kernel) (by norm_num [OnLine])

-- `C58_missing`
example : falling.withinTol none (some 2) = false := (C58_missing falling (some 2)).1

end Props
end Curvepy
