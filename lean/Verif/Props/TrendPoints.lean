import Mathlib.Data.List.TakeWhile
import Verif.Lemmas.TrendPoints

/-!
# Properties C84, C85: search interval and points of interest of a trend line
-/

namespace Curvepy
namespace Props
open Spec Trend

variable {t : TLine} {l : Chord}

/-! ## The search interval -/

theorem updateInterval_search (t : TLine) : t.updateInterval = { t with search := searchOf t } := by
  unfold TLine.updateInterval searchOf
  cases hl : t.line with
  | none =>
    simp only
    match ht : t.trend with
    | [] => rfl
    | [p] => rfl
    | _ :: _ :: _ => rfl
  | some l =>
    obtain ⟨p0, p1⟩ := l
    simp only
    by_cases h1 : p0.1 = p1.1
    · rw [if_pos h1, if_pos h1]; rfl
    rw [if_neg h1, if_neg h1]
    by_cases h2 : t.searchRel ≤ 0
    · rw [if_pos h2, if_pos h2]
    rw [if_neg h2, if_neg h2]
    cases hi : t.intersections with
    | nil => simp [mul_comm]
    | cons i is =>
      simp only [List.head?_cons]
      by_cases h3 : i.1 ≤ p0.1
      · simp only [if_pos h3]
        rw [if_neg (by rintro ⟨h4, -⟩; exact absurd h4 (not_lt.2 h3)), mul_comm]
      · simp only [if_neg h3]
        by_cases h4 : t.trend.length ≥ t.minPoints
        · rw [if_pos h4, if_neg (by rintro ⟨-, h5⟩; omega), mul_comm]
        · rw [if_neg h4, if_pos ⟨not_le.1 h3, by omega⟩, add_sub_cancel]

theorem searchOf_search (t : TLine) (s : Iv) : searchOf { t with search := s } = searchOf t := rfl

/-! ## Points of interest -/

theorem contains_starting (a x : ℚ) : (⟨.fin a, .pinf, false, false⟩ : Iv).contains (.fin x) = decide (a ≤ x) := by
  simp [Iv.contains, Iv.isEmpty, Iv.geLo, Iv.leHi]

theorem contains_beyond (a x : ℚ) : (⟨.fin a, .pinf, true, false⟩ : Iv).contains (.fin x) = decide (a < x) := by
  simp [Iv.contains, Iv.isEmpty, Iv.geLo, Iv.leHi]

theorem poi_contains (t : TLine) (x : ℚ) (y : ℚ) : t.poiInterval.contains (.fin x) = recent t (x, y) := by
  unfold TLine.poiInterval recent
  cases hi : t.intersections.getLast? <;> cases ht : t.tangents.getLast? <;>
    simp only [Iv.contains_inter, contains_starting, contains_beyond, Option.all_none, Option.all_some, Bool.and_true]

theorem inter_lo {a b : Iv} {x : Ext} (h : (Iv.inter a b).contains x = true) (e : Ext) :
    (Iv.inter a b).lo ≤ e ↔ a.lo ≤ e ∧ b.lo ≤ e := by
  unfold Iv.inter at h ⊢
  split_ifs at h ⊢
  · simp [Iv.contains] at h
  · simp [Iv.contains] at h
  · simp only [Iv.interRaw]
    by_cases hl : Iv.loLe a b = true
    · rw [if_pos hl]
      have : a.lo ≤ b.lo := by
        simp only [Iv.loLe, Bool.or_eq_true, decide_eq_true_eq, Bool.and_eq_true] at hl
        rcases hl with h | h
        · exact h.le
        · exact h.1.le
      exact ⟨fun h => ⟨this.trans h, h⟩, fun h => h.2⟩
    · rw [if_neg hl]
      have : b.lo ≤ a.lo := by
        simp only [Iv.loLe, Bool.or_eq_true, decide_eq_true_eq, not_or] at hl
        exact not_lt.1 hl.1
      exact ⟨fun h => ⟨h, this.trans h⟩, fun h => h.1⟩

theorem poi_lo {p : XY} (h : recent t p = true) (e : XY) :
    decide (t.poiInterval.lo ≤ .fin e.1) = outdated t e := by
  rw [← poi_contains] at h
  unfold TLine.poiInterval at h ⊢
  unfold outdated
  cases hi : t.intersections.getLast? <;> cases ht : t.tangents.getLast? <;> rw [hi, ht] at h <;>
    simp only [Option.all_none, Option.all_some, Bool.and_true] at h ⊢
  · rw [Bool.eq_iff_iff]
    simp [inter_lo h]
  · rw [Bool.eq_iff_iff]
    simp [inter_lo h]
  · have h' := h
    rw [Iv.contains_inter, Bool.and_eq_true] at h'
    rw [Bool.eq_iff_iff]
    simp [inter_lo h, inter_lo h'.1]

theorem latest_eq (t : TLine) (us : List XY) :
    (us.reverse.takeWhile fun p => t.poiInterval.contains (.fin p.1)).reverse = latest t us := by
  unfold latest
  congr 2
  funext p
  exact poi_contains t p.1 p.2

theorem runs_flatten (r : XY → XY → Bool) : ∀ ps : List XY, (runs r ps).flatten = ps := by
  intro ps
  induction ps with
  | nil => rfl
  | cons p ps ih =>
    rw [runs]
    split
    · rename_i q g gs heq
      rw [heq] at ih
      split_ifs <;> simpa using ih
    · simpa using ih

theorem extremasOf_nil_of {ps : List XY} (h : extremasOf t l (runs (together t l) ps) ≠ []) : ps ≠ [] := by
  rintro rfl
  exact h rfl

/-- The whole of `update_points_of_interest`. -/
theorem updatePoi_spec (hk : Kept t) (hl : t.line = some l) {us : List XY} (hu : us ≠ []) :
    let ps := latest t us
    let gs := runs (together t l) ps
    let off := ps.filter fun p => !touching t l p
    let u := { t with tangents := t.tangents ++ tangentsOf t l gs
                      intersections := t.intersections ++ crossings l off
                      extremas := extremasWith t (extremasOf t l gs) }
    t.updatePoi us = .ok (if crossings l off = [] then (u, false) else ({ u with search := searchOf u }, true)) := by
  intro ps gs off u
  obtain ⟨s, h1, h2⟩ := Passed.loop hk hl (iv := t.poiInterval) us.reverse (Passed.start t l)
  rw [List.append_nil, latest_eq] at h2
  unfold TLine.updatePoi
  have hlen : us.length ≠ 0 := by simpa using hu
  simp only [TLine.isReady, hl, Option.isSome_some, Bool.not_true, Bool.false_or, beq_iff_eq, hlen, if_false, h1, bind,
    Except.bind, flushIf_eq hk hl, pure, Except.pure]
  congr 1
  have ht : (match nearest l s.on with | none => s.tangents | some q => s.tangents.insertIdx t.tangents.length q) =
      t.tangents ++ tangentsOf t l gs := by
    cases hr : runs (together t l) ps with
    | nil =>
      obtain ⟨a1, a2, a3, a4⟩ := h2.atStart hr
      show _ = t.tangents ++ tangentsOf t l (runs (together t l) ps)
      simp [a1, a3, nearest, tangentsOf, hr]
    | cons g gs' =>
      obtain ⟨a1, a2, a3⟩ := h2.atRun _ _ hr
      show _ = t.tangents ++ tangentsOf t l (runs (together t l) ps)
      rw [hr, tangentsOf_cons]
      split_ifs at a3 ⊢ with ha
      · rw [a3.1, a1]
        obtain ⟨q, g', rfl⟩ := List.exists_cons_of_ne_nil (runs_ne (by rw [hr]; simp : g ∈ _))
        obtain ⟨z, hz⟩ := nearest_some (l := l) (p := q) (ps := g')
        simp only [hz, insertIdx_length_append]
        simp
      · rw [a3.1, a1]; simp [nearest]
  have he : s.extrema.toList ++ s.newExtremas = extremasOf t l gs := by
    cases hr : runs (together t l) ps with
    | nil =>
      obtain ⟨a1, a2, a3, a4⟩ := h2.atStart hr
      show _ = extremasOf t l (runs (together t l) ps)
      simp [a2, a4, extremasOf, hr]
    | cons g gs' =>
      obtain ⟨a1, a2, a3⟩ := h2.atRun _ _ hr
      show _ = extremasOf t l (runs (together t l) ps)
      rw [hr, extremasOf_cons]
      split_ifs at a3 ⊢ with ha
      · rw [a3.2, a2]; rfl
      · rw [a3.2.1, a2]
  have hm : TLine.mergeExtremas t.poiInterval t.extremas (extremasOf t l gs) = extremasWith t (extremasOf t l gs) := by
    unfold TLine.mergeExtremas extremasWith
    by_cases h0 : extremasOf t l gs = []
    · simp [h0]
    · obtain ⟨p, hp⟩ := List.exists_mem_of_ne_nil _ (extremasOf_nil_of h0)
      have hrec : recent t p = true := by
        have := List.mem_takeWhile_imp (List.mem_reverse.1 hp)
        exact this
      rw [if_neg h0, if_pos (by simpa using h0)]
      cases hg : t.extremas.getLast? with
      | none =>
        have : t.extremas = [] := List.getLast?_eq_none_iff.1 hg
        simp [this]
      | some e =>
        simp only [Option.any_some, ← poi_lo hrec e, decide_eq_true_eq]
  refine (congrArg (fun T => t.poiEnd (TLine.pushExtrema { s with tangents := T })) ht).trans ?_
  unfold TLine.poiEnd
  simp only [pushExtrema_eq, he, hm, h2.inter, h2.found, updateInterval_search]
  by_cases hc : crossings l off = []
  · rw [if_pos hc, if_neg (by simpa using hc)]
  · rw [if_neg hc, if_pos (by simpa using hc)]

/-! ## C84: the search interval -/

theorem updateTrend_search {us : List XY} {u : TLine} (h : t.updateTrend us = .ok u) : u.search = searchOf u := by
  unfold TLine.updateTrend at h
  obtain ⟨v, -, h⟩ := bind_inv h
  obtain ⟨k, -, h⟩ := bind_inv h
  obtain ⟨up, -, h⟩ := bind_inv h
  obtain ⟨lo, -, h⟩ := bind_inv h
  obtain ⟨r, -, h⟩ := bind_inv h
  obtain ⟨d, rfl⟩ := TLine.updatePrediction_eq h
  rw [updateInterval_search]
  rfl

theorem updatePoi_search (hk : Kept t) (hs : t.search = searchOf t) {us : List XY} {u : TLine} {b : Bool}
    (h : t.updatePoi us = .ok (u, b)) : u.search = searchOf u := by
  cases hl : t.line with
  | none =>
    unfold TLine.updatePoi at h
    simp only [TLine.isReady, hl, Option.isSome_none, Bool.not_false, Bool.true_or, if_true, Except.ok.injEq,
      Prod.mk.injEq] at h
    rw [← h.1]; exact hs
  | some l =>
    by_cases hu : us = []
    · unfold TLine.updatePoi at h
      simp only [hu, List.length_nil, BEq.rfl, Bool.or_true, if_true, Except.ok.injEq, Prod.mk.injEq] at h
      rw [← h.1]; exact hs
    · have := updatePoi_spec hk hl hu
      simp only at this
      rw [this, Except.ok.injEq] at h
      split_ifs at h with hc
      · simp only [Prod.mk.injEq] at h
        rw [← h.1]
        show t.search = _
        rw [hs]
        unfold searchOf
        simp only [hc, List.append_nil]
      · simp only [Prod.mk.injEq] at h
        rw [← h.1]
        rfl

/-- C84: the search interval of a line always follows from its trend points, its line and its intersections. -/
theorem C84_search (h : Grown t) (hw : 0 < t.minWidth) : t.search = searchOf t := by
  induction h with
  | new => rfl
  | @append t t' p under b' h e ih =>
    have hw' : 0 < t.minWidth := by rw [(same_append e).width] at hw; exact hw
    rcases append_cases e with rfl | ⟨bs, ts, -, -, e⟩ | ⟨-, -, v, c, e1, e2⟩
    · exact ih hw'
    · exact updateTrend_search e
    · obtain ⟨d, rfl⟩ := TLine.updatePrediction_eq e2
      have := updatePoi_search (grown_kept h hw') (ih hw') e1
      exact this
  | update h e ih =>
    rcases update_cases e with rfl | ⟨bs, ts, i, a, e, -, -, h⟩
    · exact ih hw
    · exact updateTrend_search h

/-! ## C85: points of interest -/

theorem mem_latest {us : List XY} {p : XY} (h : p ∈ latest t us) : p ∈ us ∧ recent t p = true := by
  unfold latest at h
  rw [List.mem_reverse] at h
  exact ⟨List.mem_reverse.1 (List.takeWhile_subset _ h), List.mem_takeWhile_imp h⟩

theorem mem_nearest {q : XY} : ∀ {ps : List XY}, nearest l ps = some q →
    q ∈ ps ∧ ∀ p ∈ ps, |offset l q| ≤ |offset l p| := by
  intro ps
  induction ps generalizing q with
  | nil => intro h; cases h
  | cons a ps ih =>
    intro h
    rw [nearest] at h
    cases hn : nearest l ps with
    | none =>
      rw [hn] at h
      simp only [Option.some.injEq] at h
      subst h
      cases ps with
      | nil => simp
      | cons b ps =>
        obtain ⟨z, hz⟩ := nearest_some (l := l) (p := b) (ps := ps)
        rw [hz] at hn; cases hn
    | some z =>
      obtain ⟨h1, h2⟩ := ih hn
      rw [hn] at h
      simp only at h
      split_ifs at h with hc
      · simp only [Option.some.injEq] at h
        subst h
        refine ⟨List.mem_cons_of_mem _ h1, ?_⟩
        intro p hp
        rcases List.mem_cons.1 hp with rfl | hp
        · exact hc.le
        · exact h2 p hp
      · simp only [Option.some.injEq] at h
        subst h
        refine ⟨List.mem_cons_self, ?_⟩
        intro p hp
        rcases List.mem_cons.1 hp with rfl | hp
        · exact le_rfl
        · exact (not_lt.1 hc).trans (h2 p hp)

theorem mem_farthest {q : XY} : ∀ {ps : List XY}, farthest l ps = some q →
    q ∈ ps ∧ ∀ p ∈ ps, height l p ≤ height l q := by
  intro ps
  induction ps generalizing q with
  | nil => intro h; cases h
  | cons a ps ih =>
    intro h
    rw [farthest] at h
    cases hn : farthest l ps with
    | none =>
      rw [hn] at h
      simp only [Option.some.injEq] at h
      subst h
      cases ps with
      | nil => simp
      | cons b ps =>
        obtain ⟨z, hz⟩ := farthest_some (l := l) (p := b) (ps := ps)
        rw [hz] at hn; cases hn
    | some z =>
      obtain ⟨h1, h2⟩ := ih hn
      rw [hn] at h
      simp only at h
      split_ifs at h with hc
      · simp only [Option.some.injEq] at h
        subst h
        refine ⟨List.mem_cons_self, ?_⟩
        intro p hp
        rcases List.mem_cons.1 hp with rfl | hp
        · exact le_rfl
        · exact (h2 p hp).trans hc.le
      · simp only [Option.some.injEq] at h
        subst h
        refine ⟨List.mem_cons_of_mem _ h1, ?_⟩
        intro p hp
        rcases List.mem_cons.1 hp with rfl | hp
        · exact not_lt.1 hc
        · exact h2 p hp

/-- Every new tangent point is a recent underlying point that touches the line. -/
theorem C85_tangent {us : List XY} {q : XY} (h : q ∈ tangentsOf t l (runs (together t l) (latest t us))) :
    q ∈ us ∧ recent t q = true ∧ touching t l q = true := by
  unfold tangentsOf at h
  obtain ⟨g, hg, hn⟩ := List.mem_filterMap.1 h
  obtain ⟨hg, ha⟩ := List.mem_filter.1 hg
  obtain ⟨hq, -⟩ := mem_nearest hn
  have hm : q ∈ latest t us := by
    rw [← runs_flatten (together t l) (latest t us)]
    exact List.mem_flatten.2 ⟨g, hg, hq⟩
  refine ⟨(mem_latest hm).1, (mem_latest hm).2, ?_⟩
  obtain ⟨p, hp, hpt⟩ := List.any_eq_true.1 ha
  rcases runs_touching hg with h | h
  · exact h q hq
  · rw [h p hp] at hpt; cases hpt

/-- Every recent underlying point that touches the line is in a stretch with a new tangent point, which is not farther
from the line. -/
theorem C85_touched {us : List XY} {p : XY} (h : p ∈ latest t us) (ht : touching t l p = true) :
    ∃ g ∈ runs (together t l) (latest t us), p ∈ g ∧
      ∃ q ∈ tangentsOf t l (runs (together t l) (latest t us)), q ∈ g ∧ |offset l q| ≤ |offset l p| := by
  have hf := h
  rw [← runs_flatten (together t l) (latest t us)] at hf
  obtain ⟨g, hg, hp⟩ := List.mem_flatten.1 hf
  obtain ⟨a, g', rfl⟩ := List.exists_cons_of_ne_nil (runs_ne hg)
  obtain ⟨q, hq⟩ := nearest_some (l := l) (p := a) (ps := g')
  obtain ⟨h1, h2⟩ := mem_nearest hq
  exact ⟨_, hg, hp, q, List.mem_filterMap.2 ⟨_, List.mem_filter.2 ⟨hg, List.any_eq_true.2 ⟨p, hp, ht⟩⟩, hq⟩, h1,
    h2 p hp⟩

/-- Every new intersection is on the line, between two of the points, or half way between two points of which one is
before the start of the line. -/
theorem C85_crossing (hl : l.1.1 < l.2.1) : ∀ {ps : List XY} {x : XY}, x ∈ crossings l ps →
    ∃ p ∈ ps, ∃ q ∈ ps, offset l p * offset l q < 0 ∧ x = meet l p q ∧
      (offset l x = 0 ∨ x = ((p.1 + q.1) / 2, (p.2 + q.2) / 2)) := by
  intro ps
  induction ps with
  | nil => intro x h; simp [crossings] at h
  | cons p ps ih =>
    intro x h
    cases ps with
    | nil => simp [crossings] at h
    | cons q ps =>
      rw [crossings, List.mem_append] at h
      rcases h with h | h
      · split_ifs at h with hc
        · rw [List.mem_singleton] at h
          refine ⟨p, by simp, q, by simp, hc, h, ?_⟩
          subst h
          unfold meet
          simp only
          split_ifs with hb
          · exact .inr rfl
          · left
            have hd : offset l p - offset l q ≠ 0 := by
              intro h0
              have : offset l p = offset l q := by linarith
              rw [this] at hc
              nlinarith [mul_self_nonneg (offset l q)]
            have ha : ∀ s : ℚ, offset l (p.1 + s * (q.1 - p.1), p.2 + s * (q.2 - p.2)) =
                (1 - s) * offset l p + s * offset l q := by
              intro s
              unfold offset share
              have : l.2.1 - l.1.1 ≠ 0 := by linarith
              field_simp
              ring
            rw [ha]
            field_simp
            ring
        · simp at h
      · obtain ⟨a, ha, b, hb, h1⟩ := ih h
        exact ⟨a, List.mem_cons_of_mem _ ha, b, List.mem_cons_of_mem _ hb, h1⟩

/-- C85: an update of the points of interest reads the last underlying points as long as they are recent, adds a
tangent point for each stretch that touches the line, an intersection for each change of the side and an extremum
for each stretch on one side, and tells whether there was a new intersection. -/
theorem C85_points_partial (h : Grown t) (hw : 0 < t.minWidth) (hl : t.line = some l) {us : List XY} (hu : us ≠ []) :
    ∃ u, t.updatePoi us = .ok (u, decide (crossings l ((latest t us).filter fun p => !touching t l p) ≠ [])) ∧
      u.tangents = t.tangents ++ tangentsOf t l (runs (together t l) (latest t us)) ∧
      u.intersections = t.intersections ++ crossings l ((latest t us).filter fun p => !touching t l p) ∧
      u.extremas = extremasWith t (extremasOf t l (runs (together t l) (latest t us))) ∧
      u.search = searchOf u ∧ u.line = t.line ∧ u.trend = t.trend ∧ u.boundary = t.boundary ∧ u.pred = t.pred := by
  have hk := grown_kept h hw
  have hs := updatePoi_spec hk hl hu
  simp only at hs
  by_cases hc : crossings l ((latest t us).filter fun p => !touching t l p) = []
  · rw [if_pos hc] at hs
    rw [show decide (crossings l ((latest t us).filter fun p => !touching t l p) ≠ []) = false by simp [hc]]
    refine ⟨_, hs, rfl, rfl, rfl, ?_, rfl, rfl, rfl, rfl⟩
    exact updatePoi_search hk (C84_search h hw) hs
  · rw [if_neg hc] at hs
    rw [show decide (crossings l ((latest t us).filter fun p => !touching t l p) ≠ []) = true by simp [hc]]
    refine ⟨_, hs, rfl, rfl, rfl, ?_, rfl, rfl, rfl, rfl⟩
    exact updatePoi_search hk (C84_search h hw) hs

/-- Points given to a line one by one, each time with all points so far as the underlying points. -/
def fed (t : TLine) (seen : List XY) : List XY → Except Err TLine
  | [] => .ok t
  | p :: ps => do
    let r ← t.didAppend p (seen ++ [p])
    fed r.1 (seen ++ [p]) ps

theorem fed_grown : ∀ {ps seen : List XY} {t u : TLine}, Grown t → fed t seen ps = .ok u → Grown u := by
  intro ps
  induction ps with
  | nil => intro seen t u hg h; simp only [fed, Except.ok.injEq] at h; exact h ▸ hg
  | cons p ps ih =>
    intro seen t u hg h
    rw [fed] at h
    obtain ⟨r, e, h⟩ := bind_inv h
    exact ih (Grown.append (b := r.2) hg e) h

/-- What `fed` gives, to compute with. -/
def fedD (t : TLine) (ps : List XY) : TLine :=
  match fed t [] ps with
  | .ok u => u
  | .error _ => t

theorem fedD_grown (hg : Grown t) (ps : List XY) : Grown (fedD t ps) := by
  unfold fedD
  split
  · rename_i u h; exact fed_grown hg h
  · exact hg

/-- Points on a falling line, below, on it, above, and below again. -/
def wavy : List XY := [(0, 30), (1, 29), (2, 28), (3, 20), (4, 26), (5, 28), (6, 20)]

/-- Disagreement with C85: the points of interest of a new line are looked for in the search interval of the line
before it, so that a line through two points has no tangent point, although both points touch it. -/
theorem C85_negation : ∃ (t : TLine) (l : Chord), Grown t ∧ 0 < t.minWidth ∧
    fed (plain 3) [] [(0, 3), (1, 2)] = .ok t ∧ t.line = some l ∧
    touching t l (0, 3) = true ∧ touching t l (1, 2) = true ∧ t.intersections = [] ∧ t.tangents = [] := by
  refine ⟨fedD (plain 3) [(0, 3), (1, 2)], ((0, 3), (1, 2)), fedD_grown (Grown.new _ _ _ _ _ _ _ _) _, ?_, ?_, ?_, ?_,
    ?_, ?_, ?_⟩ <;> decide +kernel

/-- Disagreement with C85: underlying points on both sides of the line with one touching it between them are no
intersection if the one that touches was a known tangent point, and are one when the line is determined anew. -/
theorem C85_negation_known : ∃ (t u : TLine) (l : Chord), Grown t ∧ Grown u ∧ 0 < t.minWidth ∧
    fed (plain 3) [] wavy = .ok t ∧ t.line = some l ∧
    touching t l (3, 20) = false ∧ touching t l (4, 26) = true ∧ touching t l (5, 28) = false ∧
    offset l (3, 20) * offset l (5, 28) < 0 ∧ (∀ i ∈ t.intersections, 5 < i.1) ∧
    t.didAppend (7, 23) (wavy ++ [(7, 23)]) = .ok (u, true) ∧ u.intersections = (22 / 5, 128 / 5) :: t.intersections := by
  have hg : Grown (plain 3) := Grown.new _ _ _ _ _ _ _ _
  refine ⟨fedD (plain 3) wavy, fedD (plain 3) (wavy ++ [(7, 23)]), ((0, 30), (4, 26)), fedD_grown hg _,
    fedD_grown hg _, ?_, ?_, ?_, ?_, ?_, ?_, ?_, ?_, ?_, ?_⟩ <;> decide +kernel

/-- Two tangent points, two intersections and three extremas are found in one update. -/
example : ((fedD (plain 3) (wavy ++ [(7, 23)])).tangents, (fedD (plain 3) (wavy ++ [(7, 23)])).intersections,
    (fedD (plain 3) (wavy ++ [(7, 23)])).extremas) =
    ([(0, 30), (4, 26), (7, 23)], [(22 / 5, 128 / 5), (38 / 7, 172 / 7)], [(3, 20), (5, 28), (6, 20)]) := by
  decide +kernel

/-- The hypotheses of C85 hold where there is much to find. -/
example : let t := fedD (plain 3) (wavy.take 3)
    let l : Chord := ((0, 30), (2, 28))
    Grown t ∧ t.line = some l ∧ 0 < t.minWidth ∧ latest t wavy = wavy.drop 1 ∧
      tangentsOf t l (runs (together t l) (latest t wavy)) = [(1, 29), (4, 26)] ∧
      crossings l ((latest t wavy).filter fun p => !touching t l p) = [(22 / 5, 128 / 5), (38 / 7, 172 / 7)] ∧
      extremasOf t l (runs (together t l) (latest t wavy)) = [(3, 20), (5, 28), (6, 20)] := by
  refine ⟨fedD_grown (Grown.new _ _ _ _ _ _ _ _) _, ?_⟩
  decide +kernel

/-- The search interval of a line that was crossed before it had enough points ends at the crossing. -/
example : let t := fedD (plain 3) (wavy ++ [(7, 23)])
    t.search = Iv.closedOpen 0 70 ∧ searchOf { t with minPoints := 9 } = Iv.closedOpen 0 (22 / 5) := by decide +kernel
/-! ## An instance of each theorem -/

/-- The line of the first three points of `wavy`. -/
def wavyLine : TLine := fedD (plain 3) (wavy.take 3)

theorem wavyLine_grown : Grown wavyLine := fedD_grown (Grown.new _ _ _ _ _ _ _ _) _

theorem wavyLine_line : wavyLine.line = some ((0, 30), (2, 28)) := by decide +kernel

example : wavyLine.search = searchOf wavyLine := C84_search wavyLine_grown (by decide +kernel)

example : ((4, 26) : XY) ∈ wavy ∧ recent wavyLine (4, 26) = true ∧ touching wavyLine ((0, 30), (2, 28)) (4, 26) = true :=
  C85_tangent (us := wavy) (by decide +kernel)

/-- The point at `2` lies on the line; in its run the point at `1` stands for it. -/
example : ∃ g ∈ runs (together wavyLine ((0, 30), (2, 28))) (latest wavyLine wavy), ((2, 28) : XY) ∈ g ∧
    ∃ q ∈ tangentsOf wavyLine ((0, 30), (2, 28)) (runs (together wavyLine ((0, 30), (2, 28))) (latest wavyLine wavy)),
      q ∈ g ∧ |offset ((0, 30), (2, 28)) q| ≤ |offset ((0, 30), (2, 28)) (2, 28)| :=
  C85_touched (by decide +kernel) (by decide +kernel)

example : ∃ p ∈ wavy, ∃ q ∈ wavy, offset ((0, 30), (2, 28)) p * offset ((0, 30), (2, 28)) q < 0 ∧
    ((38 / 7, 172 / 7) : XY) = meet ((0, 30), (2, 28)) p q ∧
      (offset ((0, 30), (2, 28)) (38 / 7, 172 / 7) = 0 ∨ ((38 / 7, 172 / 7) : XY) = ((p.1 + q.1) / 2, (p.2 + q.2) / 2)) := by
  obtain ⟨p, hp, q, hq, h⟩ := C85_crossing (l := ((0, 30), (2, 28))) (by norm_num)
    (ps := (latest wavyLine wavy).filter fun p => !touching wavyLine ((0, 30), (2, 28)) p) (x := (38 / 7, 172 / 7)) (by decide +kernel)
  have hsub : ∀ p ∈ (latest wavyLine wavy).filter (fun p => !touching wavyLine ((0, 30), (2, 28)) p), p ∈ wavy := by decide +kernel
  exact ⟨p, hsub p hp, q, hsub q hq, h⟩

example : ∃ u b, wavyLine.updatePoi wavy = .ok (u, b) ∧ u.line = wavyLine.line ∧ u.trend = wavyLine.trend ∧ u.search = searchOf u := by
  obtain ⟨u, h1, _, _, _, h2, h3, h4, _⟩ := C85_points_partial wavyLine_grown (by decide +kernel) wavyLine_line (us := wavy) (by decide)
  exact ⟨u, _, h1, h3, h4, h2⟩

end Props
end Curvepy
