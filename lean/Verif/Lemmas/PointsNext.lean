import Verif.Lemmas.PointsIndex

namespace Curvepy
open Spec
variable {V : Type}
namespace Pts

/-- Before the first knot `x_index` is not positive. -/
theorem xIndex_before {s : Pts V} (w : s.Wf) {x : ℚ} (hne : s.points ≠ [])
    (hb : ∀ p ∈ s.points, x < p.1) : ∃ v, s.xIndex x = .ok v ∧ v ≤ 0 := by
  unfold xIndex
  by_cases hu : s.isUniform = true
  · simp only [hu, if_true]
    by_cases h2 : 2 ≤ s.points.length
    · obtain ⟨d, hd⟩ := w.faithful hu
      have hint : s.interval = some d := by rw [w.intv]; exact intervalOf_eq hd h2
      simp only [hint]
      match hpts : s.points, h2 with
      | p0 :: p1 :: ps, _ =>
        rw [hpts] at hd hb
        have hasc := w.asc
        rw [hpts] at hasc
        have e2 := EquallySpaced.index hd (p0 := p0) (k := 1) (p := p1) rfl rfl
        have hlt := hasc.lt (i := 0) (j := 1) (p := p0) (q := p1) rfl rfl (by omega)
        have hdpos : 0 < d := by push_cast at e2; linarith
        simp only [hdpos.ne', if_false]
        exact ⟨_, rfl, div_nonpos_of_nonpos_of_nonneg (by have := hb p0 (by simp); linarith) hdpos.le⟩
    · rw [w.intv, intervalOf_none (by omega)]
      exact ⟨0, rfl, le_rfl⟩
  · simp only [hu, Bool.false_eq_true, if_false]
    have ⟨hb1, hb2⟩ := bisect_spec s.points x w.asc
    have : bisect s.points x = 0 := by
      by_contra h0
      have hpos : 0 < s.points.length := List.length_pos_iff.2 hne
      have := (hb2 0 _ (List.getElem?_eq_getElem hpos)).1 (by omega)
      have h3 := hb _ (List.getElem_mem hpos)
      linarith
    simp only [this, if_true]
    exact ⟨0, rfl, le_rfl⟩

/-- After the last knot `x_index` is at least the last index. -/
theorem xIndex_after {s : Pts V} (w : s.Wf) {x : ℚ} (hne : s.points ≠ [])
    (hb : ∀ p ∈ s.points, p.1 < x) :
    ∃ v, s.xIndex x = .ok v ∧ ((s.points.length : ℚ) - 1) ≤ v := by
  unfold xIndex
  have hpos : 0 < s.points.length := List.length_pos_iff.2 hne
  by_cases hu : s.isUniform = true
  · simp only [hu, if_true]
    by_cases h2 : 2 ≤ s.points.length
    · obtain ⟨d, hd⟩ := w.faithful hu
      have hint : s.interval = some d := by rw [w.intv]; exact intervalOf_eq hd h2
      simp only [hint]
      have hl := getLast_mem_idx hne
      match hpts : s.points, h2 with
      | p0 :: p1 :: ps, _ =>
        simp only [hpts] at hd hb hl
        have hasc := w.asc
        rw [hpts] at hasc
        have e2 := EquallySpaced.index hd (p0 := p0) (k := 1) (p := p1) rfl rfl
        have e3 := EquallySpaced.index hd (p0 := p0) rfl hl
        have hlt := hasc.lt (i := 0) (j := 1) (p := p0) (q := p1) rfl rfl (by omega)
        have hdpos : 0 < d := by push_cast at e2; linarith
        simp only [hdpos.ne', if_false]
        refine ⟨_, rfl, ?_⟩
        rw [le_div_iff₀ hdpos]
        have h4 := hb _ (List.getLast_mem (l := p0 :: p1 :: ps) (by simp))
        rw [e3] at h4
        simp only [List.length_cons, Nat.add_sub_cancel] at h4 ⊢
        push_cast at h4 ⊢
        linarith
    · rw [w.intv, intervalOf_none (by omega)]
      refine ⟨0, rfl, ?_⟩
      have : s.points.length = 1 := by omega
      rw [this]; norm_num
  · simp only [hu, Bool.false_eq_true, if_false]
    have ⟨hb1, hb2⟩ := bisect_spec s.points x w.asc
    have : bisect s.points x = s.points.length := by
      by_contra h0
      have hlt : s.points.length - 1 < s.points.length := by omega
      have := (hb2 (s.points.length - 1) _ (List.getElem?_eq_getElem hlt)).2 (hb _ (List.getElem_mem hlt))
      omega
    rw [this, if_neg (by omega), if_pos le_rfl]
    exact ⟨_, rfl, le_rfl⟩

theorem firstFrom_eq_some {pts : List (Pt V)} (h : Ascending pts) {k : ℕ} {p : Pt V} {a : ℚ}
    (hk : pts[k]? = some p) (ha : a ≤ p.1) (hl : ∀ i q, i < k → pts[i]? = some q → q.1 < a) :
    firstFrom pts a = some p.1 := by
  unfold firstFrom
  obtain ⟨hk', hkk⟩ := List.getElem?_eq_some_iff.1 hk
  have : pts.find? (fun p => decide (a ≤ p.1)) = some p := by
    rw [List.find?_eq_some_iff_getElem]
    refine ⟨by simpa using ha, k, hk', hkk, ?_⟩
    intro j hj
    have := hl j _ hj (List.getElem?_eq_getElem (by omega))
    simpa using this
  rw [this]; rfl

theorem firstFrom_eq_none {pts : List (Pt V)} {a : ℚ} (h : ∀ p ∈ pts, p.1 < a) :
    firstFrom pts a = none := by
  unfold firstFrom
  rw [List.find?_eq_none.2 (by intro p hp; simpa using h p hp)]
  rfl

theorem lastUpTo_eq_some {pts : List (Pt V)} (h : Ascending pts) {k : ℕ} {p : Pt V} {a : ℚ}
    (hk : pts[k]? = some p) (ha : p.1 ≤ a) (hl : ∀ i q, k < i → pts[i]? = some q → a < q.1) :
    lastUpTo pts a = some p.1 := by
  unfold lastUpTo
  obtain ⟨hk', hkk⟩ := List.getElem?_eq_some_iff.1 hk
  have : pts.reverse.find? (fun p => decide (p.1 ≤ a)) = some p := by
    rw [List.find?_eq_some_iff_getElem]
    refine ⟨by simpa using ha, pts.length - 1 - k, by simp; omega, ?_, ?_⟩
    · rw [List.getElem_reverse]
      rw [← hkk]
      congr 1
      omega
    · intro j hj
      rw [List.getElem_reverse]
      have := hl (pts.length - 1 - j) _ (by omega) (List.getElem?_eq_getElem (by omega))
      simpa using this
  rw [this]; rfl

theorem lastUpTo_eq_none {pts : List (Pt V)} {a : ℚ} (h : ∀ p ∈ pts, a < p.1) :
    lastUpTo pts a = none := by
  unfold lastUpTo
  rw [List.find?_eq_none.2 (by intro p hp; simpa using h p (by simpa using hp))]
  rfl

theorem contains_noStart (pts : List (Pt V)) (x : ℚ) :
    (getDomain pts).contains (.fin x) (enforceStart := false) = true ↔
      ((getDomain pts).isEmpty = false ∧ ∃ q, pts[pts.length - 1]? = some q ∧ x ≤ q.1) := by
  cases pts with
  | nil => simp [getDomain, Iv.contains]
  | cons p ps =>
    have h := getLast_mem_idx (pts := p :: ps) (by simp)
    simp only [Iv.contains, Bool.and_eq_true, Bool.not_eq_true', Bool.not_false, Bool.true_or,
      and_true, Bool.not_true, Bool.false_or]
    refine and_congr_right fun _ => ?_
    simp only [h, Option.some.injEq, exists_eq_left']
    simp [getDomain, Iv.closed, Iv.leHi]

theorem contains_noEnd (pts : List (Pt V)) (x : ℚ) :
    (getDomain pts).contains (.fin x) (enforceEnd := false) = true ↔
      ((getDomain pts).isEmpty = false ∧ ∃ q, pts[0]? = some q ∧ q.1 ≤ x) := by
  cases pts with
  | nil => simp [getDomain, Iv.contains]
  | cons p ps =>
    simp only [Iv.contains, Bool.and_eq_true, Bool.not_eq_true', Bool.not_false, Bool.true_or,
      and_true, Bool.not_true, Bool.false_or]
    refine and_congr_right fun _ => ?_
    simp [getDomain, Iv.closed, Iv.geLo]

theorem getDomain_isEmpty {pts : List (Pt V)} (h : Ascending pts) :
    (getDomain pts).isEmpty = true ↔ pts = [] := by
  cases pts with
  | nil => simp [getDomain]
  | cons p ps =>
    have h1 := h.le (i := 0) (j := (p :: ps).length - 1) (p := p) rfl (getLast_mem_idx (by simp)) (by omega)
    simp only [getDomain, Iv.isEmpty_closed, decide_eq_true_eq]
    simp
    exact h1

theorem getDomain_not_isEmpty {pts : List (Pt V)} (h : Ascending pts) (hne : pts ≠ []) :
    (getDomain pts).isEmpty = false := by
  by_contra h2
  exact hne ((getDomain_isEmpty h).1 (by simpa using h2))

theorem after_iff {pts : List (Pt V)} (h : Ascending pts) (hne : pts ≠ []) (x : ℚ) :
    (∀ p ∈ pts, p.1 < x) ↔ ¬ ∃ q, pts[pts.length - 1]? = some q ∧ x ≤ q.1 := by
  have hl := getLast_mem_idx hne
  constructor
  · rintro ha ⟨q, hq, hx⟩
    have := ha q (List.mem_of_getElem? hq); linarith
  · intro hn p hp
    obtain ⟨i, hi⟩ := List.getElem?_of_mem hp
    have := (List.getElem?_eq_some_iff.1 hi).1
    have h1 := h.le hi hl (by omega)
    by_contra hx
    exact hn ⟨_, hl, by linarith⟩

theorem before_iff {pts : List (Pt V)} (h : Ascending pts) (hne : pts ≠ []) (x : ℚ) :
    (∀ p ∈ pts, x < p.1) ↔ ¬ ∃ q, pts[0]? = some q ∧ q.1 ≤ x := by
  have hpos : 0 < pts.length := List.length_pos_iff.2 hne
  constructor
  · rintro ha ⟨q, hq, hx⟩
    have := ha q (List.mem_of_getElem? hq); linarith
  · intro hn p hp
    obtain ⟨i, hi⟩ := List.getElem?_of_mem hp
    have h1 := h.le (List.getElem?_eq_getElem hpos) hi (by omega)
    by_contra hx
    exact hn ⟨_, List.getElem?_eq_getElem hpos, by linarith⟩

theorem ceil_step {s : Pts V} (w : s.Wf) (hne : s.points ≠ []) {a : ℚ}
    (ha : ∃ q, s.points[s.points.length - 1]? = some q ∧ a ≤ q.1) :
    ∃ (v : ℚ) (k : ℕ) (p : Pt V), s.xIndex a = .ok v ∧ max 0 ⌈v⌉ = (k : ℤ) ∧ s.points[k]? = some p ∧
      a ≤ p.1 ∧ ∀ i q, i < k → s.points[i]? = some q → q.1 < a := by
  have hpos : 0 < s.points.length := List.length_pos_iff.2 hne
  cases locate s.points w.asc a with
  | before hb =>
    obtain ⟨v, hv, hv0⟩ := xIndex_before w hne hb
    refine ⟨v, 0, _, hv, ?_, List.getElem?_eq_getElem hpos, (hb _ (List.getElem_mem hpos)).le, by omega⟩
    rw [Nat.cast_zero, max_eq_left]
    exact Int.ceil_le.2 (by simpa using hv0)
  | after h => exact absurd ha ((after_iff w.asc hne a).1 h)
  | knot k p hk hx =>
    refine ⟨k, k, p, xIndex_knot w hk hx, by simp, hk, hx.le, ?_⟩
    intro i q hi hq
    rw [hx]; exact w.asc.lt hq hk hi
  | gap k p q hp hq hpx hxq =>
    have ⟨h0, h1⟩ := gap_frac hpx hxq
    refine ⟨_, k + 1, q, xIndex_gap w hp hq hpx hxq, ?_, hq, hxq.le, ?_⟩
    · rw [ceil_nat_add h0 h1]
      exact max_eq_right (by positivity)
    · intro i r hi hr
      exact lt_of_le_of_lt (w.asc.le hr hp (by omega)) hpx

theorem floor_step {s : Pts V} (w : s.Wf) (hne : s.points ≠ []) {a : ℚ}
    (ha : ∃ q, s.points[0]? = some q ∧ q.1 ≤ a) :
    ∃ (v : ℚ) (k : ℕ) (p : Pt V), s.xIndex a = .ok v ∧ min ((s.points.length : ℤ) - 1) ⌊v⌋ = (k : ℤ) ∧
      s.points[k]? = some p ∧
      p.1 ≤ a ∧ ∀ i q, k < i → s.points[i]? = some q → a < q.1 := by
  have hpos : 0 < s.points.length := List.length_pos_iff.2 hne
  cases locate s.points w.asc a with
  | before h => exact absurd ha ((before_iff w.asc hne a).1 h)
  | after hb =>
    obtain ⟨v, hv, hv0⟩ := xIndex_after w hne hb
    refine ⟨v, s.points.length - 1, _, hv, ?_, List.getElem?_eq_getElem (by omega),
      (hb _ (List.getElem_mem _)).le, ?_⟩
    · rw [min_eq_left]
      · omega
      · refine Int.le_floor.2 ?_
        push_cast
        exact hv0
    · intro i q hi hq
      have := (List.getElem?_eq_some_iff.1 hq).1
      omega
  | knot k p hk hx =>
    have := (List.getElem?_eq_some_iff.1 hk).1
    refine ⟨k, k, p, xIndex_knot w hk hx, ?_, hk, hx.ge, ?_⟩
    · rw [Int.floor_natCast]; exact min_eq_right (by omega)
    · intro i q hi hq
      rw [hx]; exact w.asc.lt hk hq hi
  | gap k p q hp hq hpx hxq =>
    have ⟨h0, h1⟩ := gap_frac hpx hxq
    have := (List.getElem?_eq_some_iff.1 hq).1
    refine ⟨_, k, p, xIndex_gap w hp hq hpx hxq, ?_, hp, hpx.le, ?_⟩
    · rw [floor_nat_add h0.le h1]
      exact min_eq_right (by omega)
    · intro i r hi hr
      exact lt_of_lt_of_le hxq (w.asc.le hq hr (by omega))

/-- `x_next` from a finite position is the first knot at least `min_step` ahead. -/
theorem xNext_fin {s : Pts V} (w : s.Wf) {ms : Option ℚ} {m : ℚ}
    (hm : resolveMinStep s.minStep ms = some m) (x : ℚ) :
    s.xNext (.fin x) ms = .ok ((firstFrom s.points (x + m)).map .fin) := by
  unfold xNext
  rw [w.domVal, hm]
  by_cases hne : s.points = []
  · simp [hne, getDomain, firstFrom]
  · rw [getDomain_not_isEmpty w.asc hne]
    simp only [Bool.false_eq_true, if_false, Ext.addQ_fin]
    by_cases hc : (getDomain s.points).contains (.fin (x + m)) (enforceStart := false) = true
    · obtain ⟨_, hq⟩ := (contains_noStart _ _).1 hc
      obtain ⟨v, k, p, hv, hk, hp, hle, hlt⟩ := ceil_step w hne hq
      rw [firstFrom_eq_some w.asc hp hle hlt]
      simp only [hc, Bool.not_true, Bool.false_eq_true, if_false, hv, bind, Except.bind, hk,
        pyGet_nat hp, pure, Except.pure, Option.map_some]
    · have hn : ¬ ∃ q, s.points[s.points.length - 1]? = some q ∧ x + m ≤ q.1 := by
        intro hq
        exact hc ((contains_noStart _ _).2 ⟨getDomain_not_isEmpty w.asc hne, hq⟩)
      rw [firstFrom_eq_none ((after_iff w.asc hne _).2 hn)]
      have hc' : (getDomain s.points).contains (.fin (x + m)) (enforceStart := false) = false := by
        simpa using hc
      simp [hc']

/-- `x_previous` from a finite position is the last knot at least `min_step` behind. -/
theorem xPrevious_fin {s : Pts V} (w : s.Wf) {ms : Option ℚ} {m : ℚ}
    (hm : resolveMinStep s.minStep ms = some m) (x : ℚ) :
    s.xPrevious (.fin x) ms = .ok ((lastUpTo s.points (x - m)).map .fin) := by
  unfold xPrevious
  rw [w.domVal, hm]
  by_cases hne : s.points = []
  · simp [hne, getDomain, lastUpTo]
  · rw [getDomain_not_isEmpty w.asc hne]
    simp only [Bool.false_eq_true, if_false, Ext.addQ_fin, ← sub_eq_add_neg]
    by_cases hc : (getDomain s.points).contains (.fin (x - m)) (enforceEnd := false) = true
    · obtain ⟨_, hq⟩ := (contains_noEnd _ _).1 hc
      obtain ⟨v, k, p, hv, hk, hp, hle, hlt⟩ := floor_step w hne hq
      rw [lastUpTo_eq_some w.asc hp hle hlt]
      simp only [hc, Bool.not_true, Bool.false_eq_true, if_false, hv, bind, Except.bind, hk,
        pyGet_nat hp, pure, Except.pure, Option.map_some]
    · have hn : ¬ ∃ q, s.points[0]? = some q ∧ q.1 ≤ x - m := by
        intro hq
        exact hc ((contains_noEnd _ _).2 ⟨getDomain_not_isEmpty w.asc hne, hq⟩)
      rw [lastUpTo_eq_none ((before_iff w.asc hne _).2 hn)]
      have hc' : (getDomain s.points).contains (.fin (x - m)) (enforceEnd := false) = false := by
        simpa using hc
      simp [hc']

/-- From `-inf` the next knot is the first one, from `inf` there is none. -/
theorem xNext_inf {s : Pts V} (w : s.Wf) {ms : Option ℚ} {m : ℚ}
    (hm : resolveMinStep s.minStep ms = some m) :
    s.xNext .ninf ms = .ok (s.points.head?.map fun p => .fin p.1) ∧ s.xNext .pinf ms = .ok none := by
  unfold xNext
  rw [w.domVal, hm]
  cases hp : s.points with
  | nil => simp [getDomain]
  | cons p ps =>
    have hne : (getDomain (p :: ps)).isEmpty = false := by
      rw [← hp]; exact getDomain_not_isEmpty w.asc (by simp [hp])
    rw [hne]
    have h1 : (getDomain (p :: ps)).contains (Ext.ninf.addQ m) (enforceStart := false) = true := by
      simp [Iv.contains, hne]; simp [Ext.addQ, Iv.leHi, getDomain, Iv.closed]
    have h2 : (getDomain (p :: ps)).contains (Ext.pinf.addQ m) (enforceStart := false) = false := by
      simp [Iv.contains, hne]; simp [Ext.addQ, Iv.leHi, getDomain, Iv.closed]
    simp only [h1, h2]
    simp [getDomain, Iv.closed]

/-- From `inf` the previous knot is the last one, from `-inf` there is none. -/
theorem xPrevious_inf {s : Pts V} (w : s.Wf) {ms : Option ℚ} {m : ℚ}
    (hm : resolveMinStep s.minStep ms = some m) :
    s.xPrevious .pinf ms = .ok (s.points.getLast?.map fun p => .fin p.1) ∧
      s.xPrevious .ninf ms = .ok none := by
  unfold xPrevious
  rw [w.domVal, hm]
  cases hp : s.points with
  | nil => simp [getDomain]
  | cons p ps =>
    have hne : (getDomain (p :: ps)).isEmpty = false := by
      rw [← hp]; exact getDomain_not_isEmpty w.asc (by simp [hp])
    rw [hne]
    have h1 : (getDomain (p :: ps)).contains (Ext.ninf.addQ (-m)) (enforceEnd := false) = false := by
      simp [Iv.contains, hne]; simp [Ext.addQ, Iv.geLo, getDomain, Iv.closed]
    have h2 : (getDomain (p :: ps)).contains (Ext.pinf.addQ (-m)) (enforceEnd := false) = true := by
      simp [Iv.contains, hne]; simp [Ext.addQ, Iv.geLo, getDomain, Iv.closed]
    simp only [h1, h2]
    simp [getDomain, Iv.closed, List.getLast?_eq_some_getLast]

end Pts
end Curvepy
