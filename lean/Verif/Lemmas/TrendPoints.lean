import Verif.Spec.TrendPoints
import Verif.Props.TrendHull

/-!
# Lemmas about the points of interest
-/

namespace Curvepy
namespace Props
open Spec Trend

variable {t : TLine} {l : Chord}

theorem onTrend_touching (hk : Kept t) (hl : t.line = some l) (p : XY) : t.onTrend p = .ok (touching t l p) := by
  by_cases hs : t.search.contains (.fin p.1) = true
  · rw [onTrend_eq hk hl hs]
    simp only [touching, hs, share, Bool.true_and]
    rfl
  · have hs' : t.search.contains (.fin p.1) = false := by simpa using hs
    simp [TLine.onTrend, touching, hs']

theorem y_offset (hk : Kept t) (hl : t.line = some l) (p : XY) :
    t.y p.1 = .ok (p.2 - offset l p) := by
  have hasc := hk.asc l hl
  obtain ⟨⟨x0, a⟩, ⟨x1, b⟩⟩ := l
  simp only [TLine.y, hl, need, bind, Except.bind, lineY_mean hasc, offset, share]
  congr 1
  ring

/-! ## Groups -/

theorem runs_ne {r : XY → XY → Bool} : ∀ {ps : List XY} {g : List XY}, g ∈ runs r ps → g ≠ [] := by
  intro ps
  induction ps with
  | nil => intro g hg; simp [runs] at hg
  | cons p ps ih =>
    intro g hg
    rw [runs] at hg
    split at hg
    · rename_i q g' gs heq
      rw [heq] at ih
      split_ifs at hg <;> simp only [List.mem_cons] at hg
      · rcases hg with rfl | hg
        · simp
        · exact ih (by simp [hg])
      · rcases hg with rfl | rfl | hg
        · simp
        · simp
        · exact ih (by simp [hg])
    · simp only [List.mem_cons] at hg
      rcases hg with rfl | hg
      · simp
      · exact ih hg

/-- All points of a stretch touch the line, or none. -/
theorem runs_touching : ∀ {ps : List XY} {g : List XY}, g ∈ runs (together t l) ps →
    (∀ p ∈ g, touching t l p = true) ∨ (∀ p ∈ g, touching t l p = false) := by
  intro ps
  induction ps with
  | nil => intro g hg; simp [runs] at hg
  | cons p ps ih =>
    intro g hg
    have one : (∀ q ∈ [p], touching t l q = true) ∨ (∀ q ∈ [p], touching t l q = false) := by
      cases h : touching t l p <;> simp [h]
    rw [runs] at hg
    split at hg
    · rename_i q g' gs heq
      rw [heq] at ih
      split_ifs at hg with hr <;> simp only [List.mem_cons] at hg
      · rcases hg with rfl | hg
        · unfold together at hr
          rcases ih (by simp : q :: g' ∈ (q :: g') :: gs) with h | h
          · have hq := h q (by simp)
            simp only [hq] at hr
            left
            intro z hz
            rcases List.mem_cons.1 hz with rfl | hz
            · simpa using hr
            · exact h z hz
          · have hq := h q (by simp)
            simp only [hq] at hr
            right
            intro z hz
            rcases List.mem_cons.1 hz with rfl | hz
            · simp at hr; exact hr.1
            · exact h z hz
        · exact ih (by simp [hg])
      · rcases hg with rfl | rfl | hg
        · exact one
        · exact ih (by simp)
        · exact ih (by simp [hg])
    · simp only [List.mem_cons] at hg
      rcases hg with rfl | hg
      · exact one
      · exact ih hg

/-! ## The closest point -/

theorem closest_fold (hk : Kept t) (hl : t.line = some l) : ∀ (ps : List XY) (c : XY),
    ps.foldlM (fun c p => do
      let y ← t.y p.1
      let d := |y - p.2|
      match c with
      | none => pure (some (p, d))
      | some (q, e) => if d < e then pure (some (p, d)) else pure (some (q, e))) (some (c, |offset l c|)) =
    .ok ((nearest l (c :: ps)).map fun q => (q, |offset l q|)) := by
  intro ps
  induction ps with
  | nil => intro c; rfl
  | cons p ps ih =>
    intro c
    rw [List.foldlM_cons]
    have hd : |p.2 - offset l p - p.2| = |offset l p| := by rw [show p.2 - offset l p - p.2 = -offset l p by ring, abs_neg]
    simp only [y_offset hk hl, bind, Except.bind, hd, pure, Except.pure] at ih ⊢
    have hne : ∃ q, nearest l (p :: ps) = some q := by
      rw [nearest]
      split
      · exact ⟨_, rfl⟩
      · split_ifs <;> exact ⟨_, rfl⟩
    by_cases h : |offset l p| < |offset l c|
    · simp only [if_pos h]
      rw [ih p]
      obtain ⟨q, hq⟩ := hne
      rw [nearest.eq_def l (c :: p :: ps)]
      simp only [hq]
      have : |offset l q| ≤ |offset l p| := by
        rw [nearest] at hq
        split at hq
        · simp at hq; rw [hq]
        · rename_i z hz
          split_ifs at hq with h2
          · cases hq; exact h2.le
          · cases hq; exact le_rfl
      simp only [if_pos (this.trans_lt h)]
    · simp only [if_neg h]
      rw [ih c]
      rw [nearest, nearest.eq_def l (c :: p :: ps)]
      simp only
      rw [nearest.eq_def l (p :: ps)]
      simp only
      cases hq : nearest l ps with
      | none => simp [h]
      | some q =>
        by_cases h2 : |offset l q| < |offset l p|
        · simp [h2]
        · simp only [if_neg h2, if_neg h]
          rw [if_neg (by push Not at h h2 ⊢; exact h.trans h2)]

theorem closest_eq (hk : Kept t) (hl : t.line = some l) (ps : List XY) :
    t.closest ps = .ok ((nearest l ps).map fun q => (q, |offset l q|)) := by
  cases ps with
  | nil => rfl
  | cons p ps =>
    have := closest_fold hk hl ps p
    unfold TLine.closest
    rw [List.foldlM_cons]
    have hd : |p.2 - offset l p - p.2| = |offset l p| := by rw [show p.2 - offset l p - p.2 = -offset l p by ring, abs_neg]
    simp only [y_offset hk hl, bind, Except.bind, hd, pure, Except.pure] at this ⊢
    exact this

/-! ## Crossings -/

theorem intersection_meet {x0 a x1 b px py qx qy op oq : ℚ} (hx : x1 - x0 ≠ 0) (hne : op - oq ≠ 0)
    (e1 : op * (x1 - x0) = (py - a) * (x1 - x0) - (px - x0) * (b - a))
    (e2 : oq * (x1 - x0) = (qy - a) * (x1 - x0) - (qx - x0) * (b - a)) :
    lineIntersection ((x0, a), (x1, b)) ((qx, qy), (px, py)) =
      some (px + op / (op - oq) * (qx - px), py + op / (op - oq) * (qy - py)) := by
  have hdiv : det (x0 - x1, qx - px) (a - b, qy - py) = (op - oq) * (x1 - x0) := by
    simp only [det]; linear_combination e2 - e1
  have hdiv0 : (op - oq) * (x1 - x0) ≠ 0 := mul_ne_zero hne hx
  have h1 : ∀ z w : ℚ, (z + op / (op - oq) * w) * ((op - oq) * (x1 - x0)) =
      z * ((op - oq) * (x1 - x0)) + op * (x1 - x0) * w := by
    intro z w; field_simp
  unfold lineIntersection
  simp only [hdiv]
  rw [if_neg hdiv0]
  congr 2
  · rw [div_eq_iff hdiv0, h1]
    simp only [det]
    linear_combination (-qx) * e1 + px * e2
  · rw [div_eq_iff hdiv0, h1]
    simp only [det]
    linear_combination (-qy) * e1 + py * e2

theorem crossing_meet (hl : l.1.1 < l.2.1) {p q : XY} (h : offset l p * offset l q < 0) :
    TLine.crossing l q p = meet l p q := by
  have hx : l.2.1 - l.1.1 ≠ 0 := (sub_pos.2 hl).ne'
  have hne : offset l p - offset l q ≠ 0 := by
    intro h0
    have : offset l p = offset l q := by linarith
    rw [this] at h
    nlinarith [mul_self_nonneg (offset l q)]
  have e : ∀ p : XY, offset l p * (l.2.1 - l.1.1) = (p.2 - l.1.2) * (l.2.1 - l.1.1) - (p.1 - l.1.1) * (l.2.2 - l.1.2) := by
    intro p
    simp only [offset, share]
    field_simp
    ring
  rw [TLine.crossing, intersection_meet (qx := q.1) (qy := q.2) (px := p.1) (py := p.2) hx hne (e p) (e q)]
  simp only [meet, averageOf2, add_comm q.1, add_comm q.2]

/-! ## The loop -/

/-- The variables of the loop after the points `ps`. -/
structure Passed (t : TLine) (l : Chord) (I T : List XY) (ps : List XY) (s : TLine.Poi) : Prop where
  inter : s.intersections = I ++ crossings l (ps.filter fun p => !touching t l p)
  found : s.found = decide (crossings l (ps.filter fun p => !touching t l p) ≠ [])
  nophase : (ps.filter fun p => !touching t l p) = [] → s.previousPhase = 0
  phase : ∀ q rest, (ps.filter fun p => !touching t l p) = q :: rest → s.previousPhase = offset l q ∧ s.phasePoint = q
  atStart : runs (together t l) ps = [] → s.on = [] ∧ s.extrema = none ∧ s.tangents = T ∧ s.newExtremas = []
  atRun : ∀ g gs, runs (together t l) ps = g :: gs → s.tangents = T ++ tangentsOf t l gs ∧
    s.newExtremas = extremasOf t l gs ∧
    if g.any (touching t l) then s.on = g ∧ s.extrema = none
    else s.on = [] ∧ s.extrema = farthest l g ∧ ∀ e, s.extrema = some e → s.extremaDist = height l e

theorem insertIdx_length_append {α : Type} (a b : List α) (x : α) : (a ++ b).insertIdx a.length x = a ++ x :: b := by
  induction a with
  | nil => rfl
  | cons c a ih => simp [ih]

theorem runs_nil {r : XY → XY → Bool} {ps : List XY} : runs r ps = [] ↔ ps = [] := by
  cases ps with
  | nil => simp [runs]
  | cons p ps =>
    simp only [runs, reduceCtorEq, iff_false]
    split
    · split_ifs <;> simp
    · simp

/-- The first point of the first stretch is the first point. -/
theorem runs_head {r : XY → XY → Bool} {ps : List XY} {g : List XY} {gs : List (List XY)} (h : runs r ps = g :: gs) :
    g.head? = ps.head? := by
  cases ps with
  | nil => simp [runs] at h
  | cons p ps =>
    rw [runs] at h
    split at h
    · split_ifs at h <;> · simp only [List.cons.injEq] at h; rw [← h.1]; rfl
    · simp only [List.cons.injEq] at h; rw [← h.1]; rfl

theorem runs_cons_cons {r : XY → XY → Bool} {ps : List XY} {q : XY} {g : List XY} {gs : List (List XY)}
    (h : runs r ps = (q :: g) :: gs) (p : XY) :
    runs r (p :: ps) = if r p q then (p :: q :: g) :: gs else [p] :: (q :: g) :: gs := by
  rw [runs, h]

theorem any_of_mem {g : List XY} {ps : List XY} (hg : g ∈ runs (together t l) ps) {q : XY} (hq : q ∈ g) :
    g.any (touching t l) = touching t l q := by
  rcases runs_touching hg with h | h
  · rw [h q hq, List.any_eq_true]; exact ⟨q, hq, h q hq⟩
  · rw [h q hq, List.any_eq_false]; intro z hz; simp [h z hz]

theorem pushExtrema_eq (s : TLine.Poi) : TLine.pushExtrema s =
    { s with newExtremas := s.extrema.toList ++ s.newExtremas, extrema := none } := by
  unfold TLine.pushExtrema
  split
  · rename_i e h; simp [h]
  · rename_i h; cases s; simp_all

theorem nearest_some {p : XY} {ps : List XY} : ∃ q, nearest l (p :: ps) = some q := by
  rw [nearest]
  split
  · exact ⟨_, rfl⟩
  · split_ifs <;> exact ⟨_, rfl⟩

theorem flushIf_eq (hk : Kept t) (hl : t.line = some l) (ti : ℕ) (s : TLine.Poi) :
    TLine.flushIf t ti s = .ok { s with tangents := match nearest l s.on with
      | none => s.tangents
      | some q => s.tangents.insertIdx ti q } := by
  unfold TLine.flushIf TLine.flush
  rw [closest_eq hk hl]
  cases hs : s.on with
  | nil =>
    cases s
    simp only at hs
    subst hs
    rfl
  | cons p ps =>
    obtain ⟨q, hq⟩ := nearest_some (l := l) (p := p) (ps := ps)
    simp only [List.length_cons, ne_eq, Nat.add_eq_zero_iff, one_ne_zero, and_false, not_false_eq_true, if_true, bind,
      Except.bind, hq, Option.map_some, pure, Except.pure]

theorem farthest_cons (l : Chord) (p : XY) (ps : List XY) : farthest l (p :: ps) =
    match farthest l ps with
    | none => some p
    | some q => if height l q < height l p then some p else some q := rfl

theorem farthest_some {p : XY} {ps : List XY} : ∃ q, farthest l (p :: ps) = some q := by
  rw [farthest]
  split
  · exact ⟨_, rfl⟩
  · split_ifs <;> exact ⟨_, rfl⟩

theorem tangentsOf_cons (g : List XY) (gs : List (List XY)) : tangentsOf t l (g :: gs) =
    (if g.any (touching t l) then (nearest l g).toList else []) ++ tangentsOf t l gs := by
  unfold tangentsOf
  rw [List.filter_cons]
  split_ifs
  · rw [List.filterMap_cons]; cases nearest l g <;> rfl
  · rfl

theorem extremasOf_cons (g : List XY) (gs : List (List XY)) : extremasOf t l (g :: gs) =
    (if g.any (touching t l) then [] else (farthest l g).toList) ++ extremasOf t l gs := by
  unfold extremasOf
  rw [List.filter_cons]
  by_cases h : g.any (touching t l) = true
  · simp [h]
  · simp only [h, Bool.not_false, if_true, Bool.false_eq_true, if_false]
    rw [List.filterMap_cons]; cases farthest l g <;> rfl

theorem crossAt_eq (hl : t.line = some l) (ii : ℕ) (s : TLine.Poi) (p : XY) (phase : ℚ) :
    TLine.crossAt t ii s p phase = .ok (if s.previousPhase ≠ 0 ∧ phase * s.previousPhase < 0 then
      TLine.pushExtrema { s with intersections := s.intersections.insertIdx ii (TLine.crossing l s.phasePoint p),
                                 found := true } else s) := by
  unfold TLine.crossAt
  split_ifs <;> simp [hl, need, bind, Except.bind, pure, Except.pure]

theorem distAt_eq (s : TLine.Poi) (p : XY) : TLine.distAt s p (offset l p) =
    { s with extrema := if s.extrema.isNone ∨ height l p > s.extremaDist then some p else s.extrema,
             extremaDist := if s.extrema.isNone ∨ height l p > s.extremaDist then height l p
               else s.extremaDist } := by
  have : TLine.distAt s p (offset l p) = if s.extrema.isNone ∨ height l p > s.extremaDist then
    { s with extrema := some p, extremaDist := height l p } else s := rfl
  rw [this]
  split_ifs <;> rfl

theorem Passed.step (hk : Kept t) (hl : t.line = some l) {I T ps : List XY} {s : TLine.Poi} (h : Passed t l I T ps s)
    (p : XY) : ∃ s', TLine.poiAt t I.length T.length s p = .ok s' ∧ Passed t l I T (p :: ps) s' := by
  unfold TLine.poiAt
  rw [onTrend_touching hk hl]
  cases ht : touching t l p with
  | true =>
    refine ⟨_, rfl, ?_⟩
    rw [pushExtrema_eq]
    have hf : (p :: ps).filter (fun p => !touching t l p) = ps.filter fun p => !touching t l p := by
      rw [List.filter_cons]; simp [ht]
    refine ⟨?_, ?_, ?_, ?_, ?_, ?_⟩
    · rw [hf]; exact h.inter
    · rw [hf]; exact h.found
    · rw [hf]; exact h.nophase
    · rw [hf]; exact h.phase
    · intro h0; simp [runs_nil] at h0
    · intro g gs hg
      cases hr : runs (together t l) ps with
      | nil =>
        obtain ⟨h1, h2, h3, h4⟩ := h.atStart hr
        rw [runs, hr] at hg
        simp only [List.cons.injEq] at hg
        obtain ⟨rfl, rfl⟩ := hg
        simp [h1, h2, h3, h4, ht, tangentsOf, extremasOf]
      | cons g' gs' =>
        obtain ⟨q, g', rfl⟩ := List.exists_cons_of_ne_nil (runs_ne (by rw [hr]; simp : g' ∈ _))
        obtain ⟨h1, h2, h3⟩ := h.atRun _ _ hr
        rw [any_of_mem (by rw [hr]; simp : (q :: g') ∈ _) (by simp : q ∈ q :: g')] at h3
        rw [runs_cons_cons hr] at hg
        cases hq : touching t l q with
        | true =>
          simp only [hq, if_true] at h3
          simp only [together, ht, hq, Bool.and_self, Bool.true_or, if_true, List.cons.injEq] at hg
          obtain ⟨rfl, rfl⟩ := hg
          simp [h1, h2, h3.1, h3.2, ht]
        | false =>
          simp only [hq, Bool.false_eq_true, if_false] at h3
          simp only [together, ht, hq, Bool.and_false, Bool.not_true, Bool.false_and, Bool.or_self, Bool.false_eq_true,
            if_false, List.cons.injEq] at hg
          obtain ⟨rfl, rfl⟩ := hg
          rw [tangentsOf_cons, extremasOf_cons,
            any_of_mem (by rw [hr]; simp : (q :: g') ∈ runs (together t l) ps) (by simp : q ∈ q :: g')]
          simp [h1, h2, h3.1, h3.2.1, ht, hq]
  | false =>
    have hf : (p :: ps).filter (fun p => !touching t l p) = p :: ps.filter fun p => !touching t l p := by
      rw [List.filter_cons]; simp [ht]
    simp only [bind, Except.bind, Bool.false_eq_true, if_false, flushIf_eq hk hl, y_offset hk hl, sub_sub_cancel,
      crossAt_eq hl, pure, Except.pure]
    -- the tangents so far
    have htan : (match nearest l s.on with | none => s.tangents | some q => s.tangents.insertIdx T.length q) =
        T ++ tangentsOf t l (runs (together t l) ps) := by
      cases hr : runs (together t l) ps with
      | nil =>
        obtain ⟨h1, h2, h3, h4⟩ := h.atStart hr
        simp [h1, h3, nearest, tangentsOf]
      | cons g gs =>
        obtain ⟨h1, h2, h3⟩ := h.atRun _ _ hr
        rw [tangentsOf_cons]
        split_ifs at h3 ⊢ with ha
        · rw [h3.1, h1]
          obtain ⟨q, g', rfl⟩ := List.exists_cons_of_ne_nil (runs_ne (by rw [hr]; simp : g ∈ _))
          obtain ⟨z, hz⟩ := nearest_some (l := l) (p := q) (ps := g')
          simp only [hz, insertIdx_length_append]
          simp
        · rw [h3.1, h1]; simp [nearest]
    rw [htan]
    set F := ps.filter fun p => !touching t l p with hF
    by_cases hc : s.previousPhase ≠ 0 ∧ offset l p * s.previousPhase < 0
    · -- a crossing
      obtain ⟨q, rest, hq⟩ : ∃ q rest, F = q :: rest := by
        cases hF' : F with
        | nil => exact absurd (h.nophase hF') hc.1
        | cons q rest => exact ⟨q, rest, rfl⟩
      obtain ⟨hph, hpt⟩ := h.phase q rest hq
      rw [hph] at hc
      have hcr : crossings l (p :: F) = meet l p q :: crossings l F := by
        rw [hq, crossings, if_pos hc.2]; rfl
      simp only [if_pos (show s.previousPhase ≠ 0 ∧ offset l p * s.previousPhase < 0 by rw [hph]; exact hc),
        pushExtrema_eq, distAt_eq, Option.isNone_none, true_or, if_true]
      refine ⟨_, rfl, ?_⟩
      refine ⟨?_, ?_, ?_, ?_, ?_, ?_⟩
      · rw [hf, hcr, h.inter, insertIdx_length_append, hpt, crossing_meet (hk.asc l hl) hc.2]
      · rw [hf, hcr]; simp
      · rw [hf]; simp
      · intro z rest' hz
        rw [hf] at hz
        simp only [List.cons.injEq] at hz
        rw [← hz.1]
        exact ⟨rfl, rfl⟩
      · intro h0; simp [runs_nil] at h0
      · intro g gs hg
        cases hr : runs (together t l) ps with
        | nil =>
          rw [runs_nil] at hr
          rw [hF, hr] at hq
          simp at hq
        | cons g' gs' =>
          obtain ⟨z, g', rfl⟩ := List.exists_cons_of_ne_nil (runs_ne (by rw [hr]; simp : g' ∈ _))
          have hany := any_of_mem (by rw [hr]; simp : (z :: g') ∈ runs (together t l) ps) (by simp : z ∈ z :: g')
          obtain ⟨h1, h2, h3⟩ := h.atRun _ _ hr
          rw [hany] at h3
          have hsplit : together t l p z = false := by
            cases hz : touching t l z with
            | true => simp [together, ht, hz]
            | false =>
              have hhd := runs_head hr
              have : q = z := by
                cases ps with
                | nil => simp at hhd
                | cons w ps =>
                  simp only [List.head?_cons, Option.some.injEq] at hhd
                  subst hhd
                  rw [hF, List.filter_cons] at hq
                  simp only [hz, Bool.not_false, if_true, List.cons.injEq] at hq
                  exact hq.1.symm
              subst this
              simp [together, ht, hz, hc.2]
          rw [runs_cons_cons hr, hsplit] at hg
          simp only [Bool.false_eq_true, if_false, List.cons.injEq] at hg
          obtain ⟨rfl, rfl⟩ := hg
          refine ⟨rfl, ?_, ?_⟩
          · rw [extremasOf_cons, hany]
            cases hz : touching t l z <;> simp [hz] at h3 <;> simp [h2, h3.2]
          · simp [ht, farthest]
    · -- no crossing
      have hcr : crossings l (p :: F) = crossings l F := by
        cases hF' : F with
        | nil => rfl
        | cons q rest =>
          obtain ⟨hph, -⟩ := h.phase q rest hF'
          rw [hph] at hc
          rw [crossings, if_neg]
          · rfl
          · intro h0
            refine hc ⟨?_, h0⟩
            rintro h1
            rw [h1] at h0
            simp at h0
      simp only [if_neg hc, distAt_eq]
      refine ⟨_, rfl, ?_⟩
      refine ⟨?_, ?_, ?_, ?_, ?_, ?_⟩
      · rw [hf, hcr]; exact h.inter
      · rw [hf, hcr]; exact h.found
      · rw [hf]; simp
      · intro z rest' hz
        rw [hf] at hz
        simp only [List.cons.injEq] at hz
        rw [← hz.1]
        exact ⟨rfl, rfl⟩
      · intro h0; simp [runs_nil] at h0
      · intro g gs hg
        cases hr : runs (together t l) ps with
        | nil =>
          obtain ⟨h1, h2, h3, h4⟩ := h.atStart hr
          rw [runs, hr] at hg
          simp only [List.cons.injEq] at hg
          obtain ⟨rfl, rfl⟩ := hg
          simp [h2, h4, ht, tangentsOf, extremasOf, farthest]
        | cons g' gs' =>
          obtain ⟨z, g', rfl⟩ := List.exists_cons_of_ne_nil (runs_ne (by rw [hr]; simp : g' ∈ _))
          have hany := any_of_mem (by rw [hr]; simp : (z :: g') ∈ runs (together t l) ps) (by simp : z ∈ z :: g')
          obtain ⟨h1, h2, h3⟩ := h.atRun _ _ hr
          rw [hany] at h3
          cases hz : touching t l z with
          | true =>
            simp only [hz, if_true] at h3
            rw [runs_cons_cons hr] at hg
            simp only [together, ht, hz, Bool.and_true, Bool.not_true, Bool.and_false, Bool.false_and, Bool.or_self,
              Bool.false_eq_true, if_false, List.cons.injEq] at hg
            obtain ⟨rfl, rfl⟩ := hg
            refine ⟨rfl, ?_, ?_⟩
            · rw [extremasOf_cons, hany]; simp [hz, h2]
            · simp [ht, farthest, h3.2]
          | false =>
            simp only [hz, Bool.false_eq_true, if_false] at h3
            obtain ⟨h4, h5, h6⟩ := h3
            have hhd := runs_head hr
            have hno : ¬ offset l p * offset l z < 0 := by
              cases ps with
              | nil => simp at hhd
              | cons w ps =>
                simp only [List.head?_cons, Option.some.injEq] at hhd
                subst hhd
                have hq : F = z :: ps.filter fun p => !touching t l p := by
                  rw [hF, List.filter_cons]
                  simp [hz]
                obtain ⟨hph, -⟩ := h.phase _ _ hq
                intro h0
                rw [hph] at hc
                refine hc ⟨?_, h0⟩
                rintro h1
                rw [h1] at h0
                simp at h0
            rw [runs_cons_cons hr] at hg
            have htog : together t l p z = true := by simp [together, ht, hz, hno]
            rw [htog] at hg
            simp only [if_true, List.cons.injEq] at hg
            obtain ⟨rfl, rfl⟩ := hg
            have hany' : (p :: z :: g').any (touching t l) = false := by
              rw [List.any_cons, hany, ht, hz]; rfl
            obtain ⟨e, he⟩ := farthest_some (l := l) (p := z) (ps := g')
            rw [he] at h5
            have h7 := h6 e h5
            refine ⟨?_, h2, ?_⟩
            · rw [tangentsOf_cons, hany]; simp [hz]
            · rw [hany', farthest_cons, he, h5, h7]
              simp only [Bool.false_eq_true, if_false, Option.isNone_some, false_or, gt_iff_lt, true_and]
              split_ifs <;> simp

theorem Passed.start (t : TLine) (l : Chord) : Passed t l t.intersections t.tangents [] t.poiStart := by
  refine ⟨by simp [TLine.poiStart, crossings], by simp [TLine.poiStart, crossings], fun _ => rfl, ?_, ?_, ?_⟩
  · intro q rest h; simp at h
  · intro _; exact ⟨rfl, rfl, rfl, rfl⟩
  · intro g gs h; simp [runs] at h

theorem Passed.loop (hk : Kept t) (hl : t.line = some l) {I T : List XY} {iv : Iv} : ∀ (us : List XY) {ps : List XY}
    {s : TLine.Poi}, Passed t l I T ps s → ∃ s', TLine.poiLoop t I.length T.length iv us s = .ok s' ∧
      Passed t l I T ((us.takeWhile fun p => iv.contains (.fin p.1)).reverse ++ ps) s' := by
  intro us
  induction us with
  | nil => intro ps s h; exact ⟨s, rfl, by simpa using h⟩
  | cons p us ih =>
    intro ps s h
    unfold TLine.poiLoop
    cases hc : iv.contains (.fin p.1) with
    | false => exact ⟨s, rfl, by simpa [hc] using h⟩
    | true =>
      obtain ⟨s1, h1, h2⟩ := h.step hk hl p
      obtain ⟨s2, h3, h4⟩ := ih h2
      refine ⟨s2, ?_, ?_⟩
      · simp only [Bool.not_true, Bool.false_eq_true, if_false, h1, bind, Except.bind]
        exact h3
      · simpa [hc] using h4

end Props
end Curvepy
