import Mathlib.Data.List.Sort
import Verif.Spec.TrendChoice
import Verif.Props.TrendPoints

/-!
# Properties C86, C87 and parts of C56, C59, C76: tolerance tests, thinning, fit and marks
-/

namespace Curvepy
namespace Props
open Spec Trend

variable {t : TLine} {l : Chord}

/-! ## C86: coincident and convex points -/

/-- C86: a value agrees with a reference exactly if it does so within both tolerances. -/
theorem C86_within (y y0 : ℚ) (rel tol : Option ℚ) :
    within (some y) (some y0) rel tol = true ↔ Agrees y y0 rel tol := by
  have hq : ∀ r : ℚ, eps < |y0| → (r < |y / y0 - 1| ↔ r * |y0| < |y - y0|) := by
    intro r h
    have h0 : (0 : ℚ) < |y0| := lt_trans (by norm_num [eps]) h
    have h1 : y0 ≠ 0 := abs_pos.1 h0
    rw [show y / y0 - 1 = (y - y0) / y0 by field_simp, abs_div, lt_div_iff₀ h0]
  unfold within
  constructor
  · intro h
    simp only at h
    split_ifs at h with h1 h2
    refine ⟨?_, ?_⟩
    · rintro a rfl
      simpa using h1
    · rintro r rfl h3 h4
      by_contra h5
      apply h2
      simp only [gt_iff_lt, Bool.and_eq_true, decide_eq_true_eq]
      exact ⟨⟨h3, h4⟩, (hq r h3).2 (not_le.1 h5)⟩
  · intro h
    simp only
    rw [if_neg, if_neg]
    · cases rel with
      | none => simp
      | some r =>
        simp only [gt_iff_lt, Bool.and_eq_true, decide_eq_true_eq]
        rintro ⟨⟨h3, h4⟩, h5⟩
        exact absurd ((hq r h3).1 h5) (not_lt.2 (h.rel r rfl h3 h4))
    · cases tol with
      | none => simp
      | some a => simpa using h.abs a rfl

/-- C86: missing values agree with nothing. -/
theorem C86_missing (y : Option ℚ) (rel tol : Option ℚ) : within none y rel tol = false ∧ within y none rel tol = false := by
  constructor
  · rfl
  · cases y <;> rfl

/-- C86: the middle one of three points at ascending positions is coincident with the others exactly if it agrees with
the straight line between them. -/
theorem C86_coincident {p q r : XY} (h : p.1 < r.1) (rel tol : Option ℚ) :
    coincident [p, q, r] rel tol = .ok true ↔ Agrees q.2 (q.2 - offset (p, r) q) rel tol := by
  have e : lineY (p, r) q.1 = some (q.2 - offset (p, r) q) := by
    obtain ⟨p1, p2⟩ := p
    obtain ⟨r1, r2⟩ := r
    rw [lineY_mean h]
    simp only [offset, share, sub_sub_cancel]
  unfold coincident pointOnLine
  simp only [e]
  rw [Except.ok.injEq, C86_within]

/-- C86 (partial: where the middle value is positive or next to zero, or there is no relative tolerance): the middle one
of three points at ascending positions is convex exactly if it sags below the straight line between the others. -/
theorem C86_convex_partial {p q r : XY} (h : p.1 < r.1) (rel tol : Option ℚ)
    (hq : rel = none ∨ -nearZero ≤ q.2) :
    convex [p, q, r] rel tol = .ok true ↔ Sags q.2 (q.2 - offset (p, r) q) rel tol := by
  have hy : ∀ y0 r : ℚ, -eps ≤ q.2 → eps < |q.2| → (y0 / q.2 - 1 < r ↔ y0 - q.2 < r * |q.2|) := by
    intro y0 r h1 h2
    have h0 : (0 : ℚ) < q.2 := by
      have he : (0 : ℚ) < eps := by norm_num [eps]
      rcases lt_abs.1 h2 with h3 | h3 <;> linarith
    rw [abs_of_pos h0, show y0 / q.2 - 1 = (y0 - q.2) / q.2 by field_simp, div_lt_iff₀ h0]
  unfold convex
  simp only
  rw [lineY_mean h]
  have ho : q.2 - offset (p, r) q = (1 - (q.1 - p.1) / (r.1 - p.1)) * p.2 + (q.1 - p.1) / (r.1 - p.1) * r.2 := by
    simp only [offset, share, sub_sub_cancel]
  rw [ho]
  generalize (1 - (q.1 - p.1) / (r.1 - p.1)) * p.2 + (q.1 - p.1) / (r.1 - p.1) * r.2 = y0
  simp only
  constructor
  · intro h
    split_ifs at h with h1 h2
    · simp at h
    · simp at h
    refine ⟨?_, ?_⟩
    · rintro a rfl
      simpa using h1
    · rintro r rfl h3 h4
      have hq := hq.resolve_left (by simp)
      by_contra h5
      apply h2
      simp only [gt_iff_lt, Bool.and_eq_true, decide_eq_true_eq]
      exact ⟨⟨h3, h4⟩, (hy _ r hq h4).2 (not_le.1 h5)⟩
  · intro h
    rw [if_neg, if_neg]
    · cases rel with
      | none => simp
      | some r =>
        have hq := hq.resolve_left (by simp)
        simp only [gt_iff_lt, Bool.and_eq_true, decide_eq_true_eq]
        rintro ⟨⟨h3, h4⟩, h5⟩
        exact absurd ((hy _ r hq h4).1 h5) (not_lt.2 (h.rel r rfl h3 h4))
    · cases tol with
      | none => simp
      | some a => simpa using h.abs a rfl

/-- Disagreement with C86: among negative values a point above the line between its neighbours is convex, and one
below is not. -/
theorem C86_negation : convex [(0, -2), (1, -1), (2, -2)] (some (1 / 100)) none = .ok true ∧
    convex [(0, -2), (1, -3), (2, -2)] (some (1 / 100)) none = .ok false ∧
    ¬ Sags (-1) (-2) (some (1 / 100)) none ∧ Sags (-3) (-2) (some (1 / 100)) none := by
  refine ⟨by decide +kernel, by decide +kernel, ?_, ?_⟩
  · intro h
    have := h.rel _ rfl (by norm_num [nearZero]) (by norm_num [nearZero])
    norm_num at this
  · refine ⟨by simp, ?_⟩
    intro r hr _ _
    cases hr
    norm_num

/-- C86: only three points are looked at, and a point beside two others at one position is neither. -/
theorem C86_three (rel tol : Option ℚ) : (∀ ps : List XY, ps.length ≠ 3 → convex ps rel tol = .error .exception ∧
      coincident ps rel tol = .error .exception) ∧
    ∀ p q r : XY, p.1 = r.1 → p.1 ≠ q.1 → convex [p, q, r] rel tol = .ok false ∧ coincident [p, q, r] rel tol = .ok false := by
  constructor
  · intro ps h
    rcases ps with _ | ⟨a, _ | ⟨b, _ | ⟨c, _ | ⟨d, ps⟩⟩⟩⟩
    · exact ⟨rfl, rfl⟩
    · exact ⟨rfl, rfl⟩
    · exact ⟨rfl, rfl⟩
    · exact absurd rfl h
    · exact ⟨rfl, rfl⟩
  · rintro ⟨p1, p2⟩ q ⟨r1, r2⟩ rfl h
    simp only at h
    simp [h, convex, coincident, pointOnLine, lineY, within]

/-- Disagreement with C86: without tolerances every point is convex, and coincident as well. -/
theorem C86_negation_no_tolerance {p r : XY} (h : p.1 < r.1) (q : XY) :
    convex [p, q, r] none none = .ok true ∧ coincident [p, q, r] none none = .ok true := by
  unfold convex coincident pointOnLine within
  simp [lineY_mean h]

example : coincident [(0, 1), (1, 1), (2, 1)] (some 0) (some 0) = .ok true ∧
    coincident [(0, 100), (1, 101), (2, 100)] (some (1 / 100)) none = .ok true ∧
    coincident [(0, 100), (1, 102), (2, 100)] (some (1 / 100)) none = .ok false ∧
    convex [(0, 101), (1, 100), (2, 101)] (some (1 / 100)) none = .ok true ∧
    convex [(0, 101), (1, 2001 / 20), (2, 101)] (some (1 / 100)) none = .ok false := by decide +kernel

/-! ## C87: thinning -/

theorem thinAt_append (t : TLine) : ∀ (pre es : List XY) , t.thinAt (pre ++ es) pre.length = pre ++ t.thinAt es 0 := by
  intro pre es
  unfold TLine.thinAt
  rw [List.getElem?_append_right (by omega), List.getElem?_append_right (by omega), List.getElem?_append_right (by omega)]
  simp only [Nat.sub_self, Nat.add_sub_cancel_left]
  rcases es with _ | ⟨p0, _ | ⟨p1, _ | ⟨p2, es⟩⟩⟩ <;> try rfl
  simp only [List.getElem?_cons_zero, List.getElem?_cons_succ, zero_add]
  split_ifs
  · rw [List.eraseIdx_append_of_length_le (by omega)]
    simp
  · rfl

/-- What the rounds of the loop do to the end of the list. -/
theorem thin_loop (t : TLine) : ∀ (n : ℕ) (pre es : List XY), pre.length = n → 2 ≤ es.length → SortedX (pre ++ es) →
    (es.length = 2 ∨ Spread t.minDist es) →
    ∃ es', t.thin n (pre ++ es) = es' ∧ es'.head? = (pre ++ es).head? ∧ es'.getLast? = (pre ++ es).getLast? ∧
      (es'.length = 2 ∨ Spread t.minDist es') := by
  intro n
  induction n with
  | zero =>
    intro pre es hp _ _ h
    rw [List.length_eq_zero_iff] at hp
    subst hp
    exact ⟨_, rfl, rfl, rfl, h⟩
  | succ n ih =>
    intro pre es hp h2 hs h
    obtain ⟨pre, p0, rfl⟩ := (List.eq_nil_or_concat pre).resolve_left (by rintro rfl; simp at hp)
    have hp : pre.length = n := by simpa using hp
    match es, h2 with
    | p1 :: p2 :: es, _ =>
      rw [TLine.thin]
      have e : pre.concat p0 ++ p1 :: p2 :: es = pre ++ (p0 :: p1 :: p2 :: es) := by simp
      rw [e] at hs ⊢
      conv => enter [1, es', 1, 1, 3]; rw [← hp, thinAt_append]
      unfold TLine.thinAt
      simp only [List.getElem?_cons_zero, List.getElem?_cons_succ, zero_add]
      have hs' := (List.pairwise_append.1 hs).2.1
      by_cases hc : p1.1 - p0.1 < t.minDist ∨ p2.1 - p1.1 < t.minDist
      · rw [if_pos (by simpa using hc)]
        simp only [List.eraseIdx_cons_succ, List.eraseIdx_cons_zero]
        obtain ⟨es', g1, g2, g3, g4⟩ := ih pre (p0 :: p2 :: es) hp (by simp)
          (hs.sublist (List.Sublist.append_left (by simp) _)) (by
            rcases h with h | h
            · left; simpa using h
            · right
              unfold Spread at h ⊢
              rw [List.isChain_cons_cons] at h ⊢
              refine ⟨?_, h.2⟩
              have := (List.pairwise_cons.1 hs').1 p1 (by simp)
              linarith [h.1])
        refine ⟨es', g1, g2.trans ?_, g3.trans ?_, g4⟩
        · cases pre <;> rfl
        · simp [List.getLast?_append, List.getLast?_cons_cons]
      · rw [if_neg (by simpa using hc)]
        push Not at hc
        obtain ⟨es', g1, g2, g3, g4⟩ := ih pre (p0 :: p1 :: p2 :: es) hp (by simp) hs (by
          right
          unfold Spread at h ⊢
          rw [List.isChain_cons_cons]
          refine ⟨hc.1, ?_⟩
          rw [List.isChain_cons_cons]
          refine ⟨hc.2, ?_⟩
          rcases h with h | h
          · have : es = [] := by simpa using h
            subst this; simp
          · exact (List.isChain_cons_cons.1 h).2)
        exact ⟨es', g1, g2, g3, g4⟩

/-- C87: of the extremas in order of position those that are too close to their neighbours are left out: the ends stay,
and if more than two are left, then neighbours are at least `min_point_distance` apart. -/
theorem C87_thin (t : TLine) {es : List XY} (hs : SortedX es) (h2 : 2 ≤ es.length) :
    (t.thin (es.length - 2) es).Sublist es ∧ (t.thin (es.length - 2) es).head? = es.head? ∧
      (t.thin (es.length - 2) es).getLast? = es.getLast? ∧
      ((t.thin (es.length - 2) es).length = 2 ∨ Spread t.minDist (t.thin (es.length - 2) es)) := by
  refine ⟨TLine.thin_sublist _ _ _, ?_⟩
  have e : es = es.take (es.length - 2) ++ es.drop (es.length - 2) := (List.take_append_drop _ _).symm
  obtain ⟨es', g1, g2, g3, g4⟩ := thin_loop t (es.length - 2) (es.take (es.length - 2)) (es.drop (es.length - 2))
    (by simp) (by simp; omega) (e ▸ hs) (.inl (by simp; omega))
  rw [← e] at g1 g2 g3
  rw [g1]
  exact ⟨g2, g3, g4⟩

/-- C87: nothing is left out if all neighbours are far enough apart. -/
theorem C87_keep (t : TLine) : ∀ (n : ℕ) {es : List XY}, Spread t.minDist es → t.thin n es = es := by
  intro n
  induction n with
  | zero => intro es _; rfl
  | succ n ih =>
    intro es h
    rw [TLine.thin]
    have : t.thinAt es n = es := by
      unfold TLine.thinAt
      split
      · rename_i p0 p1 p2 h0 h1 h2
        obtain ⟨i0, rfl⟩ := List.getElem?_eq_some_iff.1 h0
        obtain ⟨i1, rfl⟩ := List.getElem?_eq_some_iff.1 h1
        obtain ⟨i2, rfl⟩ := List.getElem?_eq_some_iff.1 h2
        have a := List.isChain_iff_getElem.1 h n (by omega)
        have b := List.isChain_iff_getElem.1 h (n + 1) (by omega)
        rw [if_neg]
        simp only [Bool.or_eq_true, decide_eq_true_eq, not_or, not_lt]
        exact ⟨a, b⟩
      · rfl
    rw [this, ih h]

example : (TLine.new 1 true 3 2 10 none none 1).thin 3 [(0, 0), (1, 5), (3, 6), (4, 5), (6, 0)] = [(0, 0), (3, 6), (6, 0)] := by
  decide +kernel

example : (TLine.new 1 true 3 2 10 none none 1).thin 1 [(0, 0), (1, 5), (3 / 2, 6)] = [(0, 0), (3 / 2, 6)] := by
  decide +kernel

/-! ## C76: the best of the edges -/

theorem fitness_squares (hl : l.1.1 < l.2.1) (bs : List XY) : TLine.fitness bs l = .ok (squares l bs) := by
  have : ∀ (bs : List XY) (e : ℚ), bs.foldlM (m := Except Err) (fun e p => do
      let y ← need (lineY l p.1)
      pure (e + (p.2 - y) ^ 2)) e = .ok (e + squares l bs) := by
    intro bs
    induction bs with
    | nil => intro e; simp [squares, pure, Except.pure]
    | cons p bs ih =>
      intro e
      rw [List.foldlM_cons, lineY_mean hl]
      simp only [need, bind, Except.bind, pure, Except.pure] at ih ⊢
      rw [ih]
      simp only [squares, List.map_cons, List.sum_cons, offset, share, Except.ok.injEq]
      ring
  have := this bs 0
  rw [zero_add] at this
  exact this

theorem fittest_first (bs : List XY) : ∀ (ls : List Chord), (∀ l ∈ ls, l.1.1 < l.2.1) → ls ≠ [] →
    ∃ a k b, ls = a ++ k :: b ∧ TLine.fittest bs ls = .ok (some (k, squares k bs)) ∧
      (∀ l ∈ a, squares k bs < squares l bs) ∧ (∀ l ∈ b, squares k bs ≤ squares l bs) := by
  intro ls
  induction ls with
  | nil => intro _ h; exact absurd rfl h
  | cons l ls ih =>
    intro hls _
    rw [TLine.fittest, fitness_squares (hls l (by simp))]
    by_cases hn : ls = []
    · subst hn
      exact ⟨[], l, [], rfl, rfl, by simp, by simp⟩
    · obtain ⟨a, k, b, e, hf, h1, h2⟩ := ih (fun k hk => hls k (List.mem_cons_of_mem _ hk)) hn
      simp only [bind, Except.bind, hf]
      by_cases hc : squares k bs < squares l bs
      · refine ⟨l :: a, k, b, by rw [e]; rfl, by rw [if_pos hc]; rfl, ?_, h2⟩
        intro x hx
        rcases List.mem_cons.1 hx with rfl | hx
        · exact hc
        · exact h1 x hx
      · refine ⟨[], l, ls, rfl, by rw [if_neg hc]; rfl, by simp, ?_⟩
        have hc := not_lt.1 hc
        intro x hx
        rw [e] at hx
        rcases List.mem_append.1 hx with hx | hx
        · exact hc.trans (h1 x hx).le
        · rcases List.mem_cons.1 hx with rfl | hx
          · exact hc
          · exact hc.trans (h2 x hx)

theorem zip_tail_consecutive : ∀ {es : List XY} {k : Chord}, k ∈ es.zip es.tail ↔ Consecutive es k := by
  intro es k
  induction es with
  | nil => simp [Consecutive]
  | cons p es ih =>
    cases es with
    | nil =>
      simp only [List.tail_cons, List.zip_nil_right, List.not_mem_nil, false_iff]
      rintro ⟨a, b, h⟩
      have := congrArg List.length h
      simp at this
      omega
    | cons q es =>
      simp only [List.tail_cons, List.zip_cons_cons, List.mem_cons] at ih ⊢
      constructor
      · rintro (rfl | h)
        · exact ⟨[], es, rfl⟩
        · obtain ⟨a, b, h⟩ := ih.1 h
          exact ⟨p :: a, b, by rw [h]; rfl⟩
      · rintro ⟨a, b, h⟩
        cases a with
        | nil =>
          simp only [List.nil_append, List.cons_append, List.cons.injEq] at h
          left
          exact (Prod.ext h.1.symm h.2.1.symm)
        | cons c a =>
          simp only [List.cons_append, List.cons.injEq] at h
          right
          exact ih.2 ⟨a, b, by simpa using h.2⟩

/-- C76: of more than two extremas two consecutive ones are kept, and the line through them has the least sum of squares
of the distances to the boundary points. -/
theorem C76_least (bs : List XY) {es : List XY} (hs : StrictX es) (h2 : 2 < es.length) :
    ∃ k, TLine.finalLine bs es = .ok [k.1, k.2] ∧ Consecutive es k ∧
      ∀ l, Consecutive es l → squares k bs ≤ squares l bs := by
  have hasc : ∀ l ∈ es.zip es.tail, l.1.1 < l.2.1 := by
    intro l hl
    obtain ⟨a, b, rfl⟩ := zip_tail_consecutive.1 hl
    have := (List.pairwise_append.1 (List.pairwise_append.1 hs).1).2.1
    exact (List.pairwise_cons.1 this).1 _ (by simp)
  obtain ⟨a, k, b, e, hf, h3, h4⟩ := fittest_first bs (es.zip es.tail) hasc (by
    match es, h2 with
    | p :: q :: es, _ => simp)
  refine ⟨k, ?_, zip_tail_consecutive.1 (by rw [e]; simp), ?_⟩
  · unfold TLine.finalLine
    rw [if_pos h2, hf]
    rfl
  · intro l hl
    have := zip_tail_consecutive.2 hl
    rw [e] at this
    rcases List.mem_append.1 this with h | h
    · exact (h3 l h).le
    · rcases List.mem_cons.1 h with rfl | h
      · exact le_rfl
      · exact h4 l h

/-- Squares prefer one far point over many, absolute distances would not. -/
example : TLine.finalLine [(0, 0), (1, 3), (2, 3), (3, 0), (4, -9 / 2)] [(0, 0), (1, 3), (4, -9 / 2)] = .ok [(1, 3), (4, -9 / 2)] ∧
    squares ((0, 0), (1, 3)) [(0, 0), (1, 3), (2, 3), (3, 0), (4, -9 / 2)] = 1449 / 4 ∧
    squares ((1, 3), (4, -9 / 2)) [(0, 0), (1, 3), (2, 3), (3, 0), (4, -9 / 2)] = 81 / 2 := by decide +kernel

/-! ## C56: bounds of the insertion -/

/-- C56: a negative lower bound is rejected. -/
theorem C56_bound (a : List XY) (p : XY) (lo : ℤ) (hi : Option ℕ) (b : Bool) :
    insort a p lo hi b = .error .value ↔ lo < 0 := by
  unfold insort
  by_cases h : lo < 0
  · simp [h]
  · rw [if_neg h]
    simp only [h, iff_false]
    intro e
    cases hb : bisectLoop a p.1 lo.toNat (hi.getD a.length) with
    | error x =>
      rw [hb] at e
      simp only [bind, Except.bind, Except.error.injEq] at e
      subst e
      have : ∀ lo hi, bisectLoop a p.1 lo hi ≠ .error .value := by
        intro lo hi
        fun_induction bisectLoop a p.1 lo hi <;> simp_all
      exact this _ _ hb
    | ok i =>
      rw [hb] at e
      simp only [bind, Except.bind] at e
      split_ifs at e <;> cases e

/-! ## C59: what a prediction looks at -/

theorem filterM_ok {f : XY → Except Err Bool} {g : XY → Bool} : ∀ (ps : List XY), (∀ p ∈ ps, f p = .ok (g p)) →
    ps.filterM f = .ok (ps.filter g) := by
  have H : ∀ (ps acc : List XY), (∀ p ∈ ps, f p = .ok (g p)) →
      List.filterAuxM f ps acc = .ok ((ps.filter g).reverse ++ acc) := by
    intro ps
    induction ps with
    | nil => intro acc _; rfl
    | cons p ps ih =>
      intro acc h
      rw [List.filterAuxM, h p (by simp)]
      simp only [bind, Except.bind]
      rw [ih _ fun q hq => h q (List.mem_cons_of_mem _ hq), List.filter_cons]
      cases g p <;> simp
  intro ps h
  unfold List.filterM
  rw [H ps [] h]
  simp [bind, Except.bind, pure, Except.pure]

/-- C59: the points a prediction looks at are in order of position; they are the tangent points, the intersections and
the extremas on the outer side of the line. -/
theorem C59_marks (h : Grown t) (hw : 0 < t.minWidth) (hl : t.line = some l) :
    ∃ ms, t.marks = .ok ms ∧ ms.Pairwise (fun a b => a.pt.1 ≤ b.pt.1) ∧ (∀ m, m ∈ ms ↔ Looked t l m) ∧
      ms.length = (t.extremas.filter fun p => if t.upper then 0 < offset l p else offset l p < 0).length +
        t.tangents.length + t.intersections.length := by
  have hk := grown_kept h hw
  have hf := filterM_ok (f := fun p => do
    let y ← t.y p.1
    pure (if t.upper then decide (p.2 > y) else decide (p.2 < y)))
    (g := fun p => if t.upper then 0 < offset l p else offset l p < 0) t.extremas (by
      intro p _
      rw [y_offset hk hl]
      simp only [bind, Except.bind, pure, Except.pure]
      congr 1
      split_ifs
      · simp
      · simp only [decide_eq_decide]; constructor <;> intro h <;> linarith)
  refine ⟨_, by unfold TLine.marks; rw [hf]; rfl, ?_, ?_, ?_⟩
  · unfold TLine.sortMarks
    have : Std.Total (fun a b : Mark => a.pt.1 ≤ b.pt.1) := ⟨fun a b => le_total _ _⟩
    have : IsTrans Mark (fun a b : Mark => a.pt.1 ≤ b.pt.1) := ⟨fun a b c => le_trans⟩
    exact List.pairwise_insertionSort _ _
  · intro m
    unfold TLine.sortMarks
    rw [List.mem_insertionSort, List.mem_append, List.mem_append, List.mem_map, List.mem_map, List.mem_map]
    constructor
    · rintro ((⟨p, hp, rfl⟩ | ⟨p, hp, rfl⟩) | ⟨p, hp, rfl⟩)
      · obtain ⟨h1, h2⟩ := List.mem_filter.1 hp
        refine ⟨fun _ => ⟨h1, ?_⟩, by simp, by simp⟩
        simp only at h2 ⊢
        split_ifs at h2 ⊢ <;> simpa using h2
      · exact ⟨by simp, fun _ => hp, by simp⟩
      · exact ⟨by simp, by simp, fun _ => hp⟩
    · rintro ⟨h1, h2, h3⟩
      obtain ⟨p, k⟩ := m
      cases k with
      | extrema =>
        obtain ⟨h4, h5⟩ := h1 rfl
        refine .inl (.inl ⟨p, List.mem_filter.2 ⟨h4, ?_⟩, rfl⟩)
        simp only at h5 ⊢
        split_ifs at h5 ⊢ <;> simpa using h5
      | tangent => exact .inl (.inr ⟨p, h2 rfl, rfl⟩)
      | intersection => exact .inr ⟨p, h3 rfl, rfl⟩
  · unfold TLine.sortMarks
    simp [List.length_insertionSort, Nat.add_assoc]

example : (fedD (plain 3) wavy).marks = .ok [⟨(0, 30), .tangent⟩, ⟨(4, 26), .tangent⟩, ⟨(5, 28), .extrema⟩,
    ⟨(38 / 7, 172 / 7), .intersection⟩] := by decide +kernel

end Props
end Curvepy
