import Verif.Lemmas.SmaHistory
import Verif.Props.ExtremasScan

/-!
# Properties C49, C82, C83: simple moving averages

`Averaging w m u A`: an average with window `w` after any history of queries, edits of its source and reads.
-/

namespace Curvepy
namespace Props
open Spec Pts Accum Sma

variable {m : ℚ} {u : Bool} {w : Window} {A : Accum} {l : List (ℚ × ℚ)}

/-! ## Areas -/

theorem totalArea_split (mode : Interp) (a : List (ℚ × ℚ)) (q : ℚ × ℚ) (b : List (ℚ × ℚ)) :
    totalArea mode (a ++ q :: b) = totalArea mode (a ++ [q]) + totalArea mode (q :: b) := by
  induction a with
  | nil => simp [totalArea]
  | cons c cs ih =>
    cases cs with
    | nil => simp [totalArea]
    | cons d ds =>
      simp only [List.cons_append, totalArea] at ih ⊢
      rw [ih]; ring

theorem totalArea_cut (mode : Interp) {s j k : ℕ} (hs : s ≤ j) (hj : j ≤ k) {q : ℚ × ℚ} (hq : l[j]? = some q) :
    totalArea mode ((l.take (k + 1)).drop s) =
      totalArea mode ((l.take (j + 1)).drop s) + totalArea mode ((l.take (k + 1)).drop j) := by
  have hl := (List.getElem?_eq_some_iff.1 hq).1
  have h1 : (l.take (k + 1)).drop j = q :: (l.take (k + 1)).drop (j + 1) := by
    rw [List.drop_eq_getElem_cons (by rw [List.length_take]; omega)]
    congr 1
    rw [List.getElem_take]
    exact (List.getElem?_eq_some_iff.1 hq).2
  have h2 : (l.take (j + 1)).drop s = (l.take j).drop s ++ [q] := by
    rw [take_succ_of_getElem? hq, List.drop_append_of_le_length (by rw [List.length_take]; omega)]
  have h3 : (l.take (k + 1)).drop s = (l.take j).drop s ++ (l.take (k + 1)).drop j := by
    have : l.take (k + 1) = l.take j ++ (l.take (k + 1)).drop j := by
      conv_lhs => rw [← List.take_append_drop j (l.take (k + 1))]
      rw [List.take_take, Nat.min_eq_left (by omega)]
    conv_lhs => rw [this]
    rw [List.drop_append_of_le_length (by rw [List.length_take]; omega)]
  rw [h3, h2, h1, totalArea_split]

theorem defined_get (hl : A.src.points = defined l) {k : ℕ} {p : ℚ × ℚ} (hk : l[k]? = some p) :
    A.src.points[k]? = some (p.1, some p.2) := by simp [hl, defined, hk]

theorem prefix_get {P : List (Pt ℚ)} (hp : defined l <+: P) {k : ℕ} {p : ℚ × ℚ} (hk : l[k]? = some p) :
    P[k]? = some (p.1, some p.2) := by
  obtain ⟨r, rfl⟩ := hp
  rw [List.getElem?_append_left (by simpa [defined] using (List.getElem?_eq_some_iff.1 hk).1)]
  simp [defined, hk]

theorem prefix_window {P : List (Pt ℚ)} (hp : defined l <+: P) {s k : ℕ} (hk : k < l.length) :
    (P.take (k + 1)).drop s = defined ((l.take (k + 1)).drop s) := by
  obtain ⟨r, rfl⟩ := hp
  rw [List.take_append_of_le_length (by simpa [defined, Nat.succ_le_iff] using hk)]
  simp [defined, List.map_take, List.map_drop]

theorem defined_window {s k : ℕ} :
    ((defined l).take (k + 1)).drop s = defined ((l.take (k + 1)).drop s) := by
  simp [defined, List.map_take, List.map_drop]

/-- Two values of the integral, one after the other. -/
theorem slope_spec (hm : minStepQ ≤ m) (hw : Fits m w) {P : List (Pt ℚ)} (hp : defined l <+: P) (h : Ok w m u P A)
    {j k : ℕ} (hjk : j ≤ k) {p q : ℚ × ℚ} (hj : l[j]? = some p) (hk : l[k]? = some q) :
    ∃ o1 o2 y0 y1, superY w A p.1 = some o1 ∧ o1.res = .ok (some y0) ∧
      superY w o1.st q.1 = some o2 ∧ o2.res = .ok (some y1) ∧ Ok w m u P o2.st ∧
      y1 - y0 = totalArea .linear ((l.take (k + 1)).drop j) := by
  have hm0 : (0 : ℚ) < m := lt_of_lt_of_le (by norm_num [minStepQ]) hm
  obtain ⟨hP, skip, seen, todo, s0⟩ := h
  have hlj := (List.getElem?_eq_some_iff.1 hj).1
  have hlk := (List.getElem?_eq_some_iff.1 hk).1
  have hj' : A.src.points[j]? = some (p.1, some p.2) := by rw [hP]; exact prefix_get hp hj
  obtain ⟨o1, skip1, seen1, todo1, a, qa, r1, r2, r3, r4, r5, r6, r7, r8, r9, _⟩ := superY_spec hm hw s0 hj'
  have hP1 : o1.st.src.points = P := r2.trans hP
  have hk' : o1.st.src.points[k]? = some (q.1, some q.2) := by rw [hP1]; exact prefix_get hp hk
  obtain ⟨o2, skip2, seen2, todo2, b, qb, t1, t2, t3, t4, t5, t6, t7, t8, t9, t10⟩ := superY_spec hm hw r3 hk'
  have hab : a ≤ b := by
    have hst : smaStart o1.st.src w m p.1 = .ok (some (.fin qa.1)) := by
      rw [← r6]
      cases w with
      | period per => simp only [smaStart, honest_next s0.src, honest_next r3.src, r2]
      | degree n => simp only [smaStart, stepBack_congr r3.src s0.src r2]
    have h1 := start_mono r3.src hm0 r3.gapped (show o1.st.src.points[j]? = some (p.1, some p.2) by rw [hP1]; exact prefix_get hp hj) hk' hjk hst t6
    by_contra hc
    have h2 := r3.src.wf.asc.lt t4 (by rw [r2]; exact r4) (by omega)
    linarith
  have hskip : skip2 = skip1 := t10 r7 (by omega)
  rw [hP, prefix_window hp hlj, stepFold_area _ _ (by
    intro h0
    have := congrArg List.length h0
    simp only [List.length_drop, List.length_take, List.length_nil] at this
    omega)] at r9
  rw [hP1, hskip, prefix_window hp hlk, stepFold_area _ _ (by
    intro h0
    have := congrArg List.length h0
    simp only [List.length_drop, List.length_take, List.length_nil] at this
    omega)] at t9
  refine ⟨o1, o2, _, _, r1, r9, t1, t9, ⟨t2.trans hP1, _, _, _, t3⟩, ?_⟩
  rw [totalArea_cut .linear (s := skip1.length) (by omega) hjk hj]
  ring

/-! ## At the knots -/

theorem width_window {j k : ℕ} {p q : ℚ × ℚ} (hjk : j ≤ k) (hj : l[j]? = some p) (hk : l[k]? = some q) :
    width ((l.take (k + 1)).drop j) = q.1 - p.1 := by
  have hlk := (List.getElem?_eq_some_iff.1 hk).1
  have h1 : ((l.take (k + 1)).drop j).head? = some p := by
    rw [List.head?_drop, List.getElem?_take_of_lt (by omega), hj]
  have h2 : ((l.take (k + 1)).drop j).getLast? = some q := by
    rw [take_succ_of_getElem? hk, List.drop_append_of_le_length (by rw [List.length_take]; omega)]
    simp
  simp [width, h1, h2]

theorem meanHeight_window {j k : ℕ} {p q : ℚ × ℚ} (hjk : j < k) (hj : l[j]? = some p) (hk : l[k]? = some q) :
    meanHeight ((l.take (k + 1)).drop j) = totalArea .linear ((l.take (k + 1)).drop j) / (q.1 - p.1) := by
  have hlk := (List.getElem?_eq_some_iff.1 hk).1
  rw [← width_window hjk.le hj hk]
  unfold meanHeight
  split
  · rename_i r hr
    have := congrArg List.length hr
    simp only [List.length_drop, List.length_take, List.length_singleton] at this
    omega
  · rfl

/-- The answer at a knot, if the window found is the right one. -/
theorem smaY_knot (hm : minStepQ ≤ m) (hw : Fits m w) {P : List (Pt ℚ)} (hpre : defined l <+: P) (h : Ok w m u P A)
    {j k : ℕ} (hjk : j ≤ k) {p q : ℚ × ℚ} (hj : l[j]? = some p) (hk : l[k]? = some q)
    (hd : ∃ d, smaDomain A.src w m = .ok d ∧ d.contains (.fin q.1) = true)
    (hs : ∀ s, Honest s → s.points = P → smaStart s w m q.1 = .ok (some (.fin p.1)))
    (he : ∀ s, Honest s → s.points = P → smaEnd s w m p.1 = .ok (some (.fin q.1))) (fuel : ℕ) :
    ∃ o, smaY w (fuel + 1) A (.fin q.1) = some o ∧ Ok w m u P o.st ∧
      o.res = .ok (some (meanHeight ((l.take (k + 1)).drop j))) := by
  obtain ⟨hP, skip, seen, todo, s0⟩ := h
  obtain ⟨B, d, hB, hdB, hBp, sB⟩ := smaTouch_spec s0
  obtain ⟨d', hd', hcon⟩ := hd
  rw [hdB] at hd'
  cases hd'
  have hBP : B.src.points = P := hBp.trans hP
  have okB : Ok w m u P B := ⟨hBP, _, _, _, sB⟩
  unfold smaY
  simp only [hB, hcon, Bool.not_true, Bool.false_eq_true, if_false, sB.step, hs _ sB.src hBP, finPart, he _ sB.src hBP]
  have hasc : Ascending P := by rw [← hBP]; exact sB.src.wf.asc
  rcases hjk.eq_or_lt with rfl | hlt
  · rw [hj] at hk
    cases hk
    simp only [decide_true, Bool.true_or, if_true]
    refine ⟨_, rfl, okB, ?_⟩
    show B.src.y _ = _
    rw [Props.C01_stored_value sB.src (p := (p.1, some p.2)) (by
      rw [hBP]; exact List.mem_of_getElem? (prefix_get hpre hj))]
    have : (l.take (j + 1)).drop j = [p] := by
      rw [take_succ_of_getElem? hj, List.drop_append_of_le_length (by
        have := (List.getElem?_eq_some_iff.1 hj).1
        rw [List.length_take]; omega)]
      simp
    rw [this]
    rfl
  · have hpq : p.1 < q.1 := by
      exact hasc.lt (prefix_get hpre hj) (prefix_get hpre hk) hlt
    obtain ⟨o1, o2, y0, y1, r1, r2, r3, r4, r5, r6⟩ := slope_spec hm hw hpre okB hjk hj hk
    have hne1 : (p.1 = q.1) = False := by simp [hpq.ne]
    have hne2 : (q.1 = p.1) = False := by simp [hpq.ne']
    simp only [Option.some.injEq, hne1, hne2, decide_false, Bool.or_false, Bool.false_eq_true, if_false, r1, whenSome, r2, r3,
      r4, answer, if_true, Option.map_some]
    refine ⟨_, rfl, r5, ?_⟩
    rw [meanHeight_window hlt hj hk, r6]

/-! ## A number of points -/

theorem degree_domain {src : Pts ℚ} (h : Honest src) (hm : 0 < m) (hg : Gapped m src.points) (n : ℕ)
    (x : ℚ) : ∃ d, smaDomain src (.degree n) m = .ok d ∧
      (d.contains (.fin x) = true ↔ ∃ p q, src.points[n - 1]? = some p ∧
        src.points[src.points.length - 1]? = some q ∧ p.1 ≤ x ∧ x ≤ q.1) := by
  unfold smaDomain
  rw [h.wf.domVal]
  cases hp : src.points with
  | nil => exact ⟨Iv.empty, by simp [getDomain], by simp [Iv.contains]⟩
  | cons a as =>
    have hne : (getDomain (a :: as)).isEmpty = false := by
      rw [← hp]; exact getDomain_not_isEmpty h.wf.asc (by rw [hp]; simp)
    have hlo : (getDomain (a :: as)).lo = .fin a.1 := rfl
    have hhi : (getDomain (a :: as)).hi = .fin ((a :: as).getLast (by simp)).1 := rfl
    have h0 : src.points[0]? = some a := by rw [hp]; rfl
    have hlast := getLast_mem_idx (pts := a :: as) (by simp)
    simp only [hne, Bool.false_eq_true, if_false, hlo, hhi, forward_knot h hm hg _ _ _ h0, Nat.zero_add]
    cases hq : src.points[n - 1]? with
    | none =>
      rw [hp] at hq
      exact ⟨Iv.empty, rfl, by simp [Iv.contains, hq]⟩
    | some q =>
      have hle : q.1 ≤ ((a :: as).getLast (by simp)).1 := by
        have hlast' : src.points[src.points.length - 1]? = some ((a :: as).getLast (by simp)) := by
          rw [hp]; exact hlast
        refine h.wf.asc.le hq hlast' ?_
        have := (List.getElem?_eq_some_iff.1 hq).1
        omega
      rw [hp] at hq
      refine ⟨Iv.closed q.1 ((a :: as).getLast (by simp)).1, ?_, ?_⟩
      · simp only [Option.map_some, domainFrom, add_sub_cancel, not_lt.2 hle, if_false]
      · rw [hlast]
        simp [Iv.contains_closed, hq]

theorem degree_start {n j k : ℕ} {p q : ℚ × ℚ} (hm : 0 < m) {P : List (Pt ℚ)} (hpre : defined l <+: P)
    (hg : Gapped m P) (hjk : j = k - (n - 1))
    (hj : l[j]? = some p) (hk : l[k]? = some q) (s : Pts ℚ) (hs : Honest s) (hp : s.points = P) :
    smaStart s (.degree n) m q.1 = .ok (some (.fin p.1)) := by
  have h1 : s.points[k]? = some (q.1, some q.2) := by rw [hp]; exact prefix_get hpre hk
  have h2 : s.points[k - (n - 1)]? = some (p.1, some p.2) := by rw [← hjk, hp]; exact prefix_get hpre hj
  have := stepBack_knot hs hm (by rw [hp]; exact hg) (n - 1) k _ _ h1 h2
  simp only [smaStart, this]

theorem degree_end {n j k : ℕ} {p q : ℚ × ℚ} (hm : 0 < m) {P : List (Pt ℚ)} (hpre : defined l <+: P)
    (hg : Gapped m P) (hjk : k = j + (n - 1))
    (hj : l[j]? = some p) (hk : l[k]? = some q) (s : Pts ℚ) (hs : Honest s) (hp : s.points = P) :
    smaEnd s (.degree n) m p.1 = .ok (some (.fin q.1)) := by
  have hl := (List.getElem?_eq_some_iff.1 hk).1
  have h1 : s.points[j]? = some (p.1, some p.2) := by rw [hp]; exact prefix_get hpre hj
  have h2 : s.points[min (j + (n - 1)) (s.points.length - 1)]? = some (q.1, some q.2) := by
    have := hpre.length_le
    rw [show (defined l).length = l.length by simp [defined]] at this
    rw [hp, Nat.min_eq_left (by omega), ← hjk]
    exact prefix_get hpre hk
  have := stepOn_knot hs hm (by rw [hp]; exact hg) (n - 1) j _ _ h1 h2
  simp only [smaEnd, this]

/-- The answer at a knot. -/
theorem degree_knot (hm : minStepQ ≤ m) {n : ℕ} (hn : 1 ≤ n) {P : List (Pt ℚ)} (hpre : defined l <+: P)
    (h : Ok (.degree n) m u P A) {k : ℕ}
    {q : ℚ × ℚ} (hk : l[k]? = some q) (hnk : n ≤ k + 1) (fuel : ℕ) :
    ∃ o, smaY (.degree n) (fuel + 1) A (.fin q.1) = some o ∧ Ok (.degree n) m u P o.st ∧
      o.res = .ok (some (meanHeight (windowAt l n k))) := by
  have hm0 : (0 : ℚ) < m := lt_of_lt_of_le (by norm_num [minStepQ]) hm
  have hlk := (List.getElem?_eq_some_iff.1 hk).1
  have hj : l[k + 1 - n]? = some l[k + 1 - n] := List.getElem?_eq_getElem _
  obtain ⟨hP, skip, seen, todo, s0⟩ := id h
  have hg : Gapped m P := by rw [← hP]; exact s0.gapped
  refine smaY_knot hm (show Fits m (.degree n) from hn) hpre h (by omega) hj hk ?_ (degree_start hm0 hpre hg (by omega) hj hk)
    (degree_end hm0 hpre hg (by omega) hj hk) fuel
  obtain ⟨d, h1, h2⟩ := degree_domain s0.src hm0 s0.gapped n q.1
  refine ⟨d, h1, h2.2 ?_⟩
  have hlen := hpre.length_le
  rw [show (defined l).length = l.length by simp [defined], ← hP] at hlen
  have ha : l[n - 1]? = some l[n - 1] := List.getElem?_eq_getElem _
  have hb : A.src.points[A.src.points.length - 1]? = some A.src.points[A.src.points.length - 1] := List.getElem?_eq_getElem _
  have ha' : A.src.points[n - 1]? = some (l[n - 1].1, some l[n - 1].2) := by rw [hP]; exact prefix_get hpre ha
  have hk' : A.src.points[k]? = some (q.1, some q.2) := by rw [hP]; exact prefix_get hpre hk
  exact ⟨_, _, ha', hb, s0.src.wf.asc.le ha' hk' (by omega), s0.src.wf.asc.le hk' hb (by omega)⟩

/-- C49: of data without missing values up to a knot, the average over `n` points there is the mean height of the line
through the last `n` points (not the mean of their values, see `C49_negation`). -/
theorem C49_mean_partial (hm : minStepQ ≤ m) {n : ℕ} (hn : 1 ≤ n) (h : Averaging (.degree n) m u A)
    (hl : defined l <+: A.src.points) {k : ℕ} {q : ℚ × ℚ} (hk : l[k]? = some q) (hnk : n ≤ k + 1) (fuel : ℕ) :
    (smaY (.degree n) (fuel + 1) A (.fin q.1)).map Out.res = some (.ok (some (meanHeight (windowAt l n k)))) := by
  have hok := averaging_ok hm (show Fits m (.degree n) from hn) h
  obtain ⟨o, h1, _, h2⟩ := degree_knot hm hn hl hok hk hnk fuel
  rw [h1, Option.map_some, h2]

/-- C49: before there are `n` points there is no average: it is defined from the `n`-th knot to the last. -/
theorem C49_domain (hm : minStepQ ≤ m) {n : ℕ} (hn : 1 ≤ n) (h : Averaging (.degree n) m u A) {x : ℚ}
    (hx : ∀ p, A.src.points[n - 1]? = some p → x < p.1) (fuel : ℕ) :
    (smaY (.degree n) (fuel + 1) A (.fin x)).map Out.res = some (.ok none) := by
  have hm0 : (0 : ℚ) < m := lt_of_lt_of_le (by norm_num [minStepQ]) hm
  obtain ⟨_, skip, seen, todo, s0⟩ := averaging_ok hm (show Fits m (.degree n) from hn) h
  obtain ⟨B, d, hB, hdB, hBp, sB⟩ := smaTouch_spec s0
  obtain ⟨d', hd', hcon⟩ := degree_domain s0.src hm0 s0.gapped n x
  rw [hdB] at hd'
  cases hd'
  have : d.contains (.fin x) = false := by
    by_contra hc
    obtain ⟨p, _, h1, _, h2, _⟩ := hcon.1 (by simpa using hc)
    exact absurd h2 (not_le.2 (hx p h1))
  unfold smaY
  simp only [hB, this, Bool.not_false, if_true]
  rfl

/-! ## Bounds -/

theorem area_bounds {lo hi : ℚ} : ∀ (l : List (ℚ × ℚ)), (l.Pairwise fun p q => p.1 < q.1) →
    (∀ p ∈ l, lo ≤ p.2 ∧ p.2 ≤ hi) →
    lo * width l ≤ totalArea .linear l ∧ totalArea .linear l ≤ hi * width l := by
  intro l
  induction l with
  | nil => intro _ _; simp [width, totalArea]
  | cons p l ih =>
    intro hasc hb
    cases l with
    | nil => simp [width, totalArea]
    | cons q l =>
      have h1 := ih (List.pairwise_cons.1 hasc).2 (fun r hr => hb r (List.mem_cons_of_mem _ hr))
      have hpq : p.1 < q.1 := (List.pairwise_cons.1 hasc).1 q (by simp)
      have hw : width (p :: q :: l) = width (q :: l) + (q.1 - p.1) := by
        simp only [width, List.head?_cons, List.getLast?_cons_cons]
        cases hl : (q :: l).getLast? with
        | none => simp at hl
        | some r => ring
      obtain ⟨b1, b2⟩ := hb p (by simp)
      obtain ⟨b3, b4⟩ := hb q (by simp)
      rw [hw]
      simp only [totalArea, areaBetween]
      constructor <;> nlinarith

theorem meanHeight_bounds {lo hi : ℚ} (hne : l ≠ []) (hasc : l.Pairwise fun p q => p.1 < q.1)
    (hb : ∀ p ∈ l, lo ≤ p.2 ∧ p.2 ≤ hi) : lo ≤ meanHeight l ∧ meanHeight l ≤ hi := by
  unfold meanHeight
  split
  · exact hb _ (by simp)
  · rename_i hl
    have hw : 0 < width l := by
      cases l with
      | nil => exact absurd rfl hne
      | cons p l =>
        cases l with
        | nil => exact absurd rfl (hl p)
        | cons q l =>
          simp only [width, List.head?_cons]
          cases hr : (p :: q :: l).getLast? with
          | none => simp at hr
          | some r =>
            have : r ∈ q :: l := by
              rw [List.getLast?_cons_cons] at hr
              exact List.mem_of_getLast? hr
            have := (List.pairwise_cons.1 hasc).1 r this
            simpa using this
    obtain ⟨h1, h2⟩ := area_bounds l hasc hb
    exact ⟨(le_div_iff₀ hw).2 h1, (div_le_iff₀ hw).2 h2⟩

theorem Ok.asc {P : List (Pt ℚ)} (h : Ok w m u P A) : Ascending P := by
  obtain ⟨rfl, _, _, _, s0⟩ := h
  exact s0.src.wf.asc

theorem window_bounds (hasc : Ascending (defined l)) {n k : ℕ} (hn : 1 ≤ n) {q : ℚ × ℚ} (hk : l[k]? = some q)
    {lo hi : ℚ} (hb : ∀ y ∈ lastValues (defined l) n k, lo ≤ y ∧ y ≤ hi) :
    lo ≤ meanHeight (windowAt l n k) ∧ meanHeight (windowAt l n k) ≤ hi := by
  have hlk := (List.getElem?_eq_some_iff.1 hk).1
  have hasc' : l.Pairwise (fun p q => p.1 < q.1) := by
    have := hasc
    unfold Ascending defined at this
    rw [List.pairwise_map] at this
    exact this
  refine meanHeight_bounds ?_ ((hasc'.sublist (List.take_sublist _ _)).sublist (List.drop_sublist _ _)) ?_
  · intro h0
    have := congrArg List.length h0
    simp only [windowAt, List.length_drop, List.length_take, List.length_nil] at this
    omega
  · intro p hp
    obtain ⟨i, hi'⟩ := List.getElem?_of_mem hp
    unfold windowAt at hi'
    rw [List.getElem?_drop] at hi'
    have hil := (List.getElem?_eq_some_iff.1 hi').1
    rw [List.length_take] at hil
    rw [List.getElem?_take_of_lt (by omega)] at hi'
    exact hb p.2 ⟨k + 1 - n + i, (p.1, some p.2), by simp [defined, hi'], by omega, by omega, rfl⟩

/-- C49: the average is between the least and the greatest of the last `n` values. -/
theorem C49_bounds (hm : minStepQ ≤ m) {n : ℕ} (hn : 1 ≤ n) (h : Averaging (.degree n) m u A)
    (hl : defined l <+: A.src.points) {k : ℕ} {q : ℚ × ℚ} (hk : l[k]? = some q) (hnk : n ≤ k + 1) (fuel : ℕ) :
    ∃ v, (smaY (.degree n) (fuel + 1) A (.fin q.1)).map Out.res = some (.ok (some v)) ∧
      ∀ lo hi, (∀ y ∈ lastValues A.src.points n k, lo ≤ y ∧ y ≤ hi) → lo ≤ v ∧ v ≤ hi := by
  refine ⟨_, C49_mean_partial hm hn h hl hk hnk fuel, fun lo hi hb => ?_⟩
  have hok := averaging_ok hm (show Fits m (.degree n) from hn) h
  obtain ⟨rest, hr⟩ := hl
  refine window_bounds ((Ok.asc hok).sublist (by rw [← hr]; exact List.sublist_append_left _ _)) hn hk fun y hy => hb y ?_
  obtain ⟨i, p, hi, h1, h2, h3⟩ := hy
  refine ⟨i, p, ?_, h1, h2, h3⟩
  rw [← hr, List.getElem?_append_left (List.getElem?_eq_some_iff.1 hi).1, hi]

/-- C49: the average of constant data is the constant. -/
theorem C49_constant (hm : minStepQ ≤ m) {n : ℕ} (hn : 1 ≤ n) (h : Averaging (.degree n) m u A)
    (hl : defined l <+: A.src.points) {c : ℚ} (hc : ∀ p ∈ l, p.2 = c) {k : ℕ} {q : ℚ × ℚ} (hk : l[k]? = some q)
    (hnk : n ≤ k + 1) (fuel : ℕ) :
    (smaY (.degree n) (fuel + 1) A (.fin q.1)).map Out.res = some (.ok (some c)) := by
  obtain ⟨v, h1, h2⟩ := C49_bounds hm hn h hl hk hnk fuel
  obtain ⟨h3, h4⟩ := h2 c c (by
    rintro y ⟨j, r, hr, hj, _, hy⟩
    obtain ⟨rest, he⟩ := hl
    have hlk := (List.getElem?_eq_some_iff.1 hk).1
    rw [← he, List.getElem?_append_left (by simp only [defined, List.length_map]; omega)] at hr
    simp only [defined, List.getElem?_map, Option.map_eq_some_iff] at hr
    obtain ⟨r', hr', rfl⟩ := hr
    cases hy
    rw [hc r' (List.mem_of_getElem? hr')]
    exact ⟨le_rfl, le_rfl⟩)
  rw [h1, le_antisymm h4 h3]

/-- For two points the mean height is the mean of the values. -/
theorem meanHeight_two {p q : ℚ × ℚ} (h : p.1 < q.1) : meanHeight [p, q] = (p.2 + q.2) / 2 := by
  have : q.1 - p.1 ≠ 0 := by linarith [sub_pos.2 h]
  simp only [meanHeight, totalArea, areaBetween, width, List.head?_cons, List.getLast?_cons_cons,
    List.getLast?_singleton]
  field_simp
  ring

/-! ## Between the knots -/

/-- The answer between two knots. -/
theorem degree_between (hm : minStepQ ≤ m) {n : ℕ} (hn : 2 ≤ n) (h : Ok (.degree n) m u (defined l) A) {k : ℕ}
    {q r : ℚ × ℚ} (hk : l[k]? = some q) (hr : l[k + 1]? = some r) (hnk : n ≤ k + 1) {x : ℚ} (hqx : q.1 < x)
    (hxr : x < r.1) (fuel : ℕ) :
    ∃ o, smaY (.degree n) (fuel + 2) A (.fin x) = some o ∧ Ok (.degree n) m u (defined l) o.st ∧
      o.res = .ok (some (
        let t := (x - q.1) / (r.1 - q.1)
        if q.1 + m ≤ x then t * meanHeight (windowAt l n k) + (1 - t) * meanHeight (windowAt l n (k + 1))
        else t * meanHeight (windowAt l n (k + 1)) + (1 - t) * meanHeight (windowAt l n k))) := by
  have hm0 : (0 : ℚ) < m := lt_of_lt_of_le (by norm_num [minStepQ]) hm
  have hlk := (List.getElem?_eq_some_iff.1 hk).1
  have hlr := (List.getElem?_eq_some_iff.1 hr).1
  obtain ⟨hP, skip, seen, todo, s0⟩ := id h
  have hg : Gapped m (defined l) := by rw [← hP]; exact s0.gapped
  obtain ⟨B, d, hB, hdB, hBp, sB⟩ := smaTouch_spec s0
  obtain ⟨d', hd', hcon⟩ := degree_domain s0.src hm0 s0.gapped n x
  rw [hdB] at hd'
  cases hd'
  have hBP : B.src.points = defined l := hBp.trans hP
  have okB : Ok (.degree n) m u (defined l) B := ⟨hBP, _, _, _, sB⟩
  have hasc : Ascending (defined l) := Ok.asc h
  have hget : ∀ {i : ℕ} {z : ℚ × ℚ}, l[i]? = some z → (defined l)[i]? = some (z.1, some z.2) := by
    intro i z hz; simp [defined, hz]
  have hin : d.contains (.fin x) = true := by
    have hlen : A.src.points.length = l.length := by rw [hP]; simp [defined]
    have ha : l[n - 1]? = some l[n - 1] := List.getElem?_eq_getElem _
    have hb : l[l.length - 1]? = some l[l.length - 1] := List.getElem?_eq_getElem _
    refine hcon.2 ⟨_, _, defined_get hP ha, by rw [hlen]; exact defined_get hP hb, ?_, ?_⟩
    · have := hasc.le (hget ha) (hget hk) (by omega)
      exact this.trans hqx.le
    · have := hasc.le (hget hr) (hget hb) (by omega)
      exact hxr.le.trans this
  obtain ⟨n, rfl⟩ : ∃ i, n = i + 2 := ⟨n - 2, by omega⟩
  by_cases hfar : q.1 + m ≤ x
  · -- the window ends at the next knot
    have hj : l[k - n]? = some l[k - n] := List.getElem?_eq_getElem _
    set p := l[k - n] with hp
    have hst : smaStart B.src (.degree (n + 2)) m x = .ok (some (.fin p.1)) := by
      have h1 : B.src.xPrevious (.fin x) (some m) = .ok (some (.fin q.1)) := by
        rw [honest_prev sB.src, hBP, lastUpTo_eq_some hasc (hget hk) (by show q.1 ≤ x - m; linarith)]
        · rfl
        · intro i z hi hz
          have := hasc.le (hget hr) hz (by omega)
          simp only at this
          linarith
      have h2 := stepBack_knot sB.src hm0 sB.gapped n k _ _ (defined_get hBP hk) (defined_get hBP hj)
      simp only [smaStart, show n + 2 - 1 = n + 1 by omega, stepBack, h1, h2]
    have hen := degree_end (n := n + 2) hm0 List.prefix_rfl hg (by omega) hj hr B.src sB.src hBP
    obtain ⟨o1, o2, y0, y1, r1, r2, r3, r4, r5, r6⟩ := slope_spec hm (show Fits m (.degree (n + 2)) by simp [Fits])
      List.prefix_rfl okB (show k - n ≤ k + 1 by omega) hj hr
    obtain ⟨hP2, sk2, se2, to2, s2⟩ := id r5
    have hpq : p.1 ≤ q.1 := hasc.le (hget hj) (hget hk) (by omega)
    have hprev : o2.st.src.xPrevious (.fin r.1) (some m) = .ok (some (.fin q.1)) :=
      prev_knot s2.src hm0 s2.gapped (defined_get hP2 hk) (defined_get hP2 hr)
    obtain ⟨o3, t1, t2, t3⟩ := degree_knot hm (show 1 ≤ n + 2 by omega) List.prefix_rfl r5 hk hnk fuel
    have n1 : (p.1 = x) = False := by simp [(hpq.trans_lt hqx).ne]
    have n2 : (r.1 = p.1) = False := by simp [((hpq.trans_lt hqx).trans hxr).ne']
    have n3 : (x = r.1) = False := by simp [hxr.ne]
    have n4 : (r.1 < x) = False := by simp [hxr.le]
    have n5 : (q.1 = x) = False := by simp [hqx.ne]
    refine ⟨⟨o3.st, o1.calls ++ (o2.calls ++ (o3.calls ++ [])), _⟩, ?_, t2, rfl⟩
    conv_lhs => unfold smaY
    simp only [hB, hin, Bool.not_true, Bool.false_eq_true, if_false, sB.step, hst, finPart, hen, n1, n2, n3, n4, n5,
      Option.some.injEq, decide_false, Bool.or_false, r1, whenSome, r2, r3, r4, s2.step, hprev, t1, t3, answer,
      Option.map_some, hfar, if_true]
    congr 6
    rw [r6, ← meanHeight_window (by omega) hj hr]
    unfold windowAt
    rw [show k + 1 + 1 - (n + 2) = k - n by omega]
  · -- the window ends at the knot before
    have hj : l[k - (n + 1)]? = some l[k - (n + 1)] := List.getElem?_eq_getElem _
    set p := l[k - (n + 1)] with hp
    have hj' : l[k - 1]? = some l[k - 1] := List.getElem?_eq_getElem _
    have hst : smaStart B.src (.degree (n + 2)) m x = .ok (some (.fin p.1)) := by
      have h1 : B.src.xPrevious (.fin x) (some m) = .ok (some (.fin (l[k - 1]).1)) := by
        have hgap := gapped_lt hm0 hg (hget hj') (hget hk) (by omega)
        simp only at hgap
        rw [honest_prev sB.src, hBP, lastUpTo_eq_some hasc (hget hj') (by show (l[k - 1]).1 ≤ x - m; linarith)]
        · rfl
        · intro i z hi hz
          have := hasc.le (hget hk) hz (by omega)
          simp only at this
          linarith
      have h2 := stepBack_knot sB.src hm0 sB.gapped n (k - 1) _ _ (defined_get hBP hj')
        (defined_get hBP (by rw [show k - 1 - n = k - (n + 1) by omega]; exact hj))
      simp only [smaStart, show n + 2 - 1 = n + 1 by omega, stepBack, h1, h2]
    have hen := degree_end (n := n + 2) hm0 List.prefix_rfl hg (by omega) hj hk B.src sB.src hBP
    obtain ⟨o1, o2, y0, y1, r1, r2, r3, r4, r5, r6⟩ := slope_spec hm (show Fits m (.degree (n + 2)) by simp [Fits])
      List.prefix_rfl okB (show k - (n + 1) ≤ k by omega) hj hk
    obtain ⟨hP2, sk2, se2, to2, s2⟩ := id r5
    have hpq : p.1 < q.1 := hasc.lt (hget hj) (hget hk) (by omega)
    have hnext : o2.st.src.xNext (.fin q.1) (some m) = .ok (some (.fin r.1)) :=
      next_knot s2.src hm0 s2.gapped (defined_get hP2 hk) (defined_get hP2 hr)
    obtain ⟨o3, t1, t2, t3⟩ := degree_knot hm (show 1 ≤ n + 2 by omega) List.prefix_rfl r5 hr (by omega) fuel
    have n1 : (p.1 = x) = False := by simp [(hpq.trans hqx).ne]
    have n2 : (q.1 = p.1) = False := by simp [hpq.ne']
    have n3 : (x = q.1) = False := by simp [hqx.ne']
    have n5 : (r.1 = x) = False := by simp [hxr.ne']
    refine ⟨⟨o3.st, o1.calls ++ (o2.calls ++ (o3.calls ++ [])), _⟩, ?_, t2, rfl⟩
    conv_lhs => unfold smaY
    simp only [hB, hin, Bool.not_true, Bool.false_eq_true, if_false, sB.step, hst, finPart, hen, n1, n2, n3, hqx, n5,
      Option.some.injEq, decide_false, Bool.or_false, r1, whenSome, r2, r3, r4, s2.step, hnext, t1, t3, answer,
      Option.map_some, hfar, if_true]
    congr 6
    rw [r6, ← meanHeight_window (by omega) hj hk]
    unfold windowAt
    rw [show k + 1 - (n + 2) = k - (n + 1) by omega]

/-- C82: between two knots the average is a mix of the averages at the two, in the proportions of the distances.
More than a step after the first one the proportions are the wrong way round (`C82_negation`). -/
theorem C82_between_partial (hm : minStepQ ≤ m) {n : ℕ} (hn : 2 ≤ n) (h : Averaging (.degree n) m u A)
    (hl : A.src.points = defined l) {k : ℕ} {q r : ℚ × ℚ} (hk : l[k]? = some q) (hr : l[k + 1]? = some r)
    (hnk : n ≤ k + 1) {x : ℚ} (hqx : q.1 < x) (hxr : x < r.1) (fuel : ℕ) :
    (smaY (.degree n) (fuel + 2) A (.fin x)).map Out.res = some (.ok (some (
      let t := (x - q.1) / (r.1 - q.1)
      let a := meanHeight (windowAt l n k)
      let b := meanHeight (windowAt l n (k + 1))
      if x < q.1 + m then (1 - t) * a + t * b else (1 - t) * b + t * a))) := by
  have hok := averaging_ok hm (show Fits m (.degree n) by simp only [Fits]; omega) h
  rw [hl] at hok
  obtain ⟨o, h1, _, h2⟩ := degree_between hm hn hok hk hr hnk hqx hxr fuel
  rw [h1, Option.map_some, h2]
  by_cases hc : x < q.1 + m
  · simp only [if_pos hc, if_neg (not_le.2 hc)]
    rw [add_comm]
  · simp only [if_neg hc, if_pos (not_lt.1 hc)]
    rw [add_comm]

/-- C82: it stays between the two averages. -/
theorem C82_bounds (hm : minStepQ ≤ m) {n : ℕ} (hn : 2 ≤ n) (h : Averaging (.degree n) m u A)
    (hl : A.src.points = defined l) {k : ℕ} {q r : ℚ × ℚ} (hk : l[k]? = some q) (hr : l[k + 1]? = some r)
    (hnk : n ≤ k + 1) {x a b : ℚ} (hqx : q.1 < x) (hxr : x < r.1) (fuel : ℕ)
    (ha : (smaY (.degree n) (fuel + 1) A (.fin q.1)).map Out.res = some (.ok (some a)))
    (hb : (smaY (.degree n) (fuel + 1) A (.fin r.1)).map Out.res = some (.ok (some b))) :
    ∃ v, (smaY (.degree n) (fuel + 2) A (.fin x)).map Out.res = some (.ok (some v)) ∧ min a b ≤ v ∧ v ≤ max a b := by
  rw [C49_mean_partial hm (by omega) h (hl ▸ List.prefix_rfl) hk hnk fuel] at ha
  rw [C49_mean_partial hm (by omega) h (hl ▸ List.prefix_rfl) hr (by omega) fuel] at hb
  cases ha
  cases hb
  refine ⟨_, C82_between_partial hm hn h hl hk hr hnk hqx hxr fuel, ?_⟩
  set a := meanHeight (windowAt l n k)
  set b := meanHeight (windowAt l n (k + 1))
  have hd : 0 < r.1 - q.1 := by linarith
  have t0 : 0 ≤ (x - q.1) / (r.1 - q.1) := div_nonneg (by linarith) hd.le
  have t1 : (x - q.1) / (r.1 - q.1) ≤ 1 := (div_le_one hd).2 (by linarith)
  set t := (x - q.1) / (r.1 - q.1)
  have h1 := min_le_left a b
  have h2 := min_le_right a b
  have h3 := le_max_left a b
  have h4 := le_max_right a b
  simp only
  split_ifs <;> constructor <;> nlinarith

/-! ## A length of time -/

theorem getDomain_ends {pts : List (Pt ℚ)} {b c : Pt ℚ} (h0 : pts[0]? = some b)
    (hl : pts[pts.length - 1]? = some c) : getDomain pts = Iv.closed b.1 c.1 := by
  cases pts with
  | nil => simp at h0
  | cons p ps =>
    have := getLast_mem_idx (pts := p :: ps) (by simp)
    rw [hl] at this
    cases h0
    cases this
    rfl

theorem spaced_get {a d : ℚ} (he : Spaced a d l) {i : ℕ} {p : Pt ℚ}
    (hi : (defined l)[i]? = some p) : p.1 = a + i * d := by
  simp only [defined, List.getElem?_map, Option.map_eq_some_iff] at hi
  obtain ⟨z, hz, rfl⟩ := hi
  exact he i z hz

/-- The domain of an average over a length of time that `n` points span. -/
theorem period_domain {src : Pts ℚ} (h : Honest src) {per a d : ℚ} {n : ℕ} (hn : 1 ≤ n) (hd : 0 < d)
    (hlo : (n - 1) * d + m ≤ per) (hhi : per < n * d + m) (hl : src.points = defined l) (he : Spaced a d l)
    (hnl : n ≤ l.length) :
    ∃ p q, l[n - 1]? = some p ∧ l[l.length - 1]? = some q ∧
      smaDomain src (.period per) m = .ok (Iv.closed p.1 q.1) := by
  have hb0 : l[0]? = some l[0] := List.getElem?_eq_getElem _
  have hlast : l[l.length - 1]? = some l[l.length - 1] := List.getElem?_eq_getElem _
  have hn' : l[n - 1]? = some l[n - 1] := List.getElem?_eq_getElem _
  have hget : ∀ {i : ℕ} {z : ℚ × ℚ}, l[i]? = some z → src.points[i]? = some (z.1, some z.2) := by
    intro i z hz; simp [hl, defined, hz]
  have hlen : src.points.length = l.length := by rw [hl]; simp [defined]
  refine ⟨_, _, hn', hlast, ?_⟩
  have hfirst := he _ _ hb0
  have hn'x := he _ _ hn'
  have hcn : ((n - 1 : ℕ) : ℚ) = n - 1 := by rw [Nat.cast_sub hn]; norm_num
  rw [hcn] at hn'x
  have hdv := getDomain_ends (hget hb0) (by rw [hlen]; exact hget hlast)
  have hee := getDomain_not_isEmpty h.wf.asc (by intro h0; rw [h0] at hlen; simp at hlen; omega)
  have hprev : src.xPrevious (.fin ((l[0]).1 + per)) (some m) = .ok (some (.fin (l[n - 1]).1)) := by
    rw [honest_prev h, lastUpTo_eq_some h.wf.asc (hget hn') (by
      show (l[n - 1]).1 ≤ (l[0]).1 + per - m; rw [hn'x, hfirst]; push_cast; nlinarith)]
    · rfl
    · intro i z hi hz
      rw [hl] at hz
      rw [spaced_get he hz, hfirst]
      have : (n : ℚ) ≤ i := by exact_mod_cast (by omega : n ≤ i)
      push_cast
      nlinarith
  have h1 : (l[n - 1]).1 ≤ (l[l.length - 1]).1 := h.wf.asc.le (hget hn') (hget hlast) (by omega)
  unfold smaDomain
  rw [h.wf.domVal, hee, hdv]
  simp only [Iv.closed, Bool.false_eq_true, if_false, hprev, domainFrom, add_sub_cancel, not_lt.2 h1]

/-- C49: over equally spaced points, an average over a length of time that `n` points span is the average over
`n` points. -/
theorem C49_period_partial (hm : minStepQ ≤ m) {per a d : ℚ} {n : ℕ} (hn : 1 ≤ n) (hd : 0 < d)
    (hlo : (n - 1) * d + m ≤ per) (hhi : per < n * d + m) (h : Averaging (.period per) m u A)
    (hl : A.src.points = defined l) (he : Spaced a d l) {k : ℕ} {q : ℚ × ℚ}
    (hk : l[k]? = some q) (hnk : n ≤ k + 1) (fuel : ℕ) :
    (smaY (.period per) (fuel + 1) A (.fin q.1)).map Out.res = some (.ok (some (meanHeight (windowAt l n k)))) := by
  have hn1 : (1 : ℚ) ≤ n := by exact_mod_cast hn
  have hm0 : (0 : ℚ) < m := lt_of_lt_of_le (by norm_num [minStepQ]) hm
  have hfit : Fits m (.period per) := by
    show m ≤ per
    nlinarith
  have hok := averaging_ok hm hfit h
  rw [hl] at hok
  have hasc := Ok.asc hok
  have hlk := (List.getElem?_eq_some_iff.1 hk).1
  have hj : l[k + 1 - n]? = some l[k + 1 - n] := List.getElem?_eq_getElem _
  have hget : ∀ {i : ℕ} {z : ℚ × ℚ}, l[i]? = some z → (defined l)[i]? = some (z.1, some z.2) := by
    intro i z hz; simp [defined, hz]
  set p := l[k + 1 - n] with hp
  have hpx := he _ _ hj
  have hqx := he _ _ hk
  have hcast : ((k + 1 - n : ℕ) : ℚ) = k + 1 - n := by
    rw [Nat.cast_sub hnk]; push_cast; ring
  rw [hcast] at hpx
  have hs : ∀ s, Honest s → s.points = defined l → smaStart s (.period per) m q.1 = .ok (some (.fin p.1)) := by
    intro s hs hsp
    simp only [smaStart]
    rw [honest_next hs, hsp, firstFrom_eq_some hasc (hget hj) (by show q.1 - per + m ≤ p.1; rw [hpx, hqx]; nlinarith)]
    · rfl
    · intro i z hi hz
      rw [spaced_get he hz, hqx]
      have : (i : ℚ) ≤ k - n := by
        have : i + n ≤ k := by omega
        have : ((i + n : ℕ) : ℚ) ≤ k := by exact_mod_cast this
        push_cast at this
        linarith
      nlinarith
  have hen : ∀ s, Honest s → s.points = defined l → smaEnd s (.period per) m p.1 = .ok (some (.fin q.1)) := by
    intro s hs hsp
    simp only [smaEnd]
    rw [honest_prev hs, hsp, lastUpTo_eq_some hasc (hget hk) (by show q.1 ≤ p.1 + per - m; rw [hpx, hqx]; nlinarith)]
    · rfl
    · intro i z hi hz
      rw [spaced_get he hz, hpx]
      have : (k : ℚ) + 1 ≤ i := by exact_mod_cast hi
      nlinarith
  have hdom : ∃ dm, smaDomain A.src (.period per) m = .ok dm ∧ dm.contains (.fin q.1) = true := by
    obtain ⟨hP, skip, seen, todo, s0⟩ := id hok
    obtain ⟨x, z, h1, h2, h3⟩ := period_domain s0.src hn hd hlo hhi hl he (by omega)
    refine ⟨_, h3, ?_⟩
    have := hasc.le (hget h1) (hget hk) (by omega)
    have := hasc.le (hget hk) (hget h2) (by omega)
    simp_all [Iv.contains_closed]
  obtain ⟨o, h1, _, h2⟩ := smaY_knot hm hfit List.prefix_rfl hok (by omega) hj hk hdom hs hen fuel
  rw [h1, Option.map_some, h2]
  rfl

/-- C49: an average over a length of time that `n` points span starts at the `n`-th of them. -/
theorem C49_period_domain_partial (hm : minStepQ ≤ m) {per a d : ℚ} {n : ℕ} (hn : 1 ≤ n) (hd : 0 < d)
    (hlo : (n - 1) * d + m ≤ per) (hhi : per < n * d + m) (h : Averaging (.period per) m u A)
    (hl : A.src.points = defined l) (he : Spaced a d l) {p : ℚ × ℚ} (hp : l[n - 1]? = some p) {x : ℚ} (hx : x < p.1)
    (fuel : ℕ) : (smaY (.period per) (fuel + 1) A (.fin x)).map Out.res = some (.ok none) := by
  have hn1 : (1 : ℚ) ≤ n := by exact_mod_cast hn
  have hm0 : (0 : ℚ) < m := lt_of_lt_of_le (by norm_num [minStepQ]) hm
  have hlp := (List.getElem?_eq_some_iff.1 hp).1
  obtain ⟨_, skip, seen, todo, s0⟩ := averaging_ok hm (w := .period per) (by show m ≤ per; nlinarith) h
  obtain ⟨B, dm, hB, hdB, hBp, sB⟩ := smaTouch_spec s0
  obtain ⟨p', q, h1, h2, h3⟩ := period_domain s0.src hn hd hlo hhi hl he (by omega)
  rw [hp] at h1
  cases h1
  rw [hdB] at h3
  cases h3
  have : (Iv.closed p.1 q.1).contains (.fin x) = false := by
    rw [Bool.eq_false_iff]
    intro hc
    simp [Iv.contains_closed] at hc
    linarith [hc.1]
  unfold smaY
  simp only [hB, this, Bool.not_false, if_true]
  rfl

/-! ## Only the past -/

/-- C83: the average over `n` points at a knot depends only on the points up to it, not on later ones nor on
what was asked before. -/
theorem C83_past_partial (hm : minStepQ ≤ m) {n : ℕ} (hn : 1 ≤ n) (h : Averaging (.degree n) m u A) {B : Accum}
    (h' : Averaging (.degree n) m u B) {l' : List (ℚ × ℚ)} (hl : defined l <+: A.src.points)
    (hl' : defined l' <+: B.src.points) {k : ℕ} {q : ℚ × ℚ} (hk : l[k]? = some q) (hnk : n ≤ k + 1)
    (hp : l.take (k + 1) = l'.take (k + 1)) (fuel : ℕ) :
    (smaY (.degree n) (fuel + 1) A (.fin q.1)).map Out.res = (smaY (.degree n) (fuel + 1) B (.fin q.1)).map Out.res := by
  have hk' : l'[k]? = some q := by
    rw [← List.getElem?_take_of_lt (Nat.lt_succ_self k), ← hp, List.getElem?_take_of_lt (Nat.lt_succ_self k), hk]
  rw [C49_mean_partial hm hn h hl hk hnk, C49_mean_partial hm hn h' hl' hk' hnk]
  unfold windowAt
  rw [hp]

/-! ## Witnesses -/

theorem allFit_of_spaced {pts : List (Pt ℚ)} (hg : Gapped m pts) (he : EquallySpaced pts) : AllFit m u pts := by
  rintro l ⟨pre, rfl⟩
  obtain ⟨d, hd⟩ := he
  have h1 : EquallySpaced l := ⟨d, hd.right_of_append⟩
  refine ⟨List.IsChain.right_of_append hg, ?_, fun _ => h1⟩
  intro a p q r hp _
  exact EquallySpaced.prefix hp h1

/-- `SMA(Points(pts, uniform=False), w, min_step=m)`. -/
def smaOver (pts : List (Pt ℚ)) (m : ℚ) (u : Bool := true) : Accum := Accum.new (loose pts) m .linear u

theorem smaOver_averaging {pts : List (Pt ℚ)} (hw : w.valid = true) (h : Ascending pts) (he : EquallySpaced pts)
    (hs : ((Pts.blank .linear false).set pts none Accum.quiet).err = none) (hp : (loose pts).points = pts)
    (hg : Gapped m pts) : Averaging w m u (smaOver pts m u) := by
  refine .new (loose_honest h he hs) (by rw [hp]; exact allFit_of_spaced hg he) ?_
  rw [Sma.new, if_pos hw, smaOver]

/-- What is answered after other queries. -/
def smaAfter (w : Window) (A : Accum) : List ℚ → ℚ → Option (Except Err (Option ℚ))
  | [], x => (smaY w 5 A (.fin x)).map Out.res
  | z :: zs, x => (smaY w 5 A (.fin z)).bind fun o => smaAfter w o.st zs x

def stepPts : List (Pt ℚ) := [(0, some 0), (1, some 0), (2, some 3), (3, some 9)]

theorem step_averaging (hw : w.valid = true) (hm : m ≤ 1) : Averaging w m u (smaOver stepPts m u) := by
  refine smaOver_averaging hw (by norm_num [Ascending, stepPts]) ⟨1, by norm_num [stepPts]⟩ (by decide +kernel)
    (by decide +kernel) ?_
  simp only [Gapped, stepPts]
  norm_num
  exact ⟨hm, by linarith, by linarith⟩

/-- C49 does not hold: the average over three points with the values `0`, `0`, `3` is `3/4`, not `1`. -/
theorem C49_negation : Averaging (.degree 3) 1 true (smaOver stepPts 1) ∧
    smaAfter (.degree 3) (smaOver stepPts 1) [] 2 = some (.ok (some (3/4))) ∧ ((0 + 0 + 3) / 3 : ℚ) ≠ 3/4 := by
  refine ⟨step_averaging rfl le_rfl, ?_, by norm_num⟩
  decide +kernel

/-- C49 does not hold: with missing values the answer depends on what was asked before.  `None` after no query,
`0` after a query at `1`. -/
theorem C49_negation_history :
    let A := smaOver [(0, some 1), (1, none), (2, none), (3, some 3)] 1
    Averaging (.degree 2) 1 true A ∧ smaAfter (.degree 2) A [] 3 = some (.ok none) ∧
      smaAfter (.degree 2) A [1] 3 = some (.ok (some 0)) := by
  refine ⟨smaOver_averaging rfl (by norm_num [Ascending]) ⟨1, by norm_num⟩ (by decide +kernel) (by decide +kernel)
    (by norm_num [Gapped]), ?_, ?_⟩ <;> decide +kernel

/-- C49 does not hold: over a length of time there is an average before that time has passed: of two points, `1`
apart, over `10`. -/
theorem C49_negation_period :
    let A := smaOver [(0, some 4), (1, some 6)] 1
    Averaging (.period 10) 1 true A ∧ smaAfter (.period 10) A [] 1 = some (.ok (some 5)) := by
  refine ⟨smaOver_averaging rfl (by norm_num [Ascending]) ⟨1, by norm_num⟩ (by decide +kernel) (by decide +kernel)
    (by norm_num [Gapped]), ?_⟩
  decide +kernel

/-- C82 does not hold: between the averages `0` at `1` and `3/2` at `2` it is `9/8` a quarter of the way, and
`3/8` three quarters of the way. -/
theorem C82_negation :
    let A := smaOver stepPts (1/100)
    Averaging (.degree 2) (1/100) true A ∧
      smaAfter (.degree 2) A [] 1 = some (.ok (some 0)) ∧ smaAfter (.degree 2) A [] 2 = some (.ok (some (3/2))) ∧
      smaAfter (.degree 2) A [] (5/4) = some (.ok (some (9/8))) ∧
      smaAfter (.degree 2) A [] (7/4) = some (.ok (some (3/8))) := by
  refine ⟨step_averaging rfl (by norm_num), ?_, ?_, ?_, ?_⟩ <;> decide +kernel

/-- The last gap is not the average of the others. -/
def gapOk (k : List (Pt ℚ)) : Bool :=
  match k, k.reverse with
  | p :: _, r :: q :: _ => k.length < 3 || decide (r.1 - q.1 ≠ (q.1 - p.1) / (k.length - 2 : ℕ))
  | _, _ => true

theorem allFit_of_gaps {pts : List (Pt ℚ)} (hg : Gapped m pts)
    (h : ∀ l ∈ pts.tails, ∀ k ∈ l.inits, gapOk k = true) : AllFit m false pts := by
  intro l hl
  have hl' := h l (by rw [List.mem_tails]; exact hl)
  obtain ⟨pre, rfl⟩ := hl
  refine ⟨List.IsChain.right_of_append hg, ?_, by simp⟩
  intro a p q r hp hgap
  have := hl' _ ((List.mem_inits _ _).2 hp)
  simp [gapOk] at this
  rcases this with h1 | h1
  · omega
  · exact absurd hgap h1

def wildPts : List (Pt ℚ) := [(0, some 0), (2, some 0), (3, some 3), (7/2, some 9), (22/5, some 12)]

theorem wild_averaging (n : ℕ) (hn : n = 3 ∨ n = 5) (hw : w.valid = true) :
    Averaging w (1/100) false (smaOver (wildPts.take n) (1/100) false) := by
  have main : ∀ pts : List (Pt ℚ), Ascending pts → ((Pts.blank .linear false).set pts none Accum.quiet).err = none →
      (loose pts).isUniform = false → (loose pts).points = pts → Gapped (1/100) pts →
      (∀ l ∈ pts.tails, ∀ k ∈ l.inits, gapOk k = true) → Averaging w (1/100) false (smaOver pts (1/100) false) := by
    intro pts h1 h2 h3 h4 h5 h6
    refine .new (s := loose pts) ?_ (by rw [h4]; exact allFit_of_gaps h5 h6) (by rw [Sma.new, if_pos hw, smaOver])
    refine .new (pts := pts) (i := .linear) (u := false) h1 ?_ ?_
    · have h' : ((blank .linear false).set pts none ⟨false, false⟩).err = none := h2
      simp [Pts.new, h', loose, quiet]
    · intro hu
      simp [h3] at hu
  rcases hn with rfl | rfl
  · exact main _ (by norm_num [Ascending, wildPts]) (by decide +kernel) (by decide +kernel) (by decide +kernel)
      (by norm_num [Gapped, wildPts]) (by decide +kernel)
  · exact main _ (by norm_num [Ascending, wildPts]) (by decide +kernel) (by decide +kernel) (by decide +kernel)
      (by norm_num [Gapped, wildPts]) (by decide +kernel)

/-- C83 does not hold: over a length of time and irregular points, the average at `3` changes with the values at
later points. -/
theorem C83_negation :
    let A := smaOver (wildPts.take 5) (1/100) false
    let B := smaOver (wildPts.take 3) (1/100) false
    Averaging (.period 3) (1/100) false A ∧ Averaging (.period 3) (1/100) false B ∧
      smaAfter (.period 3) A [] 3 = some (.ok (some (93/16))) ∧ smaAfter (.period 3) B [] 3 = some (.ok (some (3/2))) := by
  refine ⟨wild_averaging 5 (by simp) rfl, wild_averaging 3 (by simp) rfl, ?_, ?_⟩ <;> decide +kernel

/-! ## Examples -/

def stepList : List (ℚ × ℚ) := [(0, 0), (1, 0), (2, 3), (3, 9)]

theorem step_points {m : ℚ} : (smaOver stepPts m u).src.points = defined stepList := by
  show (loose stepPts).points = defined stepList
  decide +kernel

theorem step_points_prefix {m : ℚ} : defined stepList <+: (smaOver stepPts m u).src.points := by
  rw [step_points]

example : (smaY (.degree 3) 1 (smaOver stepPts 1) (.fin 3)).map Out.res = some (.ok (some (15/4))) := by
  have := C49_mean_partial (by norm_num [minStepQ]) (by norm_num) (step_averaging (w := .degree 3) (u := true) rfl le_rfl)
    step_points_prefix (k := 3) (q := (3, 9)) rfl (by norm_num) 0
  rw [this]
  norm_num [windowAt, stepList, meanHeight, totalArea, areaBetween, width]

-- after a query and an edit
example : (smaY (.degree 2) 1 ((smaOver stepPts 1).edit (.append (4, some 1)) quiet).1 (.fin 4)).map Out.res =
    some (.ok (some 5)) := by
  decide +kernel

example : (smaY (.degree 3) 1 (smaOver stepPts 1) (.fin (3/2))).map Out.res = some (.ok none) :=
  C49_domain (by norm_num [minStepQ]) (by norm_num) (step_averaging rfl le_rfl) (by
    rw [step_points]
    intro p hp
    simp [defined, stepList] at hp
    subst hp
    norm_num) 0

example : ∃ v, (smaY (.degree 2) 1 (smaOver stepPts 1) (.fin 3)).map Out.res = some (.ok (some v)) ∧ 3 ≤ v ∧ v ≤ 9 := by
  obtain ⟨v, h1, h2⟩ := C49_bounds (by norm_num [minStepQ]) (by norm_num)
    (step_averaging (w := .degree 2) (u := true) rfl le_rfl) step_points_prefix (k := 3) (q := (3, 9)) rfl (by norm_num) 0
  refine ⟨v, h1, h2 3 9 ?_⟩
  rintro y ⟨j, r, hr, h3, h4, hy⟩
  rw [step_points] at hr
  obtain rfl | rfl : j = 2 ∨ j = 3 := by omega
  all_goals
    simp [defined, stepList] at hr
    subst hr
    simp at hy
    subst hy
    norm_num

example : smaAfter (.degree 3) (smaOver [(0, some 7), (1, some 7), (2, some 7), (3, some 7)] 1) [3, 2] 3 =
    some (.ok (some 7)) := by
  decide +kernel

example : (smaY (.degree 2) 2 (smaOver stepPts (1/100)) (.fin (3/2 + 1))).map Out.res = some (.ok (some (15/4))) := by
  have := C82_between_partial (m := 1/100) (by norm_num [minStepQ]) le_rfl
    (step_averaging (w := .degree 2) (u := true) rfl (by norm_num)) step_points (k := 2) (q := (2, 3)) (r := (3, 9)) rfl rfl
    (by norm_num) (x := 3/2 + 1) (by norm_num) (by norm_num) 0
  rw [this]
  norm_num [windowAt, stepList, meanHeight, totalArea, areaBetween, width]

example : (smaY (.period 3) 1 (smaOver stepPts 1) (.fin 3)).map Out.res = some (.ok (some (15/4))) := by
  have := C49_period_partial (n := 3) (by norm_num [minStepQ]) (by norm_num) (d := 1) (a := 0) (by norm_num) (by norm_num)
    (by norm_num) (step_averaging (w := .period 3) (u := true) (by decide +kernel) le_rfl) step_points (by
      intro i p hp
      match i with
      | 0 | 1 | 2 | 3 => simp [stepList] at hp; subst hp; norm_num
      | n + 4 => simp [stepList] at hp) (k := 3) (q := (3, 9)) rfl (by norm_num) 0
  rw [this]
  norm_num [windowAt, stepList, meanHeight, totalArea, areaBetween, width]

example : smaAfter (.period 3) (smaOver stepPts 1) [] 1 = some (.ok none) := by decide +kernel

-- `stepPts` and the same without its last point
example : smaAfter (.degree 2) (smaOver stepPts 1) [3] 2 = smaAfter (.degree 2) (smaOver (stepPts.take 3) 1) [] 2 := by
  decide +kernel

end Props
end Curvepy
