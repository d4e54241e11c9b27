import Verif.Spec.Sma
import Verif.Props.Averages

/-!
# Lemmas about `Model/Sma`
-/

namespace Curvepy
namespace Sma
open Spec Pts Accum

variable {m : ℚ} {u : Bool} {w : Window} {src : Pts ℚ}

/-! ## Steps from knot to knot -/

theorem honest_next (h : Honest src) (x m : ℚ) :
    src.xNext (.fin x) (some m) = .ok ((firstFrom src.points (x + m)).map .fin) :=
  xNext_fin h.wf (by rw [Props.Honest.minStep h]; rfl) x

theorem honest_prev (h : Honest src) (x m : ℚ) :
    src.xPrevious (.fin x) (some m) = .ok ((lastUpTo src.points (x - m)).map .fin) :=
  xPrevious_fin h.wf (by rw [Props.Honest.minStep h]; rfl) x

theorem gapped_lt (hm : 0 < m) {pts : List (Pt ℚ)} (h : Gapped m pts) {i j : ℕ} {p q : Pt ℚ}
    (hi : pts[i]? = some p) (hj : pts[j]? = some q) (hij : i < j) : p.1 + m ≤ q.1 := by
  obtain ⟨j, rfl⟩ : ∃ k, j = k + 1 := ⟨j - 1, by omega⟩
  have hlj := (List.getElem?_eq_some_iff.1 hj).1
  have hk : pts[j]? = some pts[j] := List.getElem?_eq_getElem _
  have h1 := (ascending_of_gapped hm h).le hi hk (by omega)
  have h2 := List.isChain_iff_getElem.1 h j hlj
  rw [(List.getElem?_eq_some_iff.1 hj).2] at h2
  linarith

theorem next_knot (h : Honest src) (hm : 0 < m) (hg : Gapped m src.points) {k : ℕ} {p q : Pt ℚ}
    (hk : src.points[k]? = some p) (hq : src.points[k + 1]? = some q) :
    src.xNext (.fin p.1) (some m) = .ok (some (.fin q.1)) := by
  rw [honest_next h, firstFrom_eq_some h.wf.asc hq (gapped_lt hm hg hk hq (by omega))]
  · rfl
  · intro i r hi hr
    have := h.wf.asc.le hr hk (by omega)
    linarith

theorem next_last (h : Honest src) (hm : 0 < m) {k : ℕ} {p : Pt ℚ}
    (hk : src.points[k]? = some p) (hq : src.points.length = k + 1) :
    src.xNext (.fin p.1) (some m) = .ok none := by
  rw [honest_next h, firstFrom_eq_none]
  · rfl
  · intro r hr
    obtain ⟨i, hi⟩ := List.getElem?_of_mem hr
    have := h.wf.asc.le hi hk (by have := (List.getElem?_eq_some_iff.1 hi).1; omega)
    linarith

theorem prev_knot (h : Honest src) (hm : 0 < m) (hg : Gapped m src.points) {k : ℕ} {p q : Pt ℚ}
    (hk : src.points[k]? = some p) (hq : src.points[k + 1]? = some q) :
    src.xPrevious (.fin q.1) (some m) = .ok (some (.fin p.1)) := by
  rw [honest_prev h, lastUpTo_eq_some h.wf.asc hk (by linarith [gapped_lt hm hg hk hq (by omega)])]
  · rfl
  · intro i r hi hr
    have := h.wf.asc.le hq hr (by omega)
    linarith

theorem prev_first (h : Honest src) (hm : 0 < m) {p : Pt ℚ} (hk : src.points[0]? = some p) :
    src.xPrevious (.fin p.1) (some m) = .ok none := by
  rw [honest_prev h, lastUpTo_eq_none]
  · rfl
  · intro r hr
    obtain ⟨i, hi⟩ := List.getElem?_of_mem hr
    have := h.wf.asc.le hk hi (by omega)
    linarith

theorem stepBack_knot (h : Honest src) (hm : 0 < m) (hg : Gapped m src.points) :
    ∀ (n k : ℕ) (p q : Pt ℚ), src.points[k]? = some p → src.points[k - n]? = some q →
      stepBack src m n (.fin p.1) = .ok (.fin q.1) := by
  intro n
  induction n with
  | zero =>
    intro k p q hp hq
    rw [Nat.sub_zero, hp] at hq
    cases hq; rfl
  | succ n ih =>
    intro k p q hp hq
    cases k with
    | zero =>
      rw [Nat.zero_sub, hp] at hq
      cases hq
      simp only [stepBack, prev_first h hm hp]
    | succ k =>
      have hl := (List.getElem?_eq_some_iff.1 hp).1
      have hk : src.points[k]? = some src.points[k] := List.getElem?_eq_getElem _
      simp only [stepBack, prev_knot h hm hg hk hp]
      exact ih k _ q hk (by rw [show k - n = k + 1 - (n + 1) by omega]; exact hq)

theorem stepOn_knot (h : Honest src) (hm : 0 < m) (hg : Gapped m src.points) :
    ∀ (n k : ℕ) (p q : Pt ℚ), src.points[k]? = some p →
      src.points[min (k + n) (src.points.length - 1)]? = some q →
      stepOn src m n (.fin p.1) = .ok (.fin q.1) := by
  intro n
  induction n with
  | zero =>
    intro k p q hp hq
    have hl := (List.getElem?_eq_some_iff.1 hp).1
    rw [Nat.add_zero, Nat.min_eq_left (by omega), hp] at hq
    cases hq; rfl
  | succ n ih =>
    intro k p q hp hq
    have hl := (List.getElem?_eq_some_iff.1 hp).1
    by_cases hlast : src.points.length = k + 1
    · rw [Nat.min_eq_right (by omega), hlast, Nat.add_sub_cancel, hp] at hq
      cases hq
      simp only [stepOn, next_last h hm hp hlast]
    · have hk : src.points[k + 1]? = some src.points[k + 1] := List.getElem?_eq_getElem _
      simp only [stepOn, next_knot h hm hg hp hk]
      exact ih (k + 1) _ q hk (by rw [show k + 1 + n = k + (n + 1) by omega]; exact hq)

theorem forward_knot (h : Honest src) (hm : 0 < m) (hg : Gapped m src.points) :
    ∀ (n k : ℕ) (p : Pt ℚ), src.points[k]? = some p →
      forward src m n (.fin p.1) = .ok ((src.points[k + n]?).map fun q => .fin q.1) := by
  intro n
  induction n with
  | zero =>
    intro k p hp
    rw [Nat.add_zero, hp]; rfl
  | succ n ih =>
    intro k p hp
    have hl := (List.getElem?_eq_some_iff.1 hp).1
    by_cases hlast : src.points.length = k + 1
    · rw [List.getElem?_eq_none (by omega)]
      simp only [forward, next_last h hm hp hlast, Option.map_none]
    · have hk : src.points[k + 1]? = some src.points[k + 1] := List.getElem?_eq_getElem _
      simp only [forward, next_knot h hm hg hp hk]
      rw [ih (k + 1) _ hk, show k + 1 + n = k + (n + 1) by omega]

/-! ## Only the points of the source matter -/

variable {src' : Pts ℚ}

theorem stepBack_congr (h : Honest src) (h' : Honest src') (hp : src.points = src'.points) (n : ℕ) :
    ∀ x : ℚ, stepBack src m n (.fin x) = stepBack src' m n (.fin x) := by
  induction n with
  | zero => intro x; rfl
  | succ n ih =>
    intro x
    simp only [stepBack, honest_prev h, honest_prev h', hp]
    cases lastUpTo src'.points (x - m) with
    | none => rfl
    | some z => exact ih z

theorem forward_congr (h : Honest src) (h' : Honest src') (hp : src.points = src'.points) (n : ℕ) :
    ∀ x : ℚ, forward src m n (.fin x) = forward src' m n (.fin x) := by
  induction n with
  | zero => intro x; rfl
  | succ n ih =>
    intro x
    simp only [forward, honest_next h, honest_next h', hp]
    cases firstFrom src'.points (x + m) with
    | none => rfl
    | some z => exact ih z

theorem smaDomain_congr (h : Honest src) (h' : Honest src') (hp : src.points = src'.points) (w : Window) :
    smaDomain src w m = smaDomain src' w m := by
  unfold smaDomain
  rw [h.wf.domVal, h'.wf.domVal, hp]
  split
  · rfl
  · split
    · cases w with
      | period p => simp only [honest_prev h, honest_prev h', hp]
      | degree n => simp only [forward_congr h h' hp]
    · rfl

/-! ## The start of the window of a knot -/

/-- Where the window of knot `k` starts. -/
theorem start_knot (h : Honest src) (hm : 0 < m) (hg : Gapped m src.points) (hw : Fits m w) {k : ℕ} {p : Pt ℚ}
    (hk : src.points[k]? = some p) :
    ∃ j q, j ≤ k ∧ src.points[j]? = some q ∧ smaStart src w m p.1 = .ok (some (.fin q.1)) := by
  have hl := (List.getElem?_eq_some_iff.1 hk).1
  cases w with
  | degree n =>
    have hj : src.points[k - (n - 1)]? = some src.points[k - (n - 1)] := List.getElem?_eq_getElem _
    refine ⟨k - (n - 1), _, by omega, hj, ?_⟩
    simp only [smaStart, stepBack_knot h hm hg _ _ _ _ hk hj]
  | period per =>
    have hw : m ≤ per := hw
    simp only [smaStart, honest_next h]
    rcases Props.firstFrom_least h.wf.asc (p.1 - per + m) with ⟨z, h1, ⟨q, hq, rfl, hle⟩, h2⟩ | ⟨h1, h2⟩
    · obtain ⟨j, hj⟩ := List.getElem?_of_mem hq
      refine ⟨j, q, ?_, hj, by rw [h1]; rfl⟩
      have h3 : q.1 ≤ p.1 := h2 ⟨p, List.mem_of_getElem? hk, rfl, by linarith⟩
      by_contra hc
      have := h.wf.asc.lt hk hj (by omega)
      linarith
    · have := h2 p (List.mem_of_getElem? hk)
      linarith

theorem start_mono (h : Honest src) (hm : 0 < m) (hg : Gapped m src.points)
    {k k' : ℕ} {p p' : Pt ℚ} (hk : src.points[k]? = some p) (hk' : src.points[k']? = some p') (hkk : k ≤ k')
    {z z' : ℚ} (hz : smaStart src w m p.1 = .ok (some (.fin z)))
    (hz' : smaStart src w m p'.1 = .ok (some (.fin z'))) : z ≤ z' := by
  have hl := (List.getElem?_eq_some_iff.1 hk).1
  have hl' := (List.getElem?_eq_some_iff.1 hk').1
  cases w with
  | degree n =>
    have hj : src.points[k - (n - 1)]? = some src.points[k - (n - 1)] := List.getElem?_eq_getElem _
    have hj' : src.points[k' - (n - 1)]? = some src.points[k' - (n - 1)] := List.getElem?_eq_getElem _
    simp only [smaStart, stepBack_knot h hm hg _ _ _ _ hk hj, Except.ok.injEq, Option.some.injEq,
      Ext.fin.injEq] at hz
    simp only [smaStart, stepBack_knot h hm hg _ _ _ _ hk' hj', Except.ok.injEq, Option.some.injEq,
      Ext.fin.injEq] at hz'
    rw [← hz, ← hz']
    exact h.wf.asc.le hj hj' (by omega)
  | period per =>
    simp only [smaStart, honest_next h, Except.ok.injEq] at hz hz'
    have hpp := h.wf.asc.le hk hk' hkk
    rcases Props.firstFrom_least h.wf.asc (p.1 - per + m) with ⟨y, h1, h2, h3⟩ | ⟨h1, h2⟩
    · rw [h1] at hz
      simp only [Option.map_some, Option.some.injEq, Ext.fin.injEq] at hz
      subst hz
      rcases Props.firstFrom_least h.wf.asc (p'.1 - per + m) with ⟨y', h1', ⟨q, hq, rfl, hle⟩, h3'⟩ | ⟨h1', h2'⟩
      · rw [h1'] at hz'
        simp only [Option.map_some, Option.some.injEq, Ext.fin.injEq] at hz'
        subst hz'
        exact h3 ⟨q, hq, rfl, by linarith⟩
      · rw [h1'] at hz'; cases hz'
    · rw [h1] at hz; cases hz

/-! ## Accumulating from any knot on -/

/-- The rule of the integral. -/
abbrev areaRule : Rule := stepRule (areaStep .linear)

theorem integral_from (hm : minStepQ ≤ m) {acc : Pts ℚ} {skip seen rest : List (Pt ℚ)}
    {p : Pt ℚ} (h1 : Honest src) (h2 : Honest acc) (hs : src.points = skip ++ (seen ++ p :: rest))
    (hx : acc.points.map Prod.fst = seen.map Prod.fst) (hg : Gapped m src.points) :
    integralTfm .linear src acc p.1 p.2 (lastOut acc.points) = areaRule (seen ++ [p]) acc.points := by
  have h0 : (0 : ℚ) < minStepQ := by norm_num [minStepQ]
  simp only [areaRule, stepRule, List.getLast?_append, List.getLast?_singleton, Option.some_or,
    List.dropLast_concat, integralTfm, areaStep]
  cases hy : p.2 with
  | none => rfl
  | some y =>
    have hg' : Gapped m (seen ++ p :: rest) := by rw [hs] at hg; exact List.IsChain.right_of_append hg
    have hasc := ascending_of_gapped (h0.trans_le hm) hg'
    obtain ⟨ha1, ha2, ha3⟩ := List.pairwise_append.1 hasc
    have hprev : acc.xPrevious (.fin p.1) (some minStepQ) =
        .ok (seen.getLast?.map fun q => .fin q.1) := by
      have hxmem : ∀ q ∈ acc.points, ∃ r ∈ seen, r.1 = q.1 := by
        intro q hq
        have : q.1 ∈ acc.points.map Prod.fst := List.mem_map_of_mem hq
        rw [hx] at this
        simpa using this
      have hxmem' : ∀ q ∈ seen, ∃ r ∈ acc.points, r.1 = q.1 := by
        intro q hq
        have : q.1 ∈ seen.map Prod.fst := List.mem_map_of_mem hq
        rw [← hx] at this
        simpa using this
      rcases Props.C07_x_previous h2 p.1 minStepQ with ⟨z, h3, ⟨q, hq, rfl, hle⟩, h4⟩ | ⟨h3, h4⟩
      · rw [h3]
        obtain ⟨r, hr, hrq⟩ := hxmem q hq
        cases hl : seen.getLast? with
        | none => rw [List.getLast?_eq_none_iff.1 hl] at hr; simp at hr
        | some w =>
          have hw := List.mem_of_getLast? hl
          have hgap := gapped_pair hg' hl
          obtain ⟨w', hw', hww⟩ := hxmem' w hw
          have h5 : w.1 ≤ q.1 := h4 ⟨w', hw', hww, by linarith⟩
          have h6 : r.1 ≤ w.1 := le_getLast ha1 hl hr
          have : q.1 = w.1 := by linarith
          simp [this]
      · rw [h3]
        cases hl : seen.getLast? with
        | none => rfl
        | some w =>
          have hw := List.mem_of_getLast? hl
          have hgap := gapped_pair hg' hl
          obtain ⟨w', hw', hww⟩ := hxmem' w hw
          have := h4 w' hw'
          linarith
    rw [hprev]
    cases hl : seen.getLast? with
    | none => rfl
    | some w =>
      have hw := List.mem_of_getLast? hl
      have hyw : src.y (.fin w.1) = .ok w.2 := Props.C01_stored_value h1 (by rw [hs]; simp [hw])
      have hlt : w.1 < p.1 := ha3 w hw p (by simp)
      obtain ⟨xw, yw⟩ := w
      simp only [Option.map_some, hyw]
      cases yw with
      | none => rfl
      | some y0 =>
        simp only [segmentArea_eq .linear y0 y hlt.ne]

/-- What holds of an average between operations: after `skip` the knots `seen` have been accumulated. -/
structure SmaSound (w : Window) (m : ℚ) (u : Bool) (A : Accum) (skip seen todo : List (Pt ℚ)) : Prop where
  src : Honest A.src
  pts : A.src.points = skip ++ (seen ++ todo)
  fit : AllFit m u A.src.points
  acc : Honest A.acc
  interp : A.acc.interp = .linear
  force : A.acc.force = u
  run : runRule areaRule [] [] seen = (A.acc.points, none)
  cur : A.current = seen.getLast?.map Prod.fst
  start : seen ≠ [] → A.scanStart = seen.head?.map Prod.fst
  step : A.minStep = m
  cache : ∀ d, A.cache = some d → smaDomain A.src w m = .ok d
  idleB : A.bIv = Iv.empty
  idleE : A.eIv = Iv.empty

variable {A : Accum} {skip seen todo : List (Pt ℚ)} {p : Pt ℚ}

theorem SmaSound.asc (h : SmaSound w m u A skip seen todo) : Ascending (skip ++ (seen ++ todo)) := by
  rw [← h.pts]; exact h.src.wf.asc

theorem SmaSound.asc' (h : SmaSound w m u A skip seen todo) : Ascending (seen ++ todo) :=
  (List.pairwise_append.1 h.asc).2.1

theorem SmaSound.gapped (h : SmaSound w m u A skip seen todo) : Gapped m A.src.points :=
  (h.fit _ (List.suffix_refl _)).gapped

theorem SmaSound.gapped' (h : SmaSound w m u A skip seen todo) : Gapped m (seen ++ todo) := by
  have := h.gapped
  rw [h.pts] at this
  exact List.IsChain.right_of_append this

theorem SmaSound.withSrc (h : SmaSound w m u A skip seen todo) {s' : Pts ℚ} (hs : Honest s')
    (hp : s'.points = A.src.points) : SmaSound w m u { A with src := s' } skip seen todo where
  src := hs
  pts := hp.trans h.pts
  fit := by show AllFit m u s'.points; rw [hp]; exact h.fit
  acc := h.acc
  interp := h.interp
  force := h.force
  run := h.run
  cur := h.cur
  start := h.start
  step := h.step
  cache := fun d hd => (smaDomain_congr hs h.src hp w).trans (h.cache d hd)
  idleB := h.idleB
  idleE := h.idleE

theorem SmaSound.touchSrc (h : SmaSound w m u A skip seen todo) :
    SmaSound w m u { A with src := A.src.touch } skip seen todo := h.withSrc (.read h.src) rfl

theorem SmaSound.touchAcc (h : SmaSound w m u A skip seen todo) :
    SmaSound w m u { A with acc := A.acc.touch } skip seen todo :=
  ⟨h.src, h.pts, h.fit, .read h.acc, h.interp, h.force, h.run, h.cur, h.start, h.step, h.cache, h.idleB, h.idleE⟩

theorem SmaSound.accXs (h : SmaSound w m u A skip seen todo) :
    A.acc.points.map Prod.fst = seen.map Prod.fst := by
  simpa using runRule_xs h.run

theorem SmaSound.mem_cur (h : SmaSound w m u A skip seen todo) {c : ℚ} (hc : A.current = some c) :
    ∃ p, seen.getLast? = some p ∧ p.1 = c := by
  rw [h.cur] at hc
  cases hl : seen.getLast? with
  | none => rw [hl] at hc; cases hc
  | some p => rw [hl] at hc; exact ⟨p, rfl, by simpa using hc⟩

/-- The next position is the next knot. -/
theorem SmaSound.xNext (h : SmaSound w m u A skip seen (p :: todo)) (hm : 0 < m) {c : ℚ}
    (hc : A.current = some c) : A.xNext (.fin c) A.minStep = .ok (some (.fin p.1)) := by
  obtain ⟨q, hq, hqc⟩ := h.mem_cur hc
  have hasc := h.asc'
  have hseen : Ascending seen := (List.pairwise_append.1 hasc).1
  have hres : resolveMinStep (some A.minStep) (some A.minStep) = some m := by
    simp [resolveMinStep, h.step]
  have hacc : A.acc.xNext (.fin c) (some m) = .ok none := by
    rcases Props.C06_x_next h.acc c m with ⟨z, _, ⟨r, hr, hrz, hz⟩, _⟩ | ⟨h1, _⟩
    · exfalso
      have : r.1 ∈ A.acc.points.map Prod.fst := List.mem_map_of_mem hr
      rw [h.accXs] at this
      obtain ⟨r', hr', hrr⟩ := List.mem_map.1 this
      have := le_getLast hseen hq hr'
      linarith
    · exact h1
  have hgap : q.1 + m ≤ p.1 := gapped_pair h.gapped' hq
  have hsrc : A.src.xNext (.fin c) (some m) = .ok (some (.fin p.1)) := by
    obtain ⟨pre, rfl⟩ := List.getLast?_eq_some_iff.1 hq
    rw [← hqc]
    refine next_knot h.src hm h.gapped (k := (skip ++ pre).length) ?_ ?_
    · rw [h.pts]; simp
    · rw [h.pts, show skip ++ (pre ++ [q] ++ p :: todo) = (skip ++ pre ++ [q]) ++ p :: todo by simp,
        List.getElem?_append_right (by simp; omega)]
      rw [show (skip ++ pre).length + 1 - (skip ++ pre ++ [q]).length = 0 by simp <;> omega]
      rfl
  unfold Accum.xNext
  simp only [hres, hacc, hsrc, bind, Except.bind, pyOr]

/-- One step of the integral. -/
theorem SmaSound.accumulate (hm : minStepQ ≤ m) (h : SmaSound w m u A skip seen (p :: todo))
    (hst : A.scanStart = (seen ++ [p]).head?.map Prod.fst) :
    ∃ A', A.accumulate (integralTfm .linear) p.1 p.2 = ⟨A', [(p.1, p.2, lastOut A.acc.points)], .ok ()⟩ ∧
      A'.src = A.src ∧ A'.scanStart = A.scanStart ∧
      SmaSound w m u { A' with current := some p.1 } skip (seen ++ [p]) todo := by
  have h1 := h.touchAcc
  have hasc := h.asc'
  have hbefore : ∀ q ∈ A.acc.points, q.1 < p.1 := by
    intro q hq
    have : q.1 ∈ A.acc.points.map Prod.fst := List.mem_map_of_mem hq
    rw [h.accXs] at this
    obtain ⟨q', hq', hqq⟩ := List.mem_map.1 this
    have := (List.pairwise_append.1 hasc).2.2 q' hq' p (by simp)
    linarith
  have hlast : lastOf A.acc.touch p.1 = .ok (lastOut A.acc.points) := by
    unfold lastOf
    have hd : A.acc.touch.domVal = getDomain A.acc.points := h1.acc.wf.domVal
    rw [hd]
    cases ha : A.acc.points with
    | nil => simp [getDomain, lastOut]
    | cons a as =>
      have hne : (getDomain (a :: as)).isEmpty = false := by
        rw [← ha]; exact getDomain_not_isEmpty h.acc.wf.asc (by rw [ha]; simp)
      have hhi : (getDomain (a :: as)).hi = .fin ((a :: as).getLast (by simp)).1 := rfl
      have hlm : (a :: as).getLast (by simp) ∈ A.acc.points := by rw [ha]; exact List.getLast_mem _
      have hlt : (getDomain (a :: as)).hi < .fin p.1 := by
        rw [hhi, Ext.fin_lt_fin]; exact hbefore _ hlm
      rw [hne, if_neg (by simp), if_pos hlt, hhi]
      have := Props.C01_stored_value h1.acc (p := (a :: as).getLast (by simp)) hlm
      rw [this]
      simp [lastOut, List.getLast?_eq_some_getLast]
  have ht := integral_from hm h.src h1.acc h.pts h.accXs h.gapped
  have htp : A.acc.touch.points = A.acc.points := rfl
  rw [htp] at ht
  obtain ⟨v, hv⟩ : ∃ v, areaRule (seen ++ [p]) A.acc.points = .ok v := by
    simp [areaRule, stepRule]
  rw [hv] at ht
  have hxs : (A.acc.points ++ [(p.1, v)]).map Prod.fst = (seen ++ [p]).map Prod.fst := by
    simp [h.accXs]
  have hpre : (seen ++ [p]) <+: (seen ++ p :: todo) := ⟨todo, by simp⟩
  have hfitp := Fit.prefix hpre (h.fit _ ⟨skip, h.pts.symm⟩)
  have hfit : Fit m u (A.acc.touch.points ++ [(p.1, v)]) := by
    refine ⟨?_, NoFluke.of_xs hxs hfitp.noFluke, fun hu => EquallySpaced.of_xs hxs (hfitp.uniform hu)⟩
    have hg' : ((seen ++ [p]).map Prod.fst).IsChain (fun x y : ℚ => x + m ≤ y) := by
      rw [List.isChain_map]; exact hfitp.gapped
    rw [← hxs, List.isChain_map] at hg'
    exact hg'
  obtain ⟨a1, a2, a3, a4, a5⟩ := append_fits h1.acc h1.force (p := (p.1, v)) hfit hbefore quiet
  refine ⟨{ A with acc := (A.acc.touch.append (p.1, v) quiet).st }, ?_, rfl, rfl, ?_⟩
  · unfold Accum.accumulate
    simp only [hlast, ht, a1]
  · refine ⟨h.src, by rw [h.pts]; simp, h.fit, a2, a4.trans h.interp, a5.trans h.force, ?_, ?_, ?_,
      h.step, h.cache, h.idleB, h.idleE⟩
    · rw [runRule_append, h.run]
      simp only [List.nil_append, runRule, hv, a3]
      rfl
    · simp
    · intro _; exact hst

/-- The loop: everything up to the knot asked for is accumulated. -/
theorem smaLoop_spec (hm : minStepQ ≤ m) (x s : ℚ) :
    ∀ (todo seen : List (Pt ℚ)) (A : Accum) (n : ℕ), SmaSound w m u A skip seen todo →
      (seen = [] → ∀ p, todo.head? = some p → p.1 = s) →
      (∃ p ∈ seen ++ todo, x ≤ p.1) → todo.length < n →
      ∃ o a b, smaLoop x (some (.fin s)) n A = some o ∧ o.res = .ok () ∧ o.st.src.points = A.src.points ∧
        todo = a ++ b ∧ SmaSound w m u o.st skip (seen ++ a) b ∧ ∃ p ∈ seen ++ a, x ≤ p.1 := by
  have hm0 : (0 : ℚ) < m := lt_of_lt_of_le (by norm_num [minStepQ]) hm
  intro todo
  induction todo with
  | nil =>
    intro seen A n h _ hx hn
    obtain ⟨n, rfl⟩ : ∃ k, n = k + 1 := ⟨n - 1, by omega⟩
    have hcur : (seen.getLast?.map Prod.fst).all (fun c => decide (c < x)) = false := by
      obtain ⟨q, hq, hxq⟩ := hx
      rw [List.append_nil] at hq
      have hne : seen ≠ [] := List.ne_nil_of_mem hq
      have hl := List.getLast?_eq_some_getLast hne
      have hasc := h.asc'
      rw [List.append_nil] at hasc
      have := le_getLast hasc hl hq
      rw [hl]
      simp only [Option.map_some, Option.all_some, decide_eq_false_iff_not, not_lt]
      linarith
    refine ⟨⟨A, [], .ok ()⟩, [], [], ?_, rfl, rfl, rfl, by simpa using h, by simpa using hx⟩
    simp only [smaLoop, h.cur, hcur, Bool.false_eq_true, if_false]
  | cons p ps ih =>
    intro seen A n h hs hx hn
    obtain ⟨n, rfl⟩ : ∃ k, n = k + 1 := ⟨n - 1, by omega⟩
    cases hcur : (seen.getLast?.map Prod.fst).all (fun c => decide (c < x)) with
    | false =>
      refine ⟨⟨A, [], .ok ()⟩, [], p :: ps, ?_, rfl, rfl, rfl, by simpa using h, ?_⟩
      · simp only [smaLoop, h.cur, hcur, Bool.false_eq_true, if_false]
      · cases hl : seen.getLast? with
        | none => rw [hl] at hcur; simp at hcur
        | some q =>
          rw [hl] at hcur
          simp only [Option.map_some, Option.all_some, decide_eq_false_iff_not, not_lt] at hcur
          exact ⟨q, by simpa using List.mem_of_getLast? hl, hcur⟩
    | true =>
      obtain ⟨A1, hA1, s1, hst, hp1⟩ : ∃ A1, smaNext (some (.fin s)) A = (A1, .ok (some (.fin p.1))) ∧
          SmaSound w m u A1 skip seen (p :: ps) ∧ A1.scanStart = (seen ++ [p]).head?.map Prod.fst ∧
          A1.src = A.src := by
        cases hc : A.current with
        | some c =>
          refine ⟨A, ?_, h, ?_, rfl⟩
          · simp only [smaNext, hc, h.xNext hm0 hc]
          · obtain ⟨q, hq, _⟩ := h.mem_cur hc
            have hne : seen ≠ [] := by rintro rfl; simp at hq
            rw [h.start hne]
            cases seen with
            | nil => exact absurd rfl hne
            | cons a as => rfl
        | none =>
          have hnil : seen = [] := by
            have := h.cur
            rw [hc] at this
            cases hl : seen.getLast? with
            | none => simpa using hl
            | some q => rw [hl] at this; cases this
          subst hnil
          have hps := hs rfl p rfl
          refine ⟨{ A with scanStart := some s }, ?_, ?_, ?_, rfl⟩
          · simp only [smaNext, hc, finPart, hps]
          · exact ⟨h.src, h.pts, h.fit, h.acc, h.interp, h.force, h.run, h.cur, by simp, h.step, h.cache,
              h.idleB, h.idleE⟩
          · simp [hps]
      have s2 := s1.touchSrc
      have hcon : ({ A1 with src := A1.src.touch } : Accum).src.domVal.contains (.fin p.1) = true := by
        rw [s2.src.wf.domVal]
        exact getDomain_contains_mem s2.src.wf.asc (by rw [s2.pts]; simp)
      have hadv : ({ A1 with src := A1.src.touch } : Accum).current.any (fun k => decide (p.1 ≤ k)) = false := by
        rw [s2.cur]
        cases hl : seen.getLast? with
        | none => rfl
        | some q =>
          have := (List.pairwise_append.1 h.asc').2.2 q (List.mem_of_getLast? hl) p (by simp)
          simpa using this
      have hy : ({ A1 with src := A1.src.touch } : Accum).src.y (.fin p.1) = .ok p.2 :=
        Props.C01_stored_value s2.src (by rw [s2.pts]; simp)
      obtain ⟨A2, hac, hsrc, hss, s3⟩ := s2.accumulate hm hst
      obtain ⟨o, a, b, ho, hor, hop, hab, s4, hin⟩ := ih (seen ++ [p]) { A2 with current := some p.1 } n s3
        (by simp) (by simpa using hx) (by simpa using hn)
      refine ⟨⟨o.st, [(p.1, p.2, lastOut A1.acc.points)] ++ o.calls, o.res⟩, p :: a, b, ?_, hor, ?_, by rw [hab]; rfl, by simpa using s4,
        by simpa using hin⟩
      · simp only [smaLoop, h.cur, hcur, if_true, hA1, hcon, Bool.not_true, Bool.false_eq_true,
          if_false, hadv, hy, hac, ho]
      · rw [hop]
        show A2.src.points = _
        rw [hsrc]
        show A1.src.points = _
        rw [hp1]

end Sma
end Curvepy
