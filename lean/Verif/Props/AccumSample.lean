import Verif.Lemmas.Machine
import Verif.Spec.AccumCurve
import Verif.Props.AccumulatorSteps
import Verif.Props.Sampling

/-!
# C116: sampling accumulators; C117: accumulators as curves
-/

namespace Curvepy
namespace Props
open Spec Pts Accum Crv

variable {t : Tfm} {g : Rule} {m : ℚ} {i : Interp} {u : Bool} {A : Accum} {seen todo pts : List (Pt ℚ)}

/-- Between two operations, over the given points. -/
def Steady (g : Rule) (m : ℚ) (i : Interp) (u : Bool) (pts : List (Pt ℚ)) (A : Accum) : Prop :=
  A.src.points = pts ∧ ∃ seen todo, Sound g m i u A seen todo

/-- All points were accumulated. -/
def Complete (g : Rule) (m : ℚ) (i : Interp) (u : Bool) (pts : List (Pt ℚ)) (A : Accum) : Prop :=
  A.src.points = pts ∧ Sound g m i u A pts []

theorem src_next (h : Sound g m i u A seen todo) (x : Ext) (a : ℚ) :
    A.src.xNext x (some a) = .ok (knotAfter A.src.points x a) := by
  cases x with
  | ninf => exact (C06_x_next_inf h.src a).1
  | pinf => exact (C06_x_next_inf h.src a).2
  | fin q => exact xNext_fin h.src.wf (by rw [Honest.minStep h.src]; rfl) q

theorem src_previous (h : Sound g m i u A seen todo) (x : Ext) (a : ℚ) :
    A.src.xPrevious x (some a) = .ok (knotBefore A.src.points x a) := by
  cases x with
  | pinf => exact (C07_x_previous_inf h.src a).1
  | ninf => exact (C07_x_previous_inf h.src a).2
  | fin q => exact xPrevious_fin h.src.wf (by rw [Honest.minStep h.src]; rfl) q

theorem next_ext (h : Sound g m i u A seen todo) (x : Ext) (a : ℚ) :
    A.xNext x a = .ok (knotAfter A.src.points x (max a m)) := by
  have hx := h.accXs
  cases x with
  | fin q => rw [sound_next h, src_next h]
  | pinf =>
    unfold Accum.xNext
    rw [resolve_max h a]
    show (_ >>= _) = _
    rw [(C06_x_next_inf h.acc _).2, src_next h]
    rfl
  | ninf =>
    unfold Accum.xNext
    rw [resolve_max h a]
    show (_ >>= _) = _
    rw [(C06_x_next_inf h.acc _).1, src_next h]
    cases hs : seen with
    | nil =>
      rw [hs] at hx
      have : A.acc.points = [] := by simpa using hx
      rw [this]
      rfl
    | cons p ps =>
      rw [hs, List.map_cons] at hx
      obtain ⟨r, rs, hr, hrp, _⟩ := List.map_eq_cons_iff.1 hx
      rw [hr]
      show pyOr (some (.fin r.1)) _ = _
      unfold pyOr
      simp only
      split
      · rfl
      · simp [knotAfter, h.pts, hs, hrp]

theorem previous_ext (h : Sound g m i u A seen []) (x : Ext) (a : ℚ) :
    A.xPrevious x a = .ok (knotBefore A.src.points x (max a m)) := by
  have hx := h.accXs
  cases x with
  | fin q => rw [sound_previous h _ _ (.inr (by simp)), src_previous h]
  | ninf =>
    unfold Accum.xPrevious
    rw [resolve_max h a]
    show (_ >>= _) = _
    rw [(C07_x_previous_inf h.acc _).2, src_previous h]
    rfl
  | pinf =>
    unfold Accum.xPrevious
    rw [resolve_max h a]
    show (_ >>= _) = _
    rw [(C07_x_previous_inf h.acc _).1, src_previous h]
    have hl : A.acc.points.getLast?.map Prod.fst = seen.getLast?.map Prod.fst := by
      rw [← List.getLast?_map, ← List.getLast?_map, hx]
    cases hs : A.acc.points.getLast? with
    | none => rfl
    | some r =>
      show pyOr (some (.fin r.1)) _ = _
      unfold pyOr
      simp only
      split
      · rfl
      · rw [hs] at hl
        simp only [knotBefore, h.pts, List.append_nil]
        cases hs' : seen.getLast? with
        | none => rw [hs'] at hl; cases hl
        | some q => rw [hs'] at hl; simp at hl; simp [hl]

theorem resolve_own (m : ℚ) (arg : Option Ext) :
    (match resolve (some (.fin m)) arg with | some (.fin a) => some (max a m) | _ => none) = stepOf m arg := by
  rcases arg with _ | _ | q | _
  · simp [resolve, stepOf]
  · simp [resolve, stepOf]
  · simp only [resolve, stepOf, Ext.fin_lt_fin]
    by_cases h : q < m
    · simp [h, h.le]
    · simp [h]
  · simp [resolve, stepOf]

theorem resolve_pinf_or (m : ℚ) (arg : Option Ext) : (∃ a, resolve (some (.fin m)) arg = some (.fin a) ∧
    stepOf m arg = some (max a m)) ∨ (resolve (some (.fin m)) arg = some .pinf ∧ stepOf m arg = none) := by
  have h := resolve_own m arg
  rcases hr : resolve (some (.fin m)) arg with _ | _ | a | _
  · rcases arg with _ | _ | q | _ <;> simp [resolve] at hr
  · rcases arg with _ | _ | q | _ <;> simp [resolve] at hr
    split at hr <;> simp at hr
  · rw [hr] at h; exact .inl ⟨a, rfl, h.symm⟩
  · rw [hr] at h; exact .inr ⟨rfl, h.symm⟩

theorem nextBy (h : Sound g m i u A seen todo) (x : Ext) (arg : Option Ext) :
    A.xNextBy x arg = .ok ((stepOf m arg).bind (knotAfter A.src.points x)) := by
  unfold xNextBy
  rw [h.step]
  rcases resolve_pinf_or m arg with ⟨a, h1, h2⟩ | ⟨h1, h2⟩
  · rw [h1, h2]; exact next_ext h x a
  · rw [h1, h2]; rfl

theorem previousBy (h : Sound g m i u A seen []) (x : Ext) (arg : Option Ext) :
    A.xPreviousBy x arg = .ok ((stepOf m arg).bind (knotBefore A.src.points x)) := by
  unfold xPreviousBy
  rw [h.step]
  rcases resolve_pinf_or m arg with ⟨a, h1, h2⟩ | ⟨h1, h2⟩
  · rw [h1, h2]; exact previous_ext h x a
  · rw [h1, h2]; rfl

theorem machine_dom (h : Sound g m i u A seen todo) :
    (machine t).dom A = some (.ok (span A.src.points), A.touch) := by
  show some (Except.ok A.touch.domVal, A.touch) = _
  rw [h.touch.dom, ← h.pts, getDomain_eq_span]

/-- Whatever happened, an accumulator is the accumulated curve as far as values and next positions go. -/
theorem steady_forwards (hf : Follows m t g) (hm : 0 < m) :
    Forwards (machine t) (Steady g m i u pts) (accumulatedCurve g i m pts) where
  dom := by
    rintro A ⟨rfl, seen, todo, h⟩
    exact ⟨nofun, fun v hv => by cases hv; exact ⟨_, machine_dom h, touch_points A, _, _, h.touch⟩⟩
  minStep := by
    rintro A ⟨rfl, seen, todo, h⟩
    exact ⟨nofun, fun v hv => by
      cases hv
      exact ⟨A, by show some (Except.ok (some (Ext.fin A.minStep)), A) = _; rw [h.step]; rfl, rfl, _, _, h⟩⟩
  y x := by
    rintro A ⟨rfl, seen, todo, h⟩
    obtain ⟨o, h1, h2, h3, h4⟩ := h.query hf hm x
    exact ⟨nofun, fun v hv => by
      cases hv
      exact ⟨o.st, by show (A.query t x).map _ = _; rw [h1, Option.map_some, h3]; rfl, h2, h4⟩⟩
  next x a l := by
    rintro A ⟨rfl, seen, todo, h⟩
    exact ⟨nofun, fun v hv => by
      cases hv
      exact ⟨A, by show some (A.xNextBy x a, A) = _; rw [nextBy h]; rfl, rfl, _, _, h⟩⟩

/-- An accumulator that has accumulated everything is the accumulated curve, and stays so. -/
theorem complete_imitates (hf : Follows m t g) (hm : 0 < m) :
    Imitates (machine t) (Complete g m i u pts) (accumulatedCurve g i m pts) where
  dom := by
    rintro A ⟨rfl, h⟩
    exact ⟨nofun, fun v hv => by cases hv; exact ⟨_, machine_dom h, touch_points A, h.touch⟩⟩
  minStep := by
    rintro A ⟨rfl, h⟩
    exact ⟨nofun, fun v hv => by
      cases hv
      exact ⟨A, by show some (Except.ok (some (Ext.fin A.minStep)), A) = _; rw [h.step]; rfl, rfl, h⟩⟩
  y x := by
    rintro A ⟨rfl, h⟩
    refine ⟨nofun, fun v hv => ?_⟩
    cases hv
    obtain ⟨o, h1, h2, h3, _⟩ := h.query hf hm x
    refine ⟨o.st, by show (A.query t x).map _ = _; rw [h1, Option.map_some, h3]; rfl, h2, ?_⟩
    cases hx : (span (A.src.points ++ [])).contains x with
    | false =>
      obtain ⟨o', g1, _, _, _, g5⟩ := h.query_outside (t := t) hx
      rw [h1] at g1
      cases g1
      exact g5
    | true =>
      cases x with
      | ninf => rw [← getDomain_eq_span, (getDomain_contains_inf _).2] at hx; cases hx
      | pinf => rw [← getDomain_eq_span, (getDomain_contains_inf _).1] at hx; cases hx
      | fin q =>
        obtain ⟨o', g1, _, _, g4⟩ := h.query_inside hf hm hx
        rw [h1] at g1
        cases g1
        have hn : need q A.src.points [] = [] := by unfold need; split <;> rfl
        rw [hn] at g4
        rcases g4 with ⟨_, rest, _, r2, _, r4⟩ | ⟨_, e, _, _, r1, _⟩
        · have : rest = [] := by simpa using r2.symm
          subst this
          rw [List.append_nil] at r4
          exact r4
        · simp [runRule] at r1
  next x a l := by
    rintro A ⟨rfl, h⟩
    exact ⟨nofun, fun v hv => by
      cases hv
      exact ⟨A, by show some (A.xNextBy x a, A) = _; rw [nextBy h]; rfl, rfl, h⟩⟩
  prev x a l := by
    rintro A ⟨rfl, h⟩
    exact ⟨nofun, fun v hv => by
      cases hv
      exact ⟨A, by show some (A.xPreviousBy x a, A) = _; rw [previousBy h]; rfl, rfl, h⟩⟩

/-! ## C116 -/

theorem inter_again {a b : Iv} (h : (Iv.inter a b).isEmpty = false) : Iv.inter a (Iv.inter a b) = Iv.inter a b := by
  have hab : (a.isEmpty || b.isEmpty) = false := by
    by_contra h'
    rw [Bool.not_eq_false] at h'
    rw [Iv.inter, if_pos h'] at h
    simp at h
  have hraw : (Iv.interRaw a b).isEmpty = false := by
    by_contra h'
    rw [Bool.not_eq_false] at h'
    rw [Iv.inter, if_neg (by simp [hab]), if_pos h'] at h
    simp at h
  have e : Iv.inter a b = Iv.interRaw a b := by
    rw [Iv.inter, if_neg (by simp [hab]), if_neg (by simp [hraw])]
  have key : ∀ c, Iv.loLe a c = true → Iv.hiGe a c = true → Iv.interRaw a c = c := by
    intro c h1 h2
    unfold Iv.interRaw
    simp [h1, h2]
  have e2 : Iv.interRaw a (Iv.interRaw a b) = Iv.interRaw a b := by
    refine key _ ?_ ?_
    · by_cases h : Iv.loLe a b = true
      · have h1 : (Iv.interRaw a b).lo = b.lo := if_pos h
        have h2 : (Iv.interRaw a b).loOpen = b.loOpen := if_pos h
        unfold Iv.loLe
        rw [h1, h2]
        exact h
      · have h1 : (Iv.interRaw a b).lo = a.lo := if_neg h
        have h2 : (Iv.interRaw a b).loOpen = a.loOpen := if_neg h
        unfold Iv.loLe
        rw [h1, h2]
        exact Iv.loLe_refl a
    · by_cases h : Iv.hiGe a b = true
      · have h1 : (Iv.interRaw a b).hi = b.hi := if_pos h
        have h2 : (Iv.interRaw a b).hiOpen = b.hiOpen := if_pos h
        unfold Iv.hiGe
        rw [h1, h2]
        exact h
      · have h1 : (Iv.interRaw a b).hi = a.hi := if_neg h
        have h2 : (Iv.interRaw a b).hiOpen = a.hiOpen := if_neg h
        unfold Iv.hiGe
        rw [h1, h2]
        exact Iv.hiGe_refl a
  rw [e, Iv.inter]
  have : a.isEmpty = false := (Bool.or_eq_false_iff.1 hab).1
  simp [this, hraw, e2]

/-- The outcome of accumulating up to `x`. -/
def foldOutcome (g : Rule) (pts : List (Pt ℚ)) (x : ℚ) : Except Err Unit :=
  match runRule g [] [] (upTo x pts) with
  | (_, none) => .ok ()
  | (_, some e) => .error e

theorem sound_scan (hf : Follows m t g) (hm : 0 < m) (h : Sound g m i u A seen todo) {x : ℚ}
    (hx : (span A.src.points).contains (.fin x) = true) :
    ∃ o, A.scan t x = some o ∧ o.st.src.points = A.src.points ∧ o.res = foldOutcome g A.src.points x ∧
      ∃ seen' todo', Sound g m i u o.st seen' todo' := by
  rw [h.pts] at hx
  obtain ⟨A', hA', s', hp', ha'⟩ := h.resetStale hx
  have hreach : ∃ p ∈ seen ++ todo, x ≤ p.1 := by
    rw [← getDomain_eq_span'] at hx
    obtain ⟨p, q, _, hq, _, h2⟩ := (getDomain_contains_fin _ _).1 hx
    exact ⟨q, List.mem_of_getElem? hq, h2⟩
  have hlen : todo.length < A'.src.points.length + 2 := by
    rw [s'.pts, List.length_append]; omega
  obtain ⟨o, ho, hop, hoc, hor⟩ := scanLoop_spec hf hm x todo seen A' _ s' hreach hlen
  have hfold := fold_need (i := i) s'.asc s'.run hx
  have hacc : accumulatedAt g i (seen ++ todo) (.fin x) =
      match runRule g [] [] (upTo x (seen ++ todo)) with
      | (out, none) => .ok (valueAt i out x)
      | (_, some e) => .error e := by
    unfold accumulatedAt
    simp only [hx, if_true]
    rfl
  rw [hacc] at hfold
  refine ⟨o, ?_, hop.trans hp', ?_, ?_⟩
  · unfold Accum.scan
    simp only
    rw [hA']
    exact ho
  · rw [h.pts]
    unfold foldOutcome
    rcases hor with ⟨out, rest, r1, r2, _⟩ | ⟨out, e, seen', todo', r1, r2, _⟩
    · rw [r1] at hfold
      rw [r2]
      rcases hR : runRule g [] [] (upTo x (seen ++ todo)) with ⟨o', _ | e⟩
      · rfl
      · rw [hR] at hfold; simp at hfold
    · rw [r1] at hfold
      rw [r2]
      rcases hR : runRule g [] [] (upTo x (seen ++ todo)) with ⟨o', _ | e'⟩
      · rw [hR] at hfold; simp at hfold
      · rw [hR] at hfold; simp at hfold; rw [hfold]
  · rcases hor with ⟨out, rest, _, _, _, _, r5⟩ | ⟨out, e, seen', todo', _, _, r3⟩
    · exact ⟨_, _, r5⟩
    · exact ⟨_, _, r3⟩

theorem scanAt_agrees (hf : Follows m t g) (hm : 0 < m) {x : ℚ} (hx : (span pts).contains (.fin x) = true) :
    Agrees (Steady g m i u pts) (scanAt t (.fin x)) (some (foldOutcome g pts x)) := by
  rintro A ⟨rfl, seen, todo, h⟩
  obtain ⟨o, h1, h2, h3, h4⟩ := sound_scan hf hm h hx
  exact ⟨nofun, fun v hv => by
    cases hv
    exact ⟨o.st, by show (A.scan t x).map _ = _; rw [h1, Option.map_some, h3], h2, h4⟩⟩

/-- What cannot be accumulated up to `x` cannot be accumulated further, with the same exception. -/
theorem foldOutcome_mono {x y : ℚ} (hxy : x ≤ y) {e : Err} (h : foldOutcome g pts x = .error e) :
    foldOutcome g pts y = .error e := by
  have hpre : upTo x pts <+: upTo y pts := by
    clear h
    induction pts with
    | nil => exact List.prefix_rfl
    | cons p ps ih =>
      unfold upTo
      by_cases h1 : p.1 < x
      · rw [if_pos h1, if_pos (h1.trans_le hxy)]
        exact List.prefix_cons_inj p |>.2 ih
      · rw [if_neg h1]
        split
        · exact ⟨_, rfl⟩
        · exact List.prefix_rfl
  obtain ⟨rest, hr⟩ := hpre
  unfold foldOutcome at h ⊢
  rw [← hr, runRule_append]
  rcases hrun : runRule g [] [] (upTo x pts) with ⟨o, _ | e'⟩
  · rw [hrun] at h; cases h
  · rw [hrun] at h
    simpa using h

theorem inter_self' {a : Iv} (h : a.isEmpty = false) : Iv.inter a a = a := by
  have e : Iv.interRaw a a = a := by unfold Iv.interRaw; simp
  rw [Iv.inter, e]
  simp [h]

theorem sampleDomain_again {c : Crv} {domain : Option Iv} (h : (c.sampleDomain domain).isEmpty = false) :
    c.sampleDomain (some (c.sampleDomain domain)) = c.sampleDomain domain := by
  cases domain with
  | none => exact inter_self' h
  | some d => exact inter_again h

theorem resolve_again (own arg : Option Ext) : resolve own (resolve own arg) = resolve own arg := by
  rcases arg with _ | a <;> rcases own with _ | m <;> simp [resolve]
  split <;> simp_all

theorem samplePoints_again {c : Crv} {domain : Option Iv} (h : (c.sampleDomain domain).isEmpty = false)
    (minStep : Option Ext) (step : Option ℚ) (fuel : ℕ) :
    c.samplePoints (some (c.sampleDomain domain)) (resolve c.minStep minStep) step fuel =
      c.samplePoints domain minStep step fuel := by
  unfold Crv.samplePoints
  rw [sampleDomain_again h, resolve_again]

theorem sampleDomain_bounds (hasc : Ascending pts) {domain : Option Iv}
    (h : ((accumulatedCurve g i m pts).sampleDomain domain).isEmpty = false) :
    ∃ a b : ℚ, ((accumulatedCurve g i m pts).sampleDomain domain).lo = .fin a ∧
      ((accumulatedCurve g i m pts).sampleDomain domain).hi = .fin b ∧ a ≤ b ∧
      (span pts).contains (.fin a) = true ∧ (span pts).contains (.fin b) = true := by
  have hne : (span pts).isEmpty = false := by
    obtain ⟨x, hx⟩ := Iv.exists_mem _ h
    cases domain with
    | none => exact h
    | some e =>
      have h := (Iv.contains_inter ..).symm.trans hx
      simp only [Bool.and_eq_true] at h
      exact Iv.not_isEmpty_of_mem h.1
  obtain ⟨p, q, hp, hq, hs⟩ : ∃ p q : Pt ℚ, pts.head? = some p ∧ pts.getLast? = some q ∧
      span pts = ⟨.fin p.1, .fin q.1, false, false⟩ := by
    cases pts with
    | nil => exact absurd hne (by decide)
    | cons p ps =>
      have hl := List.getLast?_eq_some_getLast (l := p :: ps) (by simp)
      exact ⟨p, _, rfl, hl, by simp only [span, hl, List.head?_cons]⟩
  have hb : Ext.fin p.1 ≤ ((accumulatedCurve g i m pts).sampleDomain domain).lo ∧
      ((accumulatedCurve g i m pts).sampleDomain domain).hi ≤ .fin q.1 := by
    cases domain with
    | none =>
      show Ext.fin p.1 ≤ (span pts).lo ∧ (span pts).hi ≤ .fin q.1
      rw [hs]
      exact ⟨le_rfl, le_rfl⟩
    | some e =>
      have hsup : Iv.superset (span pts) (Iv.inter (span pts) e) = true :=
        (Iv.superset_iff _ _).2 fun x hx => by
          rw [Iv.contains_inter, Bool.and_eq_true] at hx
          exact hx.1
      have h' : (Iv.inter (span pts) e).isEmpty = false := h
      have := (Iv.superset_iff_raw _ _).1 hsup
      rw [h'] at this
      simp only [Bool.false_eq_true, false_or] at this
      obtain ⟨_, h1, h2⟩ := this
      have hlo : (span pts).lo = .fin p.1 := by rw [hs]
      have hhi : (span pts).hi = .fin q.1 := by rw [hs]
      rw [Iv.loLe_iff, hlo] at h1
      rw [Iv.hiGe_iff, hhi] at h2
      constructor
      · rcases h1 with h1 | h1
        · exact h1.le
        · exact h1.1.le
      · rcases h2 with h2 | h2
        · exact h2.le
        · exact h2.1.ge
  generalize (accumulatedCurve g i m pts).sampleDomain domain = d at h hb
  have hlh : d.lo ≤ d.hi := by
    rcases (Iv.not_isEmpty_iff d).1 h with h | h
    · exact h.le
    · exact h.1.le
  obtain ⟨a, ha⟩ : ∃ a, d.lo = .fin a := by
    cases hl : d.lo with
    | ninf => rw [hl] at hb; exact absurd hb.1 (by simp)
    | pinf => have := hlh.trans hb.2; rw [hl] at this; exact absurd this (by simp)
    | fin a => exact ⟨a, rfl⟩
  obtain ⟨b, hb'⟩ : ∃ b, d.hi = .fin b := by
    cases hl : d.hi with
    | pinf => rw [hl] at hb; exact absurd hb.2 (by simp)
    | ninf => have := hb.1.trans hlh; rw [hl] at this; exact absurd this (by simp)
    | fin a => exact ⟨a, rfl⟩
  rw [ha, hb'] at hlh hb
  simp only [Ext.fin_le_fin] at hlh hb
  refine ⟨a, b, ha, hb', hlh, ?_, ?_⟩ <;> rw [hs, Iv.contains_iff, Iv.geLo_iff, Iv.leHi_iff] <;>
    simp only [Ext.fin_lt_fin, Ext.fin.injEq, and_true]
  · exact ⟨hb.1.lt_or_eq, (hlh.trans hb.2).lt_or_eq⟩
  · exact ⟨(hb.1.trans hlh).lt_or_eq, hb.2.lt_or_eq⟩

theorem sample_agrees (hf : Follows m t g) (hm : 0 < m) (hasc : Ascending pts) (domain : Option Iv)
    (minStep : Option Ext) (step : Option ℚ) (fuel : ℕ) :
    Agrees (Steady g m i u pts) (Accum.samplePoints t domain minStep step fuel)
      (ifFolded g pts ((accumulatedCurve g i m pts).sampleDomain domain)
        ((accumulatedCurve g i m pts).samplePoints domain minStep step fuel)) := by
  have F := steady_forwards (i := i) (u := u) (pts := pts) hf hm
  unfold Accum.samplePoints
  refine .bind_ok F.minStep (.bind_ok (F.sampleDomain domain) ?_)
  cases he : ((accumulatedCurve g i m pts).sampleDomain domain).isEmpty with
  | true =>
    have hs : (accumulatedCurve g i m pts).samplePoints domain minStep step fuel = some (.ok []) := by
      unfold Crv.samplePoints
      simp [he]
    simp only [ifFolded, he, if_true, hs]
    exact .pure' _
  | false =>
    obtain ⟨a, b, ha, hb, hab, hca, hcb⟩ := sampleDomain_bounds hasc he
    have hn : ((accumulatedCurve g i m pts).sampleDomain domain).isNegInf = false := by simp [Iv.isNegInf, ha]
    simp only [ifFolded, he, hn, ha, hb, Bool.false_and, Bool.false_eq_true, if_false]
    have h1 := scanAt_agrees (i := i) (u := u) hf hm hca
    have h2 := scanAt_agrees (i := i) (u := u) hf hm hcb
    have hfin : (match runRule g [] [] (upTo b pts) with
        | (_, none) => (accumulatedCurve g i m pts).samplePoints domain minStep step fuel
        | (_, some e) => some (.error e)) =
        match foldOutcome g pts b with
        | .ok _ => (accumulatedCurve g i m pts).samplePoints domain minStep step fuel
        | .error e => some (.error e) := by
      unfold foldOutcome
      rcases runRule g [] [] (upTo b pts) with ⟨o, _ | e⟩ <;> rfl
    refine (congrArg (Agrees _ _) hfin).mpr ?_
    rcases hfa : foldOutcome g pts a with e | _
    · rw [hfa] at h1
      rw [foldOutcome_mono hab hfa]
      exact .bind_error h1
    · rw [hfa] at h1
      refine .bind_ok h1 ?_
      rcases hfb : foldOutcome g pts b with e | _
      · rw [hfb] at h2
        exact .bind_error h2
      · rw [hfb] at h2
        refine .bind_ok h2 ?_
        have := F.samplePoints (some ((accumulatedCurve g i m pts).sampleDomain domain))
          (resolve (accumulatedCurve g i m pts).minStep minStep) step fuel
        rw [samplePoints_again he] at this
        exact this

theorem used_steady (hf : Follows m t g) (hm : 0 < m) (h : Used t m i u A) : Steady g m i u A.src.points A :=
  ⟨rfl, Used.sound hf hm h⟩

theorem agrees_result {σ α : Type} {I : σ → Prop} {p : Run σ α} {r : Option (Except Err α)} (h : Agrees I p r) {s : σ}
    (hs : I s) : (p s).map Prod.fst = r := by
  rcases r with _ | v
  · rw [(h s hs).1 rfl]; rfl
  · obtain ⟨s', h1, _⟩ := (h s hs).2 v rfl
    rw [h1]; rfl

theorem agrees_state {σ α : Type} {I : σ → Prop} {p : Run σ α} {r : Option (Except Err α)} (h : Agrees I p r) {s : σ}
    (hs : I s) {v : Except Err α} {s' : σ} (hp : p s = some (v, s')) : I s' := by
  rcases r with _ | v'
  · rw [(h s hs).1 rfl] at hp; cases hp
  · obtain ⟨s1, h1, h2⟩ := (h s hs).2 v' rfl
    rw [h1] at hp
    cases hp
    exact h2

/-- C116: after any history, sampling an accumulator gives what sampling the accumulated curve gives; it raises what the
accumulation up to the end of the sampled domain raises, if it does. -/
theorem C116_sample (hf : Follows m t g) (hm : 0 < m) (h : Used t m i u A) (domain : Option Iv) (minStep : Option Ext)
    (step : Option ℚ) (fuel : ℕ) :
    (Accum.samplePoints t domain minStep step fuel A).map Prod.fst =
      ifFolded g A.src.points ((accumulatedCurve g i m A.src.points).sampleDomain domain)
        ((accumulatedCurve g i m A.src.points).samplePoints domain minStep step fuel) := by
  have hs := used_steady hf hm h
  obtain ⟨_, _, _, hsnd⟩ := hs
  exact agrees_result (sample_agrees hf hm hsnd.src.wf.asc domain minStep step fuel) (used_steady hf hm h)

/-- C116: sampling does not disturb: the points of the source stay and later queries answer as they should. -/
theorem C116_after (hf : Follows m t g) (hm : 0 < m) (h : Used t m i u A) {domain : Option Iv} {minStep : Option Ext}
    {step : Option ℚ} {fuel : ℕ} {r : Except Err (List Sample)} {B : Accum}
    (hr : Accum.samplePoints t domain minStep step fuel A = some (r, B)) :
    B.src.points = A.src.points ∧ ∀ x, (B.query t x).map Out.res = some (accumulatedAt g i A.src.points x) := by
  obtain ⟨_, _, _, hsnd⟩ := used_steady hf hm h
  obtain ⟨h1, seen, todo, h2⟩ :=
    agrees_state (sample_agrees hf hm hsnd.src.wf.asc domain minStep step fuel) (used_steady hf hm h) hr
  refine ⟨h1, fun x => ?_⟩
  obtain ⟨o, g1, _, g3, _⟩ := h2.query hf hm x
  rw [g1, Option.map_some, g3, h1]

/-- C116: accumulators over the same points are sampled alike, whatever happened to them before. -/
theorem C116_same (hf : Follows m t g) (hm : 0 < m) (hA : Used t m i u A) {B : Accum} (hB : Used t m i u B)
    (hp : A.src.points = B.src.points) (domain : Option Iv) (minStep : Option Ext) (step : Option ℚ) (fuel : ℕ) :
    (Accum.samplePoints t domain minStep step fuel A).map Prod.fst =
      (Accum.samplePoints t domain minStep step fuel B).map Prod.fst := by
  rw [C116_sample hf hm hA, C116_sample hf hm hB, hp]

/-! ### Everything -/

theorem accumulated_at_index {g : Rule} {pts out : List (Pt ℚ)} (i : Interp) (hasc : Ascending pts)
    (hr : runRule g [] [] pts = (out, none)) {k : ℕ} {p : Pt ℚ} (hk : pts[k]? = some p) :
    ∃ v, out[k]? = some (p.1, v) ∧ accumulatedAt g i pts (.fin p.1) = .ok v := by
  have hlen : k < pts.length := (List.getElem?_eq_some_iff.1 hk).1
  have hxs : out.map Prod.fst = pts.map Prod.fst := by simpa using runRule_xs hr
  have hsplit := hr
  rw [← List.take_append_drop (k + 1) pts, runRule_append] at hsplit
  rcases ht : runRule g [] [] (pts.take (k + 1)) with ⟨o1, _ | e⟩
  · rw [ht] at hsplit
    simp only at hsplit
    obtain ⟨more, hmore⟩ := runRule_prefix hsplit
    have hx1 : o1.map Prod.fst = (pts.take (k + 1)).map Prod.fst := by simpa using runRule_xs ht
    have hl1 : o1.length = k + 1 := by
      have := congrArg List.length hx1
      simp only [List.length_map, List.length_take] at this
      omega
    have hne : o1 ≠ [] := by rintro rfl; simp at hl1
    have hlast := List.getLast?_eq_some_getLast hne
    have hk1 : o1[k]? = some (o1.getLast hne) := by
      rw [← hlast, List.getLast?_eq_getElem?, hl1]; rfl
    have hko : out[k]? = some (o1.getLast hne) := by
      rw [← hmore, List.getElem?_append_left (by omega)]; exact hk1
    have hp1 : (o1.getLast hne).1 = p.1 := by
      have e1 : (out.map Prod.fst)[k]? = some (o1.getLast hne).1 := by rw [List.getElem?_map, hko]; rfl
      rw [hxs, List.getElem?_map, hk] at e1
      simpa using e1.symm
    refine ⟨(o1.getLast hne).2, ?_, ?_⟩
    · rw [hko, ← hp1]
    · rw [accumulatedAt_knot i hasc hk ht]
      simp [lastOut, hlast]
  · rw [ht] at hsplit; simp at hsplit

theorem next_knot {a : ℚ} (ha : 0 < a) (hg : Gapped a pts) (hasc : Ascending pts) {pre rest : List (Pt ℚ)} {p q : Pt ℚ}
    (h : pts = pre ++ p :: q :: rest) : firstFrom pts (p.1 + a) = some q.1 := by
  have hgap : p.1 + a ≤ q.1 := by
    rw [h] at hg
    have := (List.isChain_append.1 hg).2.1
    exact (List.isChain_cons_cons.1 this).1
  rcases firstFrom_least hasc (p.1 + a) with ⟨z, h1, ⟨r, hr, hrz, hz⟩, hl⟩ | ⟨h1, h2⟩
  · rw [h1]
    congr 1
    refine le_antisymm (hl ⟨q, by rw [h]; simp, rfl, hgap⟩) ?_
    rw [h] at hr hasc
    obtain ⟨h3, h4, h5⟩ := List.pairwise_append.1 hasc
    obtain ⟨h6, h7⟩ := List.pairwise_cons.1 h4
    rcases List.mem_append.1 hr with hr | hr
    · have := h5 r hr p (by simp)
      linarith
    · rcases List.mem_cons.1 hr with rfl | hr
      · linarith
      · rcases List.mem_cons.1 hr with rfl | hr
        · exact hrz.le
        · have := (List.pairwise_cons.1 h7).1 r hr
          linarith
  · have := h2 q (by rw [h]; simp)
    linarith

theorem stepOf_self {a : ℚ} (h : m ≤ a) : stepOf m (some (.fin a)) = some a := by simp [stepOf, h]

theorem knots_chain {a : ℚ} (ha : 0 < a) (hma : m ≤ a) (hg : Gapped a pts) (hasc : Ascending pts) {b : Pt ℚ}
    (hb : pts.getLast? = some b) : ∀ (rest pre : List (Pt ℚ)) (p : Pt ℚ), pts = pre ++ p :: rest →
      Chain (accumulatedCurve g i m pts) a b.1 p.1 ((p :: rest).map Prod.fst) := by
  intro rest
  induction rest with
  | nil =>
    intro pre p h
    have : b = p := by rw [h] at hb; simpa using hb.symm
    subst this
    exact .last
  | cons q rest ih =>
    intro pre p h
    have hq : q.1 ≤ b.1 := le_getLast hasc hb (by rw [h]; simp)
    have hpq : p.1 < q.1 := by
      rw [h] at hasc
      exact (List.pairwise_cons.1 (List.pairwise_append.1 hasc).2.1).1 q (by simp)
    refine .next (hpq.trans_le hq) ?_ hq (ih (pre ++ [p]) q (by rw [h]; simp))
    show Except.ok ((stepOf m (some (.fin a))).bind (knotAfter pts (.fin p.1))) = _
    rw [stepOf_self hma]
    simp only [Option.bind_some, knotAfter, next_knot ha hg hasc h, Option.map_some]

theorem knots_advance {a b x : ℚ} (hma : m ≤ a) (hasc : Ascending pts) : Advances (accumulatedCurve g i m pts) a b x := by
  intro z hz
  have hz' : (knotAfter pts (.fin x) a) = some z := by
    have : (Except.ok ((stepOf m (some (.fin a))).bind (knotAfter pts (.fin x))) : Except Err (Option Ext)) = .ok (some z) := hz
    rw [stepOf_self hma] at this
    simpa using this
  simp only [knotAfter] at hz'
  rcases firstFrom_least hasc (x + a) with ⟨w, h1, ⟨r, hr, hrz, hw⟩, _⟩ | ⟨h1, _⟩
  · rw [h1] at hz'
    simp only [Option.map_some, Option.some.injEq] at hz'
    exact ⟨w, hz'.symm, .inl hw⟩
  · rw [h1] at hz'; cases hz'

theorem resolve_stepOf {a : ℚ} {arg : Option Ext} (h : stepOf m arg = some a) :
    resolve (some (.fin m)) arg = some (.fin a) := by
  rcases arg with _ | _ | q | _
  · simpa [resolve, stepOf] using h
  · simpa [resolve, stepOf] using h
  · simp only [stepOf, Option.some.injEq] at h
    simp only [resolve, Ext.fin_lt_fin]
    by_cases h' : q < m
    · rw [if_pos h', ← h, max_eq_right h'.le]
    · rw [if_neg h', ← h, max_eq_left (not_lt.1 h')]
  · simp [stepOf] at h

/-- The accumulated curve is sampled at the knots, with the accumulated results. -/
theorem knots_sampled {a : ℚ} (ha : 0 < a) (hma : m ≤ a) (hg : Gapped a pts) (hasc : Ascending pts)
    (hh : ∀ p ∈ pts, NotHalfway a p.1) {out : List (Pt ℚ)} (hr : runRule g [] [] pts = (out, none)) {fuel : ℕ}
    (hf : pts.length ≤ fuel) (hf0 : 0 < fuel) {arg : Option Ext} (harg : stepOf m arg = some a) :
    (accumulatedCurve g i m pts).samplePoints none arg none fuel =
      some (.ok (out.map fun p => (.fin p.1, p.2.map .fin))) := by
  have hres : resolve (accumulatedCurve g i m pts).minStep arg = some (.fin a) := resolve_stepOf harg
  have hxs : out.map Prod.fst = pts.map Prod.fst := by simpa using runRule_xs hr
  let v : ℚ → Option Num := fun z => ((accumulatedAt g i pts (.fin z)).toOption.getD none).map .fin
  have hv : ∀ p ∈ pts, (accumulatedCurve g i m pts).y (.fin p.1) = .ok (v p.1) := by
    intro p hp
    obtain ⟨k, hk⟩ := List.getElem?_of_mem hp
    obtain ⟨w, _, hw⟩ := accumulated_at_index i hasc hr hk
    show (accumulatedAt g i pts (.fin p.1)).map _ = _
    simp [v, hw, Except.map, Except.toOption]
  have hout : (pts.map fun p => ((.fin p.1, v p.1) : Sample)) = out.map fun p => (.fin p.1, p.2.map .fin) := by
    refine List.ext_getElem? fun k => ?_
    rw [List.getElem?_map, List.getElem?_map]
    cases hk : pts[k]? with
    | none =>
      have : out[k]? = none := by
        rw [List.getElem?_eq_none_iff] at hk ⊢
        have := congrArg List.length hxs
        simp only [List.length_map] at this
        omega
      rw [this]; rfl
    | some p =>
      obtain ⟨w, h1, hw⟩ := accumulated_at_index i hasc hr hk
      simp [h1, v, hw, Except.toOption]
  rw [← hout]
  cases pts with
  | nil =>
    unfold Crv.samplePoints
    rw [show (accumulatedCurve g i m []).sampleDomain none = Iv.empty from rfl]
    simp
  | cons p ps =>
    cases ps with
    | nil =>
      have hs : (accumulatedCurve g i m [p]).sampleDomain none = ⟨.fin p.1, .fin p.1, false, false⟩ := rfl
      have hnext : (accumulatedCurve g i m [p]).xNext (.fin p.1) (some (.fin a)) (some (.fin p.1)) = .ok none := by
        show Except.ok ((stepOf m (some (.fin a))).bind (knotAfter [p] (.fin p.1))) = _
        rw [stepOf_self hma]
        have : ¬ (p.1 + a ≤ p.1) := by linarith
        simp [knotAfter, firstFrom, this]
      obtain ⟨f, rfl⟩ : ∃ f, fuel = f + 1 := ⟨fuel - 1, by omega⟩
      obtain ⟨e, he⟩ := endBin_ok (b := p.1) (m := some (.fin a)) (by simpa using ha.ne')
      unfold Crv.samplePoints
      rw [hs, hres]
      simp [Iv.isEmpty, Iv.isFinite, Iv.isNegInf, Iv.isPosInf, he, Crv.firstSample, hv p (by simp), ha, hnext, Crv.chainLoop,
        Crv.addEnd]
    | cons q rest =>
      have hl := List.getLast?_eq_some_getLast (l := p :: q :: rest) (by simp)
      set b := (p :: q :: rest).getLast (by simp) with hbdef
      have hbm : b ∈ p :: q :: rest := List.mem_of_getLast? hl
      have hs : (accumulatedCurve g i m (p :: q :: rest)).sampleDomain none = ⟨.fin p.1, .fin b.1, false, false⟩ := by
        show span (p :: q :: rest) = _
        simp only [span, hl, List.head?_cons]
      have hpb : p.1 < b.1 := by
        have h1 := le_getLast hasc hl (q := q) (by simp)
        have h2 := (List.pairwise_cons.1 hasc).1 q (by simp)
        linarith
      have hd : OnInterval (accumulatedCurve g i m (p :: q :: rest)) none p.1 b.1 :=
        ⟨by rw [hs]; simp [Iv.isEmpty, hpb.le, hpb.ne], by rw [hs], by rw [hs]⟩
      have hx : (accumulatedCurve g i m (p :: q :: rest)).xNext (.fin p.1) (some (.fin a)) (some (.fin b.1)) =
          .ok (some (.fin q.1)) := by
        show Except.ok ((stepOf m (some (.fin a))).bind (knotAfter _ (.fin p.1))) = _
        rw [stepOf_self hma]
        simp only [Option.bind_some, knotAfter, next_knot ha hg hasc (pre := []) rfl, Option.map_some]
      obtain ⟨zs, z1, z2, z3, z4, z5, z6, z7⟩ := C38_partial (accumulatedCurve g i m (p :: q :: rest)) none arg p.1 b.1 a hd
        hpb hres ha q.1 ((q :: rest).map Prod.fst) hx
        (knots_chain ha hma hg hasc hl rest [p] q rfl) (fun z _ => knots_advance hma hasc)
        (by
          intro z hz
          obtain ⟨r, hr', rfl⟩ := List.mem_map.1 hz
          exact hh r (List.mem_cons_of_mem _ hr'))
        v
        (by
          intro z hz
          simp only [List.mem_cons] at hz
          rcases hz with rfl | rfl | hz
          · exact hv p (by simp)
          · exact hv b hbm
          · obtain ⟨r, hr', rfl⟩ := List.mem_map.1 hz
            exact hv r (List.mem_cons_of_mem _ hr'))
        fuel (by simp at hf ⊢; omega)
      have hz : zs = (p :: q :: rest).map Prod.fst := by
        refine List.Pairwise.eq_of_mem_iff (r := (· < ·)) z2 (List.pairwise_map.2 hasc) ?_
        intro z
        constructor
        · intro hz
          rcases z7 z hz with rfl | rfl | h
          · simp
          · exact List.mem_map_of_mem hbm
          · simp only [List.map_cons, List.mem_cons] at h ⊢
            exact .inr h
        · intro hz
          rw [List.map_cons, List.mem_cons] at hz
          rcases hz with rfl | h
          · exact z4.2 (by rw [hs])
          · obtain ⟨r, hr', rfl⟩ := List.mem_map.1 h
            rcases (le_getLast hasc hl (q := r) (List.mem_cons_of_mem _ hr')).lt_or_eq with h' | h'
            · exact z6 _ h h'
            · rw [h']
              exact z5 (by rw [hs])
      rw [z1, hz, List.map_map]
      rfl

theorem upTo_all {pts : List (Pt ℚ)} (hasc : Ascending pts) {b : Pt ℚ} (hb : pts.getLast? = some b) : upTo b.1 pts = pts := by
  induction pts with
  | nil => rfl
  | cons p ps ih =>
    cases ps with
    | nil =>
      have : p = b := by simpa using hb
      subst this
      simp [upTo]
    | cons q rest =>
      have h1 := (List.pairwise_cons.1 hasc)
      have hb' : (q :: rest).getLast? = some b := by rw [← hb]; simp [List.getLast?_cons_cons]
      have h2 := h1.1 b (List.mem_of_getLast? hb')
      rw [upTo, if_pos h2, ih h1.2 hb']

/-- C116, the whole domain (partial: gaps of at least the step asked for, no knot at an odd multiple of half the step, see
`C38_negation`): after any history, an accumulator that can be accumulated is sampled exactly at the points of its source,
with the results that were written there.
Missing: sources with points closer than the step. -/
theorem C116_knots_partial (hf : Follows m t g) (hm : 0 < m) (h : Used t m i u A) {arg : Option Ext} {a : ℚ}
    (ha : stepOf m arg = some a) (hg : Gapped a A.src.points) (hh : ∀ p ∈ A.src.points, NotHalfway a p.1)
    {out : List (Pt ℚ)} (hr : runRule g [] [] A.src.points = (out, none)) {fuel : ℕ} (hfuel : A.src.points.length < fuel) :
    (Accum.samplePoints t none arg none fuel A).map Prod.fst =
      some (.ok (out.map fun p => (.fin p.1, p.2.map .fin))) := by
  obtain ⟨_, _, _, hsnd⟩ := used_steady hf hm h
  have hasc := hsnd.src.wf.asc
  have hma : m ≤ a := by
    rcases arg with _ | _ | q | _ <;> simp [stepOf] at ha <;> simp [← ha]
  rw [C116_sample hf hm h, knots_sampled (hm.trans_le hma) hma hg hasc hh hr hfuel.le (by omega) ha]
  unfold ifFolded
  split
  · rfl
  · rename_i hne
    cases hl : A.src.points.getLast? with
    | none =>
      have : A.src.points = [] := by simpa using hl
      rw [this] at hne
      exact absurd rfl hne
    | some b =>
      have hhi : ((accumulatedCurve g i m A.src.points).sampleDomain none).hi = .fin b.1 := by
        show (span A.src.points).hi = _
        cases hp : A.src.points.head? with
        | none =>
          have : A.src.points = [] := by simpa using hp
          rw [this] at hl
          cases hl
        | some p => simp only [span, hp, hl]
      rw [hhi]
      simp only [upTo_all hasc hl, hr]

/-- Sampling an average whose source was edited in between. -/
example : ((Accum.new (demo .linear) 1 .linear false).edit (.append (6, some 9)) quiet).1.src.points.length = 5 ∧
    (Accum.samplePoints (emaTfm (some (1/2)) none none 1) none none none 10
      ((Accum.new (demo .linear) 1 .linear false).edit (.append (6, some 9)) quiet).1).map Prod.fst =
    some (.ok [(.fin 0, some (.fin 1)), (.fin 1, some (.fin 2)), (.fin 3, some (.fin 2)), (.fin 4, some (.fin 2)),
      (.fin 6, some (.fin (11/2)))]) := by
  decide +kernel

/-- The hypotheses of `C116_knots_partial` can be met. -/
example : stepOf 1 none = some 1 ∧ Gapped 1 fivePts ∧ (∀ p ∈ fivePts, NotHalfway 1 p.1) ∧
    runRule (stepRule (emaStep (fun _ _ => 1/2) none)) [] [] fivePts =
      ([(1, some 1), (2, some 2), (3, some 2), (4, some (9/2)), (5, some (11/4))], none) := by
  refine ⟨rfl, by norm_num [Gapped, fivePts], ?_, by decide +kernel⟩
  have key : ∀ k : ℤ, NotHalfway 1 (k : ℚ) := by
    intro k n h
    have h2 : (2 * k : ℚ) = 2 * n + 1 := by linarith
    have : 2 * k = 2 * n + 1 := by exact_mod_cast h2
    omega
  intro p hp
  simp only [fivePts, List.mem_cons, List.not_mem_nil, or_false] at hp
  rcases hp with rfl | rfl | rfl | rfl | rfl
  · exact_mod_cast key 1
  · exact_mod_cast key 2
  · exact_mod_cast key 3
  · exact_mod_cast key 4
  · exact_mod_cast key 5

/-- With a step. -/
example : (Accum.samplePoints (emaTfm (some (1/2)) none none 1) (some (Iv.closed (5/2) 4)) none (some (1/2)) 10
    (Accum.new (loose fivePts) 1)).map Prod.fst = some (.ok [(.fin (5/2), some (.fin 2)), (.fin 3, some (.fin 2)),
      (.fin (7/2), some (.fin (13/4))), (.fin 4, some (.fin (9/2)))]) := by decide +kernel

/-- C116 does not hold if a step is asked for that is longer than a gap: the second point, whose result was written, is not among the
samples. -/
theorem C116_negation : Used (emaTfm (some (1/2)) none none 1) 1 .linear false (Accum.new (demo .linear) 1 .linear false) ∧
    runRule (stepRule (emaStep (fun _ _ => 1/2) none)) [] [] (demo .linear).points =
      ([(0, some 1), (1, some 2), (3, some 2), (4, some 2)], none) ∧
    (Accum.samplePoints (emaTfm (some (1/2)) none none 1) none (some (.fin 2)) none 10
      (Accum.new (demo .linear) 1 .linear false)).map Prod.fst =
      some (.ok [(.fin 0, some (.fin 1)), (.fin 3, some (.fin 2)), (.fin 4, some (.fin 2))]) :=
  ⟨.new (demo_honest _) (demo_fit _), by decide +kernel, by decide +kernel⟩

/-! ## C117 -/

/-- C117, forwards: after any history, the slope to the next position and the points from a position on are those of the
accumulated curve. -/
theorem C117_forwards (hf : Follows m t g) (hm : 0 < m) (h : Used t m i u A) (x : Ext) (minStep limit : Option Ext) :
    ((machine t).dY x true minStep limit A).map Prod.fst =
      some ((accumulatedCurve g i m A.src.points).dY x true minStep limit) ∧
    ∀ (n : ℕ) (isOpen : Bool), ((machine t).samplePointsFrom x n false isOpen minStep A).map Prod.fst =
      some ((accumulatedCurve g i m A.src.points).samplePointsFrom x n false isOpen minStep) := by
  have F := steady_forwards (i := i) (u := u) (pts := A.src.points) hf hm
  refine ⟨agrees_result (F.dY x true nofun minStep limit) (used_steady hf hm h), fun n isOpen => ?_⟩
  refine agrees_result (F.samplePointsFrom x n false isOpen ?_ minStep) (used_steady hf hm h)
  have : ¬ ((n : ℤ) < 0) := by omega
  simp [this]

theorem used_complete (hf : Follows m t g) (hm : 0 < m) (h : Used t m i u A)
    (hc : A.current = A.src.points.getLast?.map Prod.fst) : Complete g m i u A.src.points A := by
  obtain ⟨seen, todo, hs⟩ := Used.sound hf hm h
  have : todo = [] := by
    by_contra hne
    have hl := List.getLast?_eq_some_getLast hne
    have h1 : A.src.points.getLast? = some (todo.getLast hne) := by
      rw [hs.pts, List.getLast?_append, hl]; rfl
    rw [h1, hs.cur] at hc
    cases hq : seen.getLast? with
    | none => rw [hq] at hc; cases hc
    | some q =>
      rw [hq] at hc
      have := (List.pairwise_append.1 hs.asc).2.2 q (List.mem_of_getLast? hq) _ (List.getLast_mem hne)
      simp only [Option.map_some, Option.some.injEq] at hc
      linarith
  subst this
  refine ⟨rfl, ?_⟩
  rw [hs.pts, List.append_nil]
  exact hs

/-- C117 (partial: everything was accumulated): slopes, searches and sampling from a position, in both directions, are those of
the accumulated curve, and everything stays accumulated.
Missing: other states, see `C117_negation`. -/
theorem C117_complete_partial (hf : Follows m t g) (hm : 0 < m) (h : Used t m i u A)
    (hc : A.current = A.src.points.getLast?.map Prod.fst) (x : Ext) (minStep limit : Option Ext) (step : Option ℚ) (n : ℕ) :
    (∀ forward, ((machine t).dY x forward minStep limit A).map Prod.fst =
      some ((accumulatedCurve g i m A.src.points).dY x forward minStep limit)) ∧
    (∀ (l : ℤ) (backward isOpen : Bool), ((machine t).samplePointsFrom x l backward isOpen minStep A).map Prod.fst =
      some ((accumulatedCurve g i m A.src.points).samplePointsFrom x l backward isOpen minStep)) ∧
    ((machine t).minimise x minStep step n A).map Prod.fst =
      some ((accumulatedCurve g i m A.src.points).minimise
        (fun x f => (accumulatedCurve g i m A.src.points).dY x f) x minStep step n).1 ∧
    ((machine t).maximise x minStep step n A).map Prod.fst =
      some ((accumulatedCurve g i m A.src.points).maximise
        (fun x f => (accumulatedCurve g i m A.src.points).dY x f) x minStep step n).1 := by
  have F := complete_imitates (i := i) (u := u) (pts := A.src.points) hf hm
  have hI := used_complete hf hm h hc
  refine ⟨fun f => agrees_result (F.toForwards.dY x f (fun _ => F) minStep limit) hI,
    fun l b o => agrees_result (F.toForwards.samplePointsFrom x l b o (fun _ => F) minStep) hI,
    agrees_result (F.search _ _ _ _ _ _) hI, agrees_result (F.search _ _ _ _ _ _) hI⟩

/-- Everything was accumulated after a query at the last point that did not raise. -/
theorem C117_after_last (hf : Follows m t g) (hm : 0 < m) (h : Used t m i u A) {b : Pt ℚ}
    (hb : A.src.points.getLast? = some b) {o : Out (Option ℚ)} (ho : A.query t (.fin b.1) = some o) {v : Option ℚ}
    (hv : o.res = .ok v) : o.st.current = o.st.src.points.getLast?.map Prod.fst := by
  obtain ⟨seen, todo, hs⟩ := Used.sound hf hm h
  have hasc := hs.asc
  rw [hs.pts] at hb
  have hx : (span (seen ++ todo)).contains (.fin b.1) = true := knot_in_span hasc (List.mem_of_getLast? hb)
  obtain ⟨o', h1, h2, _, h4⟩ := hs.query_inside hf hm hx
  rw [ho] at h1
  cases h1
  rcases h4 with ⟨out, rest, r1, r2, r3, r4⟩ | ⟨out, e, _, _, r1, r2, _⟩
  · have hrest : rest = [] := by
      unfold need at r2
      split at r2
      · by_contra hne
        have hlt : todo ≠ [] := by rintro rfl; simp [upTo] at r2; exact hne r2
        have hbt : todo.getLast? = some b := by
          rw [List.getLast?_append, List.getLast?_eq_some_getLast hlt] at hb
          rw [List.getLast?_eq_some_getLast hlt]
          simpa using hb
        rw [upTo_all (List.pairwise_append.1 hasc).2.1 hbt] at r2
        exact hne (by simpa using r2)
      · rename_i hcur
        by_contra hne
        have hlt : todo ≠ [] := by rintro rfl; simp at r2; exact hne r2
        have hbt : todo.getLast? = some b := by
          rw [List.getLast?_append, List.getLast?_eq_some_getLast hlt] at hb
          rw [List.getLast?_eq_some_getLast hlt]
          simpa using hb
        cases hq : seen.getLast? with
        | none => rw [hq] at hcur; exact hcur rfl
        | some q =>
          rw [hq] at hcur
          have := (List.pairwise_append.1 hasc).2.2 q (List.mem_of_getLast? hq) b (List.mem_of_getLast? hbt)
          simp [this] at hcur
    subst hrest
    rw [List.append_nil] at r2
    rw [r4.cur, r4.pts, List.append_nil]
  · rw [r2] at hv; cases hv

/-- The slope to the previous position of an accumulator after some queries. -/
def slopeAfter (t : Tfm) (A : Accum) (before : List Ext) (x : ℚ) : Option (Except Err (Option Num)) :=
  (queries t A before).bind fun r => ((machine t).dY (.fin x) false none none r.1).map Prod.fst

/-- Disagreement with C117: the slope of an average at 5 depends on what was asked before. -/
theorem C117_negation :
    Used (emaTfm (some (1/2)) none none 1) 1 .linear true (Accum.new (loose fivePts) 1) ∧
    slopeAfter (emaTfm (some (1/2)) none none 1) (Accum.new (loose fivePts) 1) [] 5 =
      some (.ok (some (.fin (-7/4)))) ∧
    slopeAfter (emaTfm (some (1/2)) none none 1) (Accum.new (loose fivePts) 1) [.fin 2] 5 =
      some (.ok (some (.fin (1/4)))) ∧
    slopeAfter (emaTfm (some (1/2)) none none 1) (Accum.new (loose fivePts) 1) [.fin 5] 5 =
      some (.ok (some (.fin (-7/4)))) := by
  refine ⟨.new five_honest five_fit, ?_, ?_, ?_⟩ <;> decide +kernel

/-- A search on an average that was asked for its last value. -/
example : ((queries (emaTfm (some (1/2)) none none 1) (Accum.new (loose fivePts) 1) [.fin 5]).bind fun r =>
      ((machine (emaTfm (some (1/2)) none none 1)).maximise (.fin 3) none none 10 r.1).map Prod.fst) =
      some (.ok (some (.fin 4))) ∧
    ((queries (emaTfm (some (1/2)) none none 1) (Accum.new (loose fivePts) 1) [.fin 5]).map fun r => r.1.current) =
      some (some 5) ∧
    ((machine (emaTfm (some (1/2)) none none 1)).dY (.fin 3) true none none (Accum.new (loose fivePts) 1)).map Prod.fst =
      some (.ok (some (.fin (5/2)))) := by
  refine ⟨?_, ?_, ?_⟩ <;> decide +kernel

end Props
end Curvepy
