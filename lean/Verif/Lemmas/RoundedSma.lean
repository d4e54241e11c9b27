import Verif.Spec.RoundedSma
import Verif.Lemmas.SmaHistory
import Verif.Props.RoundedIntegral

/-!
# A moving average with rounded arithmetic

Like `Lemmas/Sma`, `Lemmas/SmaQuery` and `Lemmas/SmaHistory`, whose lemmas on where windows are apply unchanged.
-/

namespace Curvepy
namespace Sma
open Spec Pts Accum Props

variable {fl : ℚ → ℚ} {m : ℚ} {u : Bool} {w : Window} {src : Pts ℚ}

/-- The rule of the integral. -/
abbrev areaRuleR (fl : ℚ → ℚ) : Rule := stepRule (areaStepR fl .linear)

theorem integralR_from (fl : ℚ → ℚ) (hm : minStepQ ≤ m) {acc : Pts ℚ} {skip seen rest : List (Pt ℚ)}
    {p : Pt ℚ} (h1 : Honest src) (h2 : Honest acc) (hs : src.points = skip ++ (seen ++ p :: rest))
    (hx : acc.points.map Prod.fst = seen.map Prod.fst) (hg : Gapped m src.points) :
    integralTfmR fl .linear src acc p.1 p.2 (lastOut acc.points) = areaRuleR fl (seen ++ [p]) acc.points := by
  refine integralR_step fl hm .linear (fun q hq => Props.C01_stored_value h1 (by rw [hs]; simp [hq])) h2 hx ?_
  rw [hs] at hg
  exact List.IsChain.prefix (List.IsChain.right_of_append hg) ⟨rest, by simp⟩

/-- What holds of an average between operations: after `skip` the knots `seen` have been accumulated. -/
structure SmaSoundR (fl : ℚ → ℚ) (w : Window) (m : ℚ) (u : Bool) (A : Accum) (skip seen todo : List (Pt ℚ)) : Prop where
  src : Honest A.src
  pts : A.src.points = skip ++ (seen ++ todo)
  fit : AllFit m u A.src.points
  acc : Honest A.acc
  interp : A.acc.interp = .linear
  force : A.acc.force = u
  run : runRule (areaRuleR fl) [] [] seen = (A.acc.points, none)
  cur : A.current = seen.getLast?.map Prod.fst
  start : seen ≠ [] → A.scanStart = seen.head?.map Prod.fst
  step : A.minStep = m
  cache : ∀ d, A.cache = some d → smaDomain A.src w m = .ok d
  idleB : A.bIv = Iv.empty
  idleE : A.eIv = Iv.empty

variable {A : Accum} {skip seen todo : List (Pt ℚ)} {p : Pt ℚ}

theorem SmaSoundR.asc (h : SmaSoundR fl w m u A skip seen todo) : Ascending (skip ++ (seen ++ todo)) := by
  rw [← h.pts]; exact h.src.wf.asc

theorem SmaSoundR.asc' (h : SmaSoundR fl w m u A skip seen todo) : Ascending (seen ++ todo) :=
  (List.pairwise_append.1 h.asc).2.1

theorem SmaSoundR.gapped (h : SmaSoundR fl w m u A skip seen todo) : Gapped m A.src.points :=
  (h.fit _ (List.suffix_refl _)).gapped

theorem SmaSoundR.gapped' (h : SmaSoundR fl w m u A skip seen todo) : Gapped m (seen ++ todo) := by
  have := h.gapped
  rw [h.pts] at this
  exact List.IsChain.right_of_append this

theorem SmaSoundR.withSrc (h : SmaSoundR fl w m u A skip seen todo) {s' : Pts ℚ} (hs : Honest s')
    (hp : s'.points = A.src.points) : SmaSoundR fl w m u { A with src := s' } skip seen todo where
  src := hs
  pts := hp.trans h.pts
  fit := by show AllFit m u s'.points; rw [hp]; exact h.fit
  acc := h.acc
  interp := h.interp
  force := h.force
  run := h.run
  cur := h.cur
  start := h.start
  step := h.step
  cache := fun d hd => (smaDomain_congr hs h.src hp w).trans (h.cache d hd)
  idleB := h.idleB
  idleE := h.idleE

theorem SmaSoundR.touchSrc (h : SmaSoundR fl w m u A skip seen todo) :
    SmaSoundR fl w m u { A with src := A.src.touch } skip seen todo := h.withSrc (.read h.src) rfl

theorem SmaSoundR.touchAcc (h : SmaSoundR fl w m u A skip seen todo) :
    SmaSoundR fl w m u { A with acc := A.acc.touch } skip seen todo :=
  ⟨h.src, h.pts, h.fit, .read h.acc, h.interp, h.force, h.run, h.cur, h.start, h.step, h.cache, h.idleB, h.idleE⟩

theorem SmaSoundR.accXs (h : SmaSoundR fl w m u A skip seen todo) :
    A.acc.points.map Prod.fst = seen.map Prod.fst := by
  simpa using runRule_xs h.run

theorem SmaSoundR.mem_cur (h : SmaSoundR fl w m u A skip seen todo) {c : ℚ} (hc : A.current = some c) :
    ∃ p, seen.getLast? = some p ∧ p.1 = c := by
  rw [h.cur] at hc
  cases hl : seen.getLast? with
  | none => rw [hl] at hc; cases hc
  | some p => rw [hl] at hc; exact ⟨p, rfl, by simpa using hc⟩

/-- The next position is the next knot. -/
theorem SmaSoundR.xNext (h : SmaSoundR fl w m u A skip seen (p :: todo)) (hm : 0 < m) {c : ℚ}
    (hc : A.current = some c) : A.xNext (.fin c) A.minStep = .ok (some (.fin p.1)) := by
  obtain ⟨q, hq, hqc⟩ := h.mem_cur hc
  have hasc := h.asc'
  have hseen : Ascending seen := (List.pairwise_append.1 hasc).1
  have hres : resolveMinStep (some A.minStep) (some A.minStep) = some m := by
    simp [resolveMinStep, h.step]
  have hacc : A.acc.xNext (.fin c) (some m) = .ok none := by
    rcases Props.C06_x_next h.acc c m with ⟨z, _, ⟨r, hr, hrz, hz⟩, _⟩ | ⟨h1, _⟩
    · exfalso
      have : r.1 ∈ A.acc.points.map Prod.fst := List.mem_map_of_mem hr
      rw [h.accXs] at this
      obtain ⟨r', hr', hrr⟩ := List.mem_map.1 this
      have := le_getLast hseen hq hr'
      linarith
    · exact h1
  have hgap : q.1 + m ≤ p.1 := gapped_pair h.gapped' hq
  have hsrc : A.src.xNext (.fin c) (some m) = .ok (some (.fin p.1)) := by
    obtain ⟨pre, rfl⟩ := List.getLast?_eq_some_iff.1 hq
    rw [← hqc]
    refine next_knot h.src hm h.gapped (k := (skip ++ pre).length) ?_ ?_
    · rw [h.pts]; simp
    · rw [h.pts, show skip ++ (pre ++ [q] ++ p :: todo) = (skip ++ pre ++ [q]) ++ p :: todo by simp,
        List.getElem?_append_right (by simp; omega)]
      rw [show (skip ++ pre).length + 1 - (skip ++ pre ++ [q]).length = 0 by simp <;> omega]
      rfl
  unfold Accum.xNext
  simp only [hres, hacc, hsrc, bind, Except.bind, pyOr]

/-- One step of the integral. -/
theorem SmaSoundR.accumulate (hm : minStepQ ≤ m) (h : SmaSoundR fl w m u A skip seen (p :: todo))
    (hst : A.scanStart = (seen ++ [p]).head?.map Prod.fst) :
    ∃ A', A.accumulate (integralTfmR fl .linear) p.1 p.2 = ⟨A', [(p.1, p.2, lastOut A.acc.points)], .ok ()⟩ ∧
      A'.src = A.src ∧ A'.scanStart = A.scanStart ∧
      SmaSoundR fl w m u { A' with current := some p.1 } skip (seen ++ [p]) todo := by
  have h1 := h.touchAcc
  have hasc := h.asc'
  have hbefore : ∀ q ∈ A.acc.points, q.1 < p.1 := by
    intro q hq
    have : q.1 ∈ A.acc.points.map Prod.fst := List.mem_map_of_mem hq
    rw [h.accXs] at this
    obtain ⟨q', hq', hqq⟩ := List.mem_map.1 this
    have := (List.pairwise_append.1 hasc).2.2 q' hq' p (by simp)
    linarith
  have hlast : lastOf A.acc.touch p.1 = .ok (lastOut A.acc.points) := by
    unfold lastOf
    have hd : A.acc.touch.domVal = getDomain A.acc.points := h1.acc.wf.domVal
    rw [hd]
    cases ha : A.acc.points with
    | nil => simp [getDomain, lastOut]
    | cons a as =>
      have hne : (getDomain (a :: as)).isEmpty = false := by
        rw [← ha]; exact getDomain_not_isEmpty h.acc.wf.asc (by rw [ha]; simp)
      have hhi : (getDomain (a :: as)).hi = .fin ((a :: as).getLast (by simp)).1 := rfl
      have hlm : (a :: as).getLast (by simp) ∈ A.acc.points := by rw [ha]; exact List.getLast_mem _
      have hlt : (getDomain (a :: as)).hi < .fin p.1 := by
        rw [hhi, Ext.fin_lt_fin]; exact hbefore _ hlm
      rw [hne, if_neg (by simp), if_pos hlt, hhi]
      have := Props.C01_stored_value h1.acc (p := (a :: as).getLast (by simp)) hlm
      rw [this]
      simp [lastOut, List.getLast?_eq_some_getLast]
  have ht := integralR_from fl hm h.src h1.acc h.pts h.accXs h.gapped
  have htp : A.acc.touch.points = A.acc.points := rfl
  rw [htp] at ht
  obtain ⟨v, hv⟩ : ∃ v, areaRuleR fl (seen ++ [p]) A.acc.points = .ok v := by
    simp [areaRuleR, stepRule]
  rw [hv] at ht
  have hxs : (A.acc.points ++ [(p.1, v)]).map Prod.fst = (seen ++ [p]).map Prod.fst := by
    simp [h.accXs]
  have hpre : (seen ++ [p]) <+: (seen ++ p :: todo) := ⟨todo, by simp⟩
  have hfitp := Fit.prefix hpre (h.fit _ ⟨skip, h.pts.symm⟩)
  have hfit : Fit m u (A.acc.touch.points ++ [(p.1, v)]) := by
    refine ⟨?_, NoFluke.of_xs hxs hfitp.noFluke, fun hu => EquallySpaced.of_xs hxs (hfitp.uniform hu)⟩
    have hg' : ((seen ++ [p]).map Prod.fst).IsChain (fun x y : ℚ => x + m ≤ y) := by
      rw [List.isChain_map]; exact hfitp.gapped
    rw [← hxs, List.isChain_map] at hg'
    exact hg'
  obtain ⟨a1, a2, a3, a4, a5⟩ := append_fits h1.acc h1.force (p := (p.1, v)) hfit hbefore quiet
  refine ⟨{ A with acc := (A.acc.touch.append (p.1, v) quiet).st }, ?_, rfl, rfl, ?_⟩
  · unfold Accum.accumulate
    simp only [hlast, ht, a1]
  · refine ⟨h.src, by rw [h.pts]; simp, h.fit, a2, a4.trans h.interp, a5.trans h.force, ?_, ?_, ?_,
      h.step, h.cache, h.idleB, h.idleE⟩
    · rw [runRule_append, h.run]
      simp only [List.nil_append, runRule, hv, a3]
      rfl
    · simp
    · intro _; exact hst

/-- The loop: everything up to the knot asked for is accumulated. -/
theorem smaLoopR_spec (hm : minStepQ ≤ m) (x s : ℚ) :
    ∀ (todo seen : List (Pt ℚ)) (A : Accum) (n : ℕ), SmaSoundR fl w m u A skip seen todo →
      (seen = [] → ∀ p, todo.head? = some p → p.1 = s) →
      (∃ p ∈ seen ++ todo, x ≤ p.1) → todo.length < n →
      ∃ o a b, smaLoopR fl x (some (.fin s)) n A = some o ∧ o.res = .ok () ∧ o.st.src.points = A.src.points ∧
        todo = a ++ b ∧ SmaSoundR fl w m u o.st skip (seen ++ a) b ∧ ∃ p ∈ seen ++ a, x ≤ p.1 := by
  have hm0 : (0 : ℚ) < m := lt_of_lt_of_le (by norm_num [minStepQ]) hm
  intro todo
  induction todo with
  | nil =>
    intro seen A n h _ hx hn
    obtain ⟨n, rfl⟩ : ∃ k, n = k + 1 := ⟨n - 1, by omega⟩
    have hcur : (seen.getLast?.map Prod.fst).all (fun c => decide (c < x)) = false := by
      obtain ⟨q, hq, hxq⟩ := hx
      rw [List.append_nil] at hq
      have hne : seen ≠ [] := List.ne_nil_of_mem hq
      have hl := List.getLast?_eq_some_getLast hne
      have hasc := h.asc'
      rw [List.append_nil] at hasc
      have := le_getLast hasc hl hq
      rw [hl]
      simp only [Option.map_some, Option.all_some, decide_eq_false_iff_not, not_lt]
      linarith
    refine ⟨⟨A, [], .ok ()⟩, [], [], ?_, rfl, rfl, rfl, by simpa using h, by simpa using hx⟩
    simp only [smaLoopR, h.cur, hcur, Bool.false_eq_true, if_false]
  | cons p ps ih =>
    intro seen A n h hs hx hn
    obtain ⟨n, rfl⟩ : ∃ k, n = k + 1 := ⟨n - 1, by omega⟩
    cases hcur : (seen.getLast?.map Prod.fst).all (fun c => decide (c < x)) with
    | false =>
      refine ⟨⟨A, [], .ok ()⟩, [], p :: ps, ?_, rfl, rfl, rfl, by simpa using h, ?_⟩
      · simp only [smaLoopR, h.cur, hcur, Bool.false_eq_true, if_false]
      · cases hl : seen.getLast? with
        | none => rw [hl] at hcur; simp at hcur
        | some q =>
          rw [hl] at hcur
          simp only [Option.map_some, Option.all_some, decide_eq_false_iff_not, not_lt] at hcur
          exact ⟨q, by simpa using List.mem_of_getLast? hl, hcur⟩
    | true =>
      obtain ⟨A1, hA1, s1, hst, hp1⟩ : ∃ A1, smaNext (some (.fin s)) A = (A1, .ok (some (.fin p.1))) ∧
          SmaSoundR fl w m u A1 skip seen (p :: ps) ∧ A1.scanStart = (seen ++ [p]).head?.map Prod.fst ∧
          A1.src = A.src := by
        cases hc : A.current with
        | some c =>
          refine ⟨A, ?_, h, ?_, rfl⟩
          · simp only [smaNext, hc, h.xNext hm0 hc]
          · obtain ⟨q, hq, _⟩ := h.mem_cur hc
            have hne : seen ≠ [] := by rintro rfl; simp at hq
            rw [h.start hne]
            cases seen with
            | nil => exact absurd rfl hne
            | cons a as => rfl
        | none =>
          have hnil : seen = [] := by
            have := h.cur
            rw [hc] at this
            cases hl : seen.getLast? with
            | none => simpa using hl
            | some q => rw [hl] at this; cases this
          subst hnil
          have hps := hs rfl p rfl
          refine ⟨{ A with scanStart := some s }, ?_, ?_, ?_, rfl⟩
          · simp only [smaNext, hc, finPart, hps]
          · exact ⟨h.src, h.pts, h.fit, h.acc, h.interp, h.force, h.run, h.cur, by simp, h.step, h.cache,
              h.idleB, h.idleE⟩
          · simp [hps]
      have s2 := s1.touchSrc
      have hcon : ({ A1 with src := A1.src.touch } : Accum).src.domVal.contains (.fin p.1) = true := by
        rw [s2.src.wf.domVal]
        exact getDomain_contains_mem s2.src.wf.asc (by rw [s2.pts]; simp)
      have hadv : ({ A1 with src := A1.src.touch } : Accum).current.any (fun k => decide (p.1 ≤ k)) = false := by
        rw [s2.cur]
        cases hl : seen.getLast? with
        | none => rfl
        | some q =>
          have := (List.pairwise_append.1 h.asc').2.2 q (List.mem_of_getLast? hl) p (by simp)
          simpa using this
      have hy : ({ A1 with src := A1.src.touch } : Accum).src.y (.fin p.1) = .ok p.2 :=
        Props.C01_stored_value s2.src (by rw [s2.pts]; simp)
      obtain ⟨A2, hac, hsrc, hss, s3⟩ := s2.accumulate hm hst
      obtain ⟨o, a, b, ho, hor, hop, hab, s4, hin⟩ := ih (seen ++ [p]) { A2 with current := some p.1 } n s3
        (by simp) (by simpa using hx) (by simpa using hn)
      refine ⟨⟨o.st, [(p.1, p.2, lastOut A1.acc.points)] ++ o.calls, o.res⟩, p :: a, b, ?_, hor, ?_, by rw [hab]; rfl, by simpa using s4,
        by simpa using hin⟩
      · simp only [smaLoopR, h.cur, hcur, if_true, hA1, hcon, Bool.not_true, Bool.false_eq_true,
          if_false, hadv, hy, hac, ho]
      · rw [hop]
        show A2.src.points = _
        rw [hsrc]
        show A1.src.points = _
        rw [hp1]

theorem SmaSoundR.resplit (h : SmaSoundR fl w m u A skip [] todo) (j : ℕ) :
    SmaSoundR fl w m u A (A.src.points.take j) [] (A.src.points.drop j) :=
  ⟨h.src, by simp, h.fit, h.acc, h.interp, h.force, h.run, h.cur, by simp, h.step, h.cache, h.idleB, h.idleE⟩

theorem SmaSoundR.reset (h : SmaSoundR fl w m u A skip seen todo) (j : ℕ) :
    SmaSoundR fl w m u A.resetScan (A.src.points.take j) [] (A.src.points.drop j) := by
  obtain ⟨r1, r2, r3, r4, r5⟩ := reset_none_ok h.acc quiet
  refine ⟨h.src, by simp [resetScan], h.fit, r2, r4.trans h.interp, r5.trans h.force, ?_, rfl, by simp, h.step,
    h.cache, h.idleB, h.idleE⟩
  show runRule (areaRuleR fl) [] [] [] = ((A.acc.reset none quiet).st.points, none)
  rw [r3]; rfl

/-- What has been accumulated at a knot. -/
theorem SmaSoundR.accAt (h : SmaSoundR fl w m u A skip seen todo) {k : ℕ} (hk : A.src.points[k]? = some p)
    (h1 : skip.length ≤ k) (h2 : k < skip.length + seen.length) :
    A.acc.y (.fin p.1) =
      .ok (stepFold (areaStepR fl .linear) none none ((A.src.points.take (k + 1)).drop skip.length)) := by
  have hki : seen[k - skip.length]? = some p := by
    rw [h.pts, List.getElem?_append_right h1, List.getElem?_append_left (by omega)] at hk
    exact hk
  have hcut : (A.src.points.take (k + 1)).drop skip.length = seen.take (k - skip.length + 1) := by
    rw [h.pts, List.take_append, List.drop_append, List.take_of_length_le (by omega), List.drop_length,
      Nat.sub_self, List.drop_zero, List.nil_append, List.take_append_of_le_length (by omega)]
    congr 1
    omega
  rw [hcut]
  obtain ⟨out, r1, r2⟩ := runRule_step (areaStepR fl .linear) (seen.take (k - skip.length + 1))
  have hrun := h.run
  rw [← List.take_append_drop (k - skip.length + 1) seen, runRule_append] at hrun
  simp only [areaRuleR, r1] at hrun
  have hpre := runRule_prefix hrun
  have hxs := runRule_xs r1
  rw [take_succ_of_getElem? hki] at hxs
  have hmem : (p.1, lastOut out) ∈ out := by
    rcases List.eq_nil_or_concat out with rfl | ⟨out', q, rfl⟩
    · simp at hxs
    · simp only [List.concat_eq_append, List.map_append, List.map_cons, List.map_nil, List.nil_append,
        List.append_singleton_inj] at hxs
      rw [List.concat_eq_append, lastOut_snoc, ← hxs.2]
      simp
  have := Props.C01_stored_value h.acc (hpre.subset hmem)
  rw [this, r2]

/-- `super().y` at a knot. -/
theorem superYR_full (hm : minStepQ ≤ m) (hw : Fits m w) (h : SmaSoundR fl w m u A skip seen todo) {k : ℕ}
    (hk : A.src.points[k]? = some p) :
    ∃ o skip' seen' todo' j q, superYR fl w A p.1 = some o ∧ o.st.src.points = A.src.points ∧
      SmaSoundR fl w m u o.st skip' seen' todo' ∧ A.src.points[j]? = some q ∧ j ≤ k ∧
      smaStart A.src w m p.1 = .ok (some (.fin q.1)) ∧ seen' ≠ [] ∧ skip'.length ≤ j ∧
      o.res = .ok ((stepFold (areaStepR fl .linear) none none ((A.src.points.take (k + 1)).drop skip'.length)).map fl) ∧
      (seen ≠ [] → skip.length ≤ j → skip' = skip) ∧ (seen = [] → skip'.length = j) := by
  have hm0 : (0 : ℚ) < m := lt_of_lt_of_le (by norm_num [minStepQ]) hm
  have hlk := (List.getElem?_eq_some_iff.1 hk).1
  obtain ⟨j, q, hjk, hj, hst⟩ := start_knot h.src hm0 h.gapped hw hk
  have hlj := (List.getElem?_eq_some_iff.1 hj).1
  have h1 := h.touchSrc
  obtain ⟨j', q', hjk', hj', hst'⟩ := start_knot h1.src hm0 h1.gapped hw (show A.src.touch.points[k]? = some p from hk)
  have hqq : q' = q := by
    have hc : smaStart A.src.touch w m p.1 = smaStart A.src w m p.1 := by
      cases w with
      | period per => simp only [smaStart, honest_next h1.src, honest_next h.src]; rfl
      | degree n => simp only [smaStart, stepBack_congr h1.src h.src rfl]
    have h2 := hst'.symm.trans (hc.trans hst)
    simp only [Except.ok.injEq, Option.some.injEq, Ext.fin.injEq] at h2
    have h3 := h.src.wf.asc.inj hj' hj h2
    subst h3
    rw [show A.src.touch.points = A.src.points from rfl, hj] at hj'
    exact (Option.some.inj hj').symm
  subst hqq
  set B : Accum := { A with src := A.src.touch } with hB
  have hBp : B.src.points = A.src.points := rfl
  -- where the scan starts from
  obtain ⟨C, skip', seen0, todo0, hC, s0, hCp, hle, hnil, hkeep⟩ : ∃ C skip' seen0 todo0,
      smaScanR fl w B p.1 = smaLoopR fl p.1 (some (.fin q'.1)) (C.src.points.length + 2) C ∧
      SmaSoundR fl w m u C skip' seen0 todo0 ∧ C.src.points = A.src.points ∧ skip'.length ≤ j ∧
      (seen0 = [] → ∀ r, todo0.head? = some r → r.1 = q'.1) ∧
      (seen ≠ [] → skip.length ≤ j → skip' = skip) ∧ (seen = [] → skip'.length = j) := by
    have hdrop : (A.src.points.drop j).head? = some q' := by
      rw [List.head?_drop, hj]
    have hfresh : ∀ r, (A.src.points.drop j).head? = some r → r.1 = q'.1 := by
      intro r hr
      rw [hdrop] at hr; cases hr; rfl
    have htl : (A.src.points.take j).length ≤ j := by simp
    have hte : (A.src.points.take j).length = j := by rw [List.length_take]; omega
    have hmB : B.minStep = m := h.step
    cases hsc : B.scanStart with
    | none =>
      have hs : seen = [] := by
        by_contra hne
        have := h1.start hne
        rw [show ({ A with src := A.src.touch } : Accum).scanStart = none from hsc] at this
        cases hse : seen with
        | nil => exact hne hse
        | cons a as => rw [hse] at this; cases this
      subst hs
      refine ⟨B, _, _, _, ?_, h1.resplit j, rfl, htl, fun _ => hfresh, by simp, fun _ => hte⟩
      unfold smaScanR
      simp only [hmB, show smaStart B.src w m p.1 = _ from hst', finPart, hsc]
    | some c =>
      by_cases hlt : q'.1 < c
      · refine ⟨B.resetScan, _, _, _, ?_, h1.reset j, rfl, htl, fun _ => hfresh, ?_, fun _ => hte⟩
        · unfold smaScanR
          simp only [hmB, show smaStart B.src w m p.1 = _ from hst', finPart, hsc, if_pos hlt]
        · intro hne hle
          exfalso
          have h2 := h1.start hne
          rw [show ({ A with src := A.src.touch } : Accum).scanStart = some c from hsc] at h2
          obtain ⟨f, fs, rfl⟩ := List.exists_cons_of_ne_nil hne
          have hf : A.src.points[skip.length]? = some f := by rw [h.pts]; simp
          have := h.src.wf.asc.le hf hj hle
          simp only [List.head?_cons, Option.map_some, Option.some.injEq] at h2
          linarith
      · have hscan : smaScanR fl w B p.1 = smaLoopR fl p.1 (some (.fin q'.1)) (B.src.points.length + 2) B := by
          unfold smaScanR
          simp only [hmB, show smaStart B.src w m p.1 = _ from hst', finPart, hsc, if_neg hlt]
        cases hse : seen with
        | nil =>
          subst hse
          exact ⟨B, _, _, _, hscan, h1.resplit j, rfl, htl, fun _ => hfresh, by simp, fun _ => hte⟩
        | cons f fs =>
          refine ⟨B, skip, seen, todo, hscan, h1, rfl, ?_, by simp [hse], fun _ _ => rfl, fun h0 => by simp at h0⟩
          have h2 := h1.start (by simp [hse])
          rw [show ({ A with src := A.src.touch } : Accum).scanStart = some c from hsc, hse] at h2
          have hf : A.src.points[skip.length]? = some f := by rw [h.pts, hse]; simp
          simp only [List.head?_cons, Option.map_some, Option.some.injEq] at h2
          by_contra hc
          have := h.src.wf.asc.lt hj hf (by omega)
          rw [← h2] at this
          exact hlt this
  have hmem : p ∈ seen0 ++ todo0 := by
    have h2 := hk
    rw [← hCp, s0.pts, List.getElem?_append_right (by omega)] at h2
    exact List.mem_of_getElem? h2
  obtain ⟨o, a, b, ho, hor, hop, hab, s1, r, hr, hpr⟩ := smaLoopR_spec hm p.1 q'.1 todo0 seen0 C
    (C.src.points.length + 2) s0 hnil ⟨p, hmem, le_rfl⟩ (by rw [s0.pts]; simp; omega)
  have hop' : o.st.src.points = A.src.points := hop.trans hCp
  have hk1 : o.st.src.points[k]? = some p := by rw [hop']; exact hk
  have hin : k < skip'.length + (seen0 ++ a).length := by
    by_contra hc
    obtain ⟨i, hi⟩ := List.getElem?_of_mem hr
    have hil := (List.getElem?_eq_some_iff.1 hi).1
    have hi' : o.st.src.points[skip'.length + i]? = some r := by
      rw [s1.pts, List.getElem?_append_right (by omega), Nat.add_sub_cancel_left,
        List.getElem?_append_left hil, hi]
    have := s1.src.wf.asc.lt hi' hk1 (by omega)
    linarith
  have hacc := s1.accAt hk1 (by omega) hin
  rw [hop'] at hacc
  have hcon : A.src.touch.domVal.contains (.fin p.1) = true := by
    rw [h1.src.wf.domVal]
    exact getDomain_contains_mem h1.src.wf.asc (List.mem_of_getElem? hk)
  refine ⟨⟨{ o.st with acc := o.st.acc.touch }, o.calls, (o.st.acc.y (.fin p.1)).map (Option.map fun v => fl (v + 0))⟩,
    skip', seen0 ++ a, b, j, q', ?_, hop', s1.touchAcc, hj, hjk, hst, ?_, hle, ?_, hkeep⟩
  · unfold superYR
    have : smaScanR fl w { A with src := A.src.touch } p.1 = some o := hC.trans ho
    simp only [hcon, if_true, this, hor]
  · intro hn
    rw [hn] at hr
    simp at hr
  · rw [hacc]
    show Except.ok _ = _
    congr 1
    cases stepFold (areaStepR fl .linear) none none ((A.src.points.take (k + 1)).drop skip'.length) with
    | none => rfl
    | some v => simp

theorem superYR_spec (hm : minStepQ ≤ m) (hw : Fits m w) (h : SmaSoundR fl w m u A skip seen todo) {k : ℕ}
    (hk : A.src.points[k]? = some p) :
    ∃ o skip' seen' todo' j q, superYR fl w A p.1 = some o ∧ o.st.src.points = A.src.points ∧
      SmaSoundR fl w m u o.st skip' seen' todo' ∧ A.src.points[j]? = some q ∧ j ≤ k ∧
      smaStart A.src w m p.1 = .ok (some (.fin q.1)) ∧ seen' ≠ [] ∧ skip'.length ≤ j ∧
      o.res = .ok ((stepFold (areaStepR fl .linear) none none ((A.src.points.take (k + 1)).drop skip'.length)).map fl) ∧
      (seen ≠ [] → skip.length ≤ j → skip' = skip) := by
  obtain ⟨o, skip', seen', todo', j, q, r1, r2, r3, r4, r5, r6, r7, r8, r9, r10, _⟩ := superYR_full hm hw h hk
  exact ⟨o, skip', seen', todo', j, q, r1, r2, r3, r4, r5, r6, r7, r8, r9, r10⟩

theorem smaTouchR_spec (h : SmaSoundR fl w m u A skip seen todo) :
    ∃ B d, smaTouch w A = (B, .ok d) ∧ smaDomain A.src w m = .ok d ∧ B.src.points = A.src.points ∧
      SmaSoundR fl w m u B skip seen todo := by
  unfold smaTouch
  cases hc : A.cache with
  | some d => exact ⟨A, d, rfl, h.cache d hc, rfl, h⟩
  | none =>
    obtain ⟨d, hd, _⟩ := smaDomain_eq (.read h.src : Honest A.src.touch) w m
    have hs : A.minStep = m := h.step
    simp only [hs, hd]
    have h1 := h.touchSrc
    refine ⟨_, d, rfl, (smaDomain_congr h.src h1.src rfl w).trans hd, rfl, ?_⟩
    exact ⟨h1.src, h1.pts, h1.fit, h1.acc, h1.interp, h1.force, h1.run, h1.cur, h1.start, rfl,
      fun e he => by cases he; exact hd, h1.idleB, h1.idleE⟩

/-! ## Queries -/

/-- The state of an average over the points `P`. -/
def OkR (fl : ℚ → ℚ) (w : Window) (m : ℚ) (u : Bool) (P : List (Pt ℚ)) (A : Accum) : Prop :=
  A.src.points = P ∧ ∃ skip seen todo, SmaSoundR fl w m u A skip seen todo

/-- A call that ends and leaves the average in order. -/
def EndsR (fl : ℚ → ℚ) (w : Window) (m : ℚ) (u : Bool) (P : List (Pt ℚ)) (r : Option (Out (Option ℚ))) : Prop :=
  ∃ o, r = some o ∧ OkR fl w m u P o.st

variable {P : List (Pt ℚ)}

theorem OkR.answer (h : OkR fl w m u P A) (r : Except Err (Option ℚ)) : EndsR fl w m u P (answer A r) := ⟨_, rfl, h⟩

theorem EndsR.whenSome {r : Option (Out (Option ℚ))} {f : Accum → ℚ → Option (Out (Option ℚ))}
    (h : EndsR fl w m u P r) (hf : ∀ A v, OkR fl w m u P A → EndsR fl w m u P (f A v)) : EndsR fl w m u P (whenSome r f) := by
  obtain ⟨o, rfl, ho⟩ := h
  unfold Sma.whenSome
  cases hr : o.res with
  | error e => simp only [hr]; exact ⟨_, rfl, ho⟩
  | ok v =>
    cases v with
    | none => simp only [hr]; exact ⟨_, rfl, ho⟩
    | some v =>
      simp only [hr]
      obtain ⟨o', h1, h2⟩ := hf o.st v ho
      rw [h1]
      exact ⟨_, rfl, h2⟩

theorem OkR.superY (hm : minStepQ ≤ m) (hw : Fits m w) (h : OkR fl w m u P A) {x : ℚ} (hx : ∃ q ∈ P, q.1 = x) :
    EndsR fl w m u P (superYR fl w A x) := by
  obtain ⟨rfl, skip, seen, todo, h⟩ := h
  obtain ⟨q, hq, rfl⟩ := hx
  obtain ⟨k, hk⟩ := List.getElem?_of_mem hq
  obtain ⟨o, _, _, _, _, _, h1, h2, h3, _⟩ := superYR_spec hm hw h hk
  exact ⟨o, h1, h2, _, _, _, h3⟩

/-- A query ends and leaves the average in order. -/
theorem smaYR_ends (hm : minStepQ ≤ m) (hw : Fits m w) :
    ∀ (fuel : ℕ) (A : Accum) (x : Ext), OkR fl w m u P A → EndsR fl w m u P (smaYR fl w fuel A x) := by
  intro fuel
  induction fuel with
  | zero => intro A x h; exact h.answer _
  | succ fuel ih =>
    intro A x h
    obtain ⟨hP, skip, seen, todo, hs⟩ := h
    obtain ⟨B, d, hB, hd, hBp, sB⟩ := smaTouchR_spec hs
    have okB : OkR fl w m u P B := ⟨hBp.trans hP, _, _, _, sB⟩
    unfold smaYR
    simp only [hB]
    split
    · exact okB.answer _
    · cases x with
      | ninf => exact okB.answer _
      | pinf => exact okB.answer _
      | fin x =>
        have hstep : B.minStep = m := sB.step
        obtain ⟨s, hs1, hs2⟩ := smaStart_any (w := w) (m := m) sB.src x
        simp only [hstep, hs1]
        cases hx0 : finPart s with
        | none => exact okB.answer _
        | some x0 =>
          obtain ⟨e, he1, he2⟩ := smaEnd_any (w := w) (m := m) sB.src x0
          simp only [he1]
          split
          · exact okB.answer _
          · rename_i hne
            simp only [Bool.or_eq_true, decide_eq_true_eq, not_or] at hne
            have hk0 : ∃ q ∈ P, q.1 = x0 := by
              rcases hs2 x0 hx0 with h | ⟨q, hq, h⟩
              · exact absurd h hne.1
              · exact ⟨q, by rw [← hP, ← hBp]; exact hq, h⟩
            refine (okB.superY hm hw hk0).whenSome ?_
            intro A1 y0 ok1
            cases hx1 : finPart e with
            | none => exact ok1.answer _
            | some x1 =>
              have hk1 : ∃ q ∈ P, q.1 = x1 := by
                rcases he2 x1 hx1 with h | ⟨q, hq, h⟩
                · exact absurd (by rw [hx1, h]) hne.2
                · exact ⟨q, by rw [← hP, ← hBp]; exact hq, h⟩
              refine (ok1.superY hm hw hk1).whenSome ?_
              intro A2 y1 ok2
              split
              · exact ok2.answer _
              · split
                · split
                  · exact ok2.answer _
                  · split
                    · exact ok2.answer _
                    · split
                      · exact ok2.answer _
                      · refine (ih A2 _ ok2).whenSome ?_
                        intro A3 v ok3
                        exact ok3.answer _
                · split
                  · exact ok2.answer _
                  · split
                    · exact ok2.answer _
                    · split
                      · exact ok2.answer _
                      · refine (ih A2 _ ok2).whenSome ?_
                        intro A3 v ok3
                        exact ok3.answer _

/-! ## Edits of the source -/

theorem SmaSoundR.edit (h : SmaSoundR fl w m u A skip seen todo) {op : Op ℚ} (hl : op.Legal) (r : Reads)
    (hlate : lateError (op.run A.src r).err = false) (ht : Truthful (op.run A.src r).st)
    (hfit : AllFit m u (op.run A.src r).st.points) :
    (A.edit op r).2 = none ∧ OkR fl w m u (op.run A.src r).st.points (A.edit op r).1 := by
  have hh : Honest (op.run A.src r).st := .edit h.src hl hlate ht
  have hseen : Ascending seen := (List.pairwise_append.1 h.asc').1
  cases outcome h.src.base h.src.wf hl r with
  | idle hs hev _ _ =>
    have hp : (op.run A.src r).st.points = A.src.points := by
      rcases hs with hs | hs <;> rw [hs] <;> rfl
    have he : A.edit op r = ({ A with src := (op.run A.src r).st }, none) := by
      simp only [Accum.edit, hev, notifyAll]
    rw [he]
    exact ⟨rfl, rfl, _, _, _, h.withSrc hh hp⟩
  | stuck iv e he _ hst => rw [hst.err, he] at hlate; cases hlate
  | edited iv hed hk =>
    rw [← hed.points] at hk
    rcases hed.ev with ⟨_, hev, hpp⟩ | ⟨hne, a, b, hev, _⟩
    · have he : A.edit op r = ({ A with src := (op.run A.src r).st }, none) := by
        simp only [Accum.edit, hev, notifyAll]
      rw [he]
      exact ⟨rfl, rfl, _, _, _, h.withSrc hh (by rw [hed.points, hpp])⟩
    · set s' := (op.run A.src r).st with hs'
      obtain ⟨A1, seen', hb, e1, e2, e3, e4, e5, e6, e7, e8, e9, e10, e11, e12⟩ :=
        onBegin_spec (A := { A with src := s' }) (seen := seen) h.acc h.run h.cur h.start hseen iv
      have hB : A1.bIv = Iv.empty := e3.trans h.idleB
      have hE : A1.eIv = Iv.empty := e4.trans h.idleE
      have hedit : A.edit op r = (((gateBegin A1 (updateInterval iv)).1.gateEnd (updateInterval iv)).1, none) := by
        simp only [Accum.edit, hev, notifyAll, notify, ← hs', hb, onEnd]
      by_cases hinf : iv.lo = .pinf
      · have hno : ∀ x : ℚ, iv.geLo (.fin x) = false := by
          intro x
          by_contra hc
          have := (Iv.geLo_iff _ _).1 (by simpa using hc)
          rw [hinf] at this
          simp at this
        have hpts : s'.points = A.src.points := by
          refine ascending_ext hh.wf.asc h.src.wf.asc fun p => hk p ?_
          by_contra hc
          have := ((Iv.contains_iff _ _).1 (by simpa using hc)).1
          rw [hno] at this; cases this
        have hs1 : seen' = seen := by
          rcases e12 with ⟨_, p, _, hp⟩ | ⟨h1, _⟩
          · rw [hno] at hp; cases hp
          · exact h1
        subst hs1
        have hem : (updateInterval iv).isEmpty = true := by
          simp [Iv.isEmpty, updateInterval, hinf]
        have hg1 : gateBegin A1 (updateInterval iv) = (A1, []) := by simp [gateBegin, hem]
        have hg2 : gateEnd A1 (updateInterval iv) = (A1, []) := by simp [gateEnd, hem]
        rw [hedit, hg1, hg2]
        refine ⟨rfl, by show A1.src.points = _; rw [e1], skip, seen', todo, ?_⟩
        exact ⟨by rw [e1]; exact hh, by rw [e1]; exact hpts.trans h.pts, by rw [e1]; exact hfit, e6,
          e7.trans h.interp, e8.trans h.force, e9, e10, e11, e5.trans h.step,
          fun d hd => by
            rw [e1]
            rw [e2] at hd
            exact (smaDomain_congr hh h.src hpts w).trans (h.cache d hd),
          hB, hE⟩
      · have hem : (updateInterval iv).isEmpty = false := by
          rw [Iv.not_isEmpty_iff]
          left
          exact lt_of_le_of_ne (Ext.le_pinf _) hinf
        obtain ⟨hg1, hg2⟩ := gate_roundtrip hB hE hem
        rw [hedit, hg1, hg2]
        have hsplit : ∃ skip' todo', s'.points = skip' ++ (seen' ++ todo') := by
          rcases e12 with ⟨h1, _⟩ | ⟨h1, h2⟩
          · exact ⟨[], s'.points, by rw [h1]; rfl⟩
          · subst h1
            cases hl : seen'.getLast? with
            | none =>
              rw [List.getLast?_eq_none_iff] at hl
              exact ⟨[], s'.points, by rw [hl]; rfl⟩
            | some q =>
              have hq := List.mem_of_getLast? hl
              have hbefore : ∀ p : Pt ℚ, p.1 ≤ q.1 → (p ∈ s'.points ↔ p ∈ A.src.points) := by
                intro p hp
                refine hk p ?_
                by_contra hc
                have := ((Iv.contains_iff _ _).1 (by simpa using hc)).1
                rw [geLo_le hp (h2 q hq)] at this; cases this
              have hsorted := hh.wf.asc
              have hfront : Ascending (skip ++ seen') := by
                have := h.asc
                rw [← List.append_assoc] at this
                exact (List.pairwise_append.1 this).1
              have hlast : ∀ p ∈ skip ++ seen', p.1 ≤ q.1 := by
                intro p hp
                refine le_getLast hfront ?_ hp
                rw [List.getLast?_append, hl]; rfl
              refine ⟨skip, s'.points.filter (fun p => decide (q.1 < p.1)), ?_⟩
              rw [← List.append_assoc]
              refine ascending_ext hsorted ?_ ?_
              · refine List.pairwise_append.2 ⟨hfront, hsorted.filter _, ?_⟩
                intro p hp p' hp'
                have h3 := hlast p hp
                have h4 : q.1 < p'.1 := by simpa using (List.mem_filter.1 hp').2
                linarith
              · intro p
                rw [List.mem_append, List.mem_filter]
                constructor
                · intro hp
                  by_cases hle : p.1 ≤ q.1
                  · left
                    have hp' := (hbefore p hle).1 hp
                    rw [h.pts, ← List.append_assoc] at hp'
                    rcases List.mem_append.1 hp' with hp' | hp'
                    · exact hp'
                    · have := (List.pairwise_append.1 h.asc').2.2 q hq p hp'
                      linarith
                  · exact Or.inr ⟨hp, by simpa using hle⟩
                · rintro (hp | hp)
                  · refine (hbefore p (hlast p hp)).2 ?_
                    rw [h.pts, ← List.append_assoc]; exact List.mem_append_left _ hp
                  · exact hp.1
        obtain ⟨skip', todo', htodo⟩ := hsplit
        refine ⟨rfl, by show A1.src.points = _; rw [e1], skip', seen', todo', ?_⟩
        exact ⟨by show Honest A1.src; rw [e1]; exact hh, by show A1.src.points = _; rw [e1]; exact htodo,
          by show AllFit m u A1.src.points; rw [e1]; exact hfit, e6, e7.trans h.interp, e8.trans h.force, e9, e10,
          e11, e5.trans h.step, (by intro d hd; cases hd), rfl, rfl⟩

theorem SmaSoundR.new {s : Pts ℚ} (hs : Honest s) (hfit : AllFit m u s.points) :
    SmaSoundR fl w m u (Accum.new s m .linear u) [] [] s.points := by
  have h := Sound.new (g := areaRuleR fl) (i := .linear) hs (hfit _ (List.suffix_refl _))
  exact ⟨h.src, h.pts, hfit, h.acc, h.interp, h.force, h.run, h.cur, h.start, h.step, (by intro d hd; cases hd),
    h.idleB, h.idleE⟩

/-- Every average is in order. -/
theorem averagingR_ok (hm : minStepQ ≤ m) (hw : Fits m w) (h : AveragingR fl w m u A) : OkR fl w m u A.src.points A := by
  induction h with
  | new hs hf hn =>
    unfold Sma.new at hn
    split at hn
    · cases hn
      exact ⟨rfl, _, _, _, SmaSoundR.new hs hf⟩
    · cases hn
  | query _ ho ih =>
    obtain ⟨o, h1, h2⟩ := smaYR_ends hm hw _ _ _ ih
    rw [ho] at h1
    cases h1
    exact ⟨rfl, h2.2⟩
  | edit _ hl he ht hf ih =>
    obtain ⟨_, _, _, _, hs⟩ := ih
    exact ⟨rfl, (hs.edit hl _ he ht hf).2.2⟩
  | read _ ih =>
    obtain ⟨_, _, _, _, hs⟩ := ih
    obtain ⟨B, d, h1, _, _, h2⟩ := smaTouchR_spec hs
    rw [h1]
    exact ⟨rfl, _, _, _, h2⟩
  | readSource _ ih =>
    obtain ⟨_, _, _, _, hs⟩ := ih
    exact ⟨rfl, _, _, _, hs.touchSrc⟩

end Sma
end Curvepy
