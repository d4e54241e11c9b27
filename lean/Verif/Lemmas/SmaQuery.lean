import Verif.Lemmas.Sma

/-!
# Queries of a moving average
-/

namespace Curvepy
namespace Sma
open Spec Pts Accum

variable {m : ℚ} {u : Bool} {w : Window} {A : Accum} {skip seen todo : List (Pt ℚ)} {p : Pt ℚ}

theorem SmaSound.resplit (h : SmaSound w m u A skip [] todo) (j : ℕ) :
    SmaSound w m u A (A.src.points.take j) [] (A.src.points.drop j) :=
  ⟨h.src, by simp, h.fit, h.acc, h.interp, h.force, h.run, h.cur, by simp, h.step, h.cache, h.idleB, h.idleE⟩

theorem SmaSound.reset (h : SmaSound w m u A skip seen todo) (j : ℕ) :
    SmaSound w m u A.resetScan (A.src.points.take j) [] (A.src.points.drop j) := by
  obtain ⟨r1, r2, r3, r4, r5⟩ := reset_none_ok h.acc quiet
  refine ⟨h.src, by simp [resetScan], h.fit, r2, r4.trans h.interp, r5.trans h.force, ?_, rfl, by simp, h.step,
    h.cache, h.idleB, h.idleE⟩
  show runRule areaRule [] [] [] = ((A.acc.reset none quiet).st.points, none)
  rw [r3]; rfl

/-- What has been accumulated at a knot. -/
theorem SmaSound.accAt (h : SmaSound w m u A skip seen todo) {k : ℕ} (hk : A.src.points[k]? = some p)
    (h1 : skip.length ≤ k) (h2 : k < skip.length + seen.length) :
    A.acc.y (.fin p.1) =
      .ok (stepFold (areaStep .linear) none none ((A.src.points.take (k + 1)).drop skip.length)) := by
  have hki : seen[k - skip.length]? = some p := by
    rw [h.pts, List.getElem?_append_right h1, List.getElem?_append_left (by omega)] at hk
    exact hk
  have hcut : (A.src.points.take (k + 1)).drop skip.length = seen.take (k - skip.length + 1) := by
    rw [h.pts, List.take_append, List.drop_append, List.take_of_length_le (by omega), List.drop_length,
      Nat.sub_self, List.drop_zero, List.nil_append, List.take_append_of_le_length (by omega)]
    congr 1
    omega
  rw [hcut]
  obtain ⟨out, r1, r2⟩ := runRule_step (areaStep .linear) (seen.take (k - skip.length + 1))
  have hrun := h.run
  rw [← List.take_append_drop (k - skip.length + 1) seen, runRule_append] at hrun
  simp only [areaRule, r1] at hrun
  have hpre := runRule_prefix hrun
  have hxs := runRule_xs r1
  rw [take_succ_of_getElem? hki] at hxs
  have hmem : (p.1, lastOut out) ∈ out := by
    rcases List.eq_nil_or_concat out with rfl | ⟨out', q, rfl⟩
    · simp at hxs
    · simp only [List.concat_eq_append, List.map_append, List.map_cons, List.map_nil, List.nil_append,
        List.append_singleton_inj] at hxs
      rw [List.concat_eq_append, lastOut_snoc, ← hxs.2]
      simp
  have := Props.C01_stored_value h.acc (hpre.subset hmem)
  rw [this, r2]

/-- `super().y` at a knot. -/
theorem superY_full (hm : minStepQ ≤ m) (hw : Fits m w) (h : SmaSound w m u A skip seen todo) {k : ℕ}
    (hk : A.src.points[k]? = some p) :
    ∃ o skip' seen' todo' j q, superY w A p.1 = some o ∧ o.st.src.points = A.src.points ∧
      SmaSound w m u o.st skip' seen' todo' ∧ A.src.points[j]? = some q ∧ j ≤ k ∧
      smaStart A.src w m p.1 = .ok (some (.fin q.1)) ∧ seen' ≠ [] ∧ skip'.length ≤ j ∧
      o.res = .ok (stepFold (areaStep .linear) none none ((A.src.points.take (k + 1)).drop skip'.length)) ∧
      (seen ≠ [] → skip.length ≤ j → skip' = skip) ∧ (seen = [] → skip'.length = j) := by
  have hm0 : (0 : ℚ) < m := lt_of_lt_of_le (by norm_num [minStepQ]) hm
  have hlk := (List.getElem?_eq_some_iff.1 hk).1
  obtain ⟨j, q, hjk, hj, hst⟩ := start_knot h.src hm0 h.gapped hw hk
  have hlj := (List.getElem?_eq_some_iff.1 hj).1
  have h1 := h.touchSrc
  obtain ⟨j', q', hjk', hj', hst'⟩ := start_knot h1.src hm0 h1.gapped hw (show A.src.touch.points[k]? = some p from hk)
  have hqq : q' = q := by
    have hc : smaStart A.src.touch w m p.1 = smaStart A.src w m p.1 := by
      cases w with
      | period per => simp only [smaStart, honest_next h1.src, honest_next h.src]; rfl
      | degree n => simp only [smaStart, stepBack_congr h1.src h.src rfl]
    have h2 := hst'.symm.trans (hc.trans hst)
    simp only [Except.ok.injEq, Option.some.injEq, Ext.fin.injEq] at h2
    have h3 := h.src.wf.asc.inj hj' hj h2
    subst h3
    rw [show A.src.touch.points = A.src.points from rfl, hj] at hj'
    exact (Option.some.inj hj').symm
  subst hqq
  set B : Accum := { A with src := A.src.touch } with hB
  have hBp : B.src.points = A.src.points := rfl
  -- where the scan starts from
  obtain ⟨C, skip', seen0, todo0, hC, s0, hCp, hle, hnil, hkeep⟩ : ∃ C skip' seen0 todo0,
      smaScan w B p.1 = smaLoop p.1 (some (.fin q'.1)) (C.src.points.length + 2) C ∧
      SmaSound w m u C skip' seen0 todo0 ∧ C.src.points = A.src.points ∧ skip'.length ≤ j ∧
      (seen0 = [] → ∀ r, todo0.head? = some r → r.1 = q'.1) ∧
      (seen ≠ [] → skip.length ≤ j → skip' = skip) ∧ (seen = [] → skip'.length = j) := by
    have hdrop : (A.src.points.drop j).head? = some q' := by
      rw [List.head?_drop, hj]
    have hfresh : ∀ r, (A.src.points.drop j).head? = some r → r.1 = q'.1 := by
      intro r hr
      rw [hdrop] at hr; cases hr; rfl
    have htl : (A.src.points.take j).length ≤ j := by simp
    have hte : (A.src.points.take j).length = j := by rw [List.length_take]; omega
    have hmB : B.minStep = m := h.step
    cases hsc : B.scanStart with
    | none =>
      have hs : seen = [] := by
        by_contra hne
        have := h1.start hne
        rw [show ({ A with src := A.src.touch } : Accum).scanStart = none from hsc] at this
        cases hse : seen with
        | nil => exact hne hse
        | cons a as => rw [hse] at this; cases this
      subst hs
      refine ⟨B, _, _, _, ?_, h1.resplit j, rfl, htl, fun _ => hfresh, by simp, fun _ => hte⟩
      unfold smaScan
      simp only [hmB, show smaStart B.src w m p.1 = _ from hst', finPart, hsc]
    | some c =>
      by_cases hlt : q'.1 < c
      · refine ⟨B.resetScan, _, _, _, ?_, h1.reset j, rfl, htl, fun _ => hfresh, ?_, fun _ => hte⟩
        · unfold smaScan
          simp only [hmB, show smaStart B.src w m p.1 = _ from hst', finPart, hsc, if_pos hlt]
        · intro hne hle
          exfalso
          have h2 := h1.start hne
          rw [show ({ A with src := A.src.touch } : Accum).scanStart = some c from hsc] at h2
          obtain ⟨f, fs, rfl⟩ := List.exists_cons_of_ne_nil hne
          have hf : A.src.points[skip.length]? = some f := by rw [h.pts]; simp
          have := h.src.wf.asc.le hf hj hle
          simp only [List.head?_cons, Option.map_some, Option.some.injEq] at h2
          linarith
      · have hscan : smaScan w B p.1 = smaLoop p.1 (some (.fin q'.1)) (B.src.points.length + 2) B := by
          unfold smaScan
          simp only [hmB, show smaStart B.src w m p.1 = _ from hst', finPart, hsc, if_neg hlt]
        cases hse : seen with
        | nil =>
          subst hse
          exact ⟨B, _, _, _, hscan, h1.resplit j, rfl, htl, fun _ => hfresh, by simp, fun _ => hte⟩
        | cons f fs =>
          refine ⟨B, skip, seen, todo, hscan, h1, rfl, ?_, by simp [hse], fun _ _ => rfl, fun h0 => by simp at h0⟩
          have h2 := h1.start (by simp [hse])
          rw [show ({ A with src := A.src.touch } : Accum).scanStart = some c from hsc, hse] at h2
          have hf : A.src.points[skip.length]? = some f := by rw [h.pts, hse]; simp
          simp only [List.head?_cons, Option.map_some, Option.some.injEq] at h2
          by_contra hc
          have := h.src.wf.asc.lt hj hf (by omega)
          rw [← h2] at this
          exact hlt this
  have hmem : p ∈ seen0 ++ todo0 := by
    have h2 := hk
    rw [← hCp, s0.pts, List.getElem?_append_right (by omega)] at h2
    exact List.mem_of_getElem? h2
  obtain ⟨o, a, b, ho, hor, hop, hab, s1, r, hr, hpr⟩ := smaLoop_spec hm p.1 q'.1 todo0 seen0 C
    (C.src.points.length + 2) s0 hnil ⟨p, hmem, le_rfl⟩ (by rw [s0.pts]; simp; omega)
  have hop' : o.st.src.points = A.src.points := hop.trans hCp
  have hk1 : o.st.src.points[k]? = some p := by rw [hop']; exact hk
  have hin : k < skip'.length + (seen0 ++ a).length := by
    by_contra hc
    obtain ⟨i, hi⟩ := List.getElem?_of_mem hr
    have hil := (List.getElem?_eq_some_iff.1 hi).1
    have hi' : o.st.src.points[skip'.length + i]? = some r := by
      rw [s1.pts, List.getElem?_append_right (by omega), Nat.add_sub_cancel_left,
        List.getElem?_append_left hil, hi]
    have := s1.src.wf.asc.lt hi' hk1 (by omega)
    linarith
  have hacc := s1.accAt hk1 (by omega) hin
  rw [hop'] at hacc
  have hcon : A.src.touch.domVal.contains (.fin p.1) = true := by
    rw [h1.src.wf.domVal]
    exact getDomain_contains_mem h1.src.wf.asc (List.mem_of_getElem? hk)
  refine ⟨⟨{ o.st with acc := o.st.acc.touch }, o.calls, (o.st.acc.y (.fin p.1)).map (Option.map (· + 0))⟩,
    skip', seen0 ++ a, b, j, q', ?_, hop', s1.touchAcc, hj, hjk, hst, ?_, hle, ?_, hkeep⟩
  · unfold superY
    have : smaScan w { A with src := A.src.touch } p.1 = some o := hC.trans ho
    simp only [hcon, if_true, this, hor]
  · intro hn
    rw [hn] at hr
    simp at hr
  · rw [hacc]
    show Except.ok _ = _
    congr 1
    cases stepFold (areaStep .linear) none none ((A.src.points.take (k + 1)).drop skip'.length) with
    | none => rfl
    | some v => simp

theorem superY_spec (hm : minStepQ ≤ m) (hw : Fits m w) (h : SmaSound w m u A skip seen todo) {k : ℕ}
    (hk : A.src.points[k]? = some p) :
    ∃ o skip' seen' todo' j q, superY w A p.1 = some o ∧ o.st.src.points = A.src.points ∧
      SmaSound w m u o.st skip' seen' todo' ∧ A.src.points[j]? = some q ∧ j ≤ k ∧
      smaStart A.src w m p.1 = .ok (some (.fin q.1)) ∧ seen' ≠ [] ∧ skip'.length ≤ j ∧
      o.res = .ok (stepFold (areaStep .linear) none none ((A.src.points.take (k + 1)).drop skip'.length)) ∧
      (seen ≠ [] → skip.length ≤ j → skip' = skip) := by
  obtain ⟨o, skip', seen', todo', j, q, r1, r2, r3, r4, r5, r6, r7, r8, r9, r10, _⟩ := superY_full hm hw h hk
  exact ⟨o, skip', seen', todo', j, q, r1, r2, r3, r4, r5, r6, r7, r8, r9, r10⟩

end Sma
end Curvepy
