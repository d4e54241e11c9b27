import Verif.Spec.RoundedSmma

/-!
# Smoothed moving averages with rounded arithmetic

`C173`: the smoothed average when every operation on values rounds.  `SmoothingR fl n m u S`: such an average of degree `n`
after any history of queries, edits of its source and reads.
-/

namespace Curvepy
namespace Props
open Spec Pts Accum Sma Smma

variable {fl : ℚ → ℚ} {ε : ℚ} {m : ℚ} {u : Bool} {l : List (ℚ × ℚ)} {n : ℕ} {S : Smma}

/-! ## The first average -/

/-- The rounded area under the line through the points, over their width; the value of a single point. -/
def firstMeanR (fl : ℚ → ℚ) (l : List (ℚ × ℚ)) : ℚ :=
  match l.head?, l.getLast? with
  | some p, some q =>
    if p.1 = q.1 then q.2
    else fl (fl (fl ((stepFold (areaStepR fl .linear) none none (defined l)).getD 0) - fl 0) / fl (q.1 - p.1))
  | _, _ => 0

theorem areaR_isSome {l : List (ℚ × ℚ)} (h : l ≠ []) :
    ∃ v, stepFold (areaStepR fl .linear) none none (defined l) = some v := by
  induction l using List.reverseRecOn with
  | nil => exact absurd rfl h
  | append_singleton l p _ =>
    have e : defined (l ++ [p]) = defined l ++ [(p.1, some p.2)] := by simp [defined]
    rw [e, stepFold_snoc]
    unfold areaStepR
    simp only
    split <;> exact ⟨_, rfl⟩

/-- The average over the first `n` points, whatever was asked before. -/
theorem degreeR_first (hm : minStepQ ≤ m) (hn : 1 ≤ n) {P : List (Pt ℚ)} {A : Accum} (hpre : defined l <+: P)
    (h : OkR fl (.degree n) m u P A) (hl : l.length = n) {q : ℚ × ℚ} (hk : l[n - 1]? = some q) (fuel : ℕ) :
    ∃ o, smaYR fl (.degree n) (fuel + 1) A (.fin q.1) = some o ∧ OkR fl (.degree n) m u P o.st ∧
      o.res = .ok (some (firstMeanR fl l)) := by
  have hm0 : (0 : ℚ) < m := lt_of_lt_of_le (by norm_num [minStepQ]) hm
  have hw : Fits m (.degree n) := hn
  have hj : l[0]? = some l[0] := List.getElem?_eq_getElem _
  obtain ⟨p, hp⟩ : ∃ p, p = l[0] := ⟨_, rfl⟩
  rw [← hp] at hj
  obtain ⟨hP, skip, seen, todo, s0⟩ := id h
  have hg : Gapped m P := by rw [← hP]; exact s0.gapped
  have hdom : ∃ d, smaDomain A.src (.degree n) m = .ok d ∧ d.contains (.fin q.1) = true := by
    obtain ⟨d, h1, h2⟩ := degree_domain s0.src hm0 s0.gapped n q.1
    refine ⟨d, h1, h2.2 ?_⟩
    have hlen := hpre.length_le
    rw [show (defined l).length = l.length by simp [defined], ← hP] at hlen
    have hb : A.src.points[A.src.points.length - 1]? = some A.src.points[A.src.points.length - 1] := List.getElem?_eq_getElem _
    have hk' : A.src.points[n - 1]? = some (q.1, some q.2) := by rw [hP]; exact prefix_get hpre hk
    exact ⟨_, _, hk', hb, le_rfl, s0.src.wf.asc.le hk' hb (by omega)⟩
  have hs := degree_start hm0 hpre hg (n := n) (by omega) hj hk
  have he := degree_end hm0 hpre hg (n := n) (by omega) hj hk
  obtain ⟨B, d, hB, hdB, hBp, sB⟩ := smaTouchR_spec s0
  obtain ⟨d', hd', hcon⟩ := hdom
  rw [hdB] at hd'
  cases hd'
  have hBP : B.src.points = P := hBp.trans hP
  have okB : OkR fl (.degree n) m u P B := ⟨hBP, _, _, _, sB⟩
  have hhead : l.head? = some p := by rw [← hj]; exact List.head?_eq_getElem? ..
  have hlast : l.getLast? = some q := by rw [List.getLast?_eq_getElem?, hl, hk]
  have hasc : Ascending P := by rw [← hBP]; exact sB.src.wf.asc
  have hfirst : firstMeanR fl l = if p.1 = q.1 then q.2 else
      fl (fl (fl ((stepFold (areaStepR fl .linear) none none (defined l)).getD 0) - fl 0) / fl (q.1 - p.1)) := by
    simp only [firstMeanR, hhead, hlast]
  unfold smaYR
  simp only [hB, hcon, Bool.not_true, Bool.false_eq_true, if_false, sB.step, hs _ sB.src hBP, finPart, he _ sB.src hBP]
  rcases (Nat.zero_le (n - 1)).eq_or_lt with h0 | hlt
  · rw [← h0, hj] at hk
    cases hk
    simp only [decide_true, Bool.true_or, if_true]
    refine ⟨_, rfl, okB, ?_⟩
    show B.src.y _ = _
    rw [Props.C01_stored_value sB.src (p := (q.1, some q.2)) (by
      rw [hBP]; exact List.mem_of_getElem? (prefix_get hpre hj)), hfirst, if_pos rfl]
  · have hpq : p.1 < q.1 := hasc.lt (prefix_get hpre hj) (prefix_get hpre hk) hlt
    obtain ⟨o1, o2, s, hsj, r1, r2, r3, r4, r5⟩ := slopeR_spec hm hw hpre okB (Nat.zero_le _) hj hk
    obtain rfl : s = 0 := by omega
    have e1 : (l.take (0 + 1)).drop 0 = [p] := by
      rw [take_succ_of_getElem? hj]; simp
    have e2 : (l.take (n - 1 + 1)).drop 0 = l := by
      rw [List.drop_zero, List.take_of_length_le (by omega)]
    obtain ⟨v, hv⟩ := areaR_isSome (fl := fl) (l := l) (by intro h; rw [h] at hl; simp at hl; omega)
    rw [e1, show stepFold (areaStepR fl .linear) none none (defined [p]) = some 0 from rfl, Option.map_some] at r2
    rw [e2, hv, Option.map_some] at r4
    have hne1 : (p.1 = q.1) = False := by simp [hpq.ne]
    have hne2 : (q.1 = p.1) = False := by simp [hpq.ne']
    simp only [Option.some.injEq, hne1, hne2, decide_false, Bool.or_false, Bool.false_eq_true, if_false, r1, whenSome, r2,
      r3, r4, answer, if_true, Option.map_some]
    refine ⟨_, rfl, r5, ?_⟩
    rw [hfirst, if_neg hpq.ne, hv]
    rfl

/-- Before the `n`-th knot the SMA has no value. -/
theorem degreeR_before (hm : minStepQ ≤ m) (hn : 1 ≤ n) {P : List (Pt ℚ)} {T : Accum} (h : OkR fl (.degree n) m u P T) {x : ℚ}
    (hx : ∀ p, P[n - 1]? = some p → x < p.1) (fuel : ℕ) :
    ∃ o, smaYR fl (.degree n) (fuel + 1) T (.fin x) = some o ∧ OkR fl (.degree n) m u P o.st ∧ o.res = .ok none := by
  have hm0 : (0 : ℚ) < m := lt_of_lt_of_le (by norm_num [minStepQ]) hm
  obtain ⟨o, ho, hok⟩ := smaYR_ends hm (show Fits m (.degree n) from hn) (fuel + 1) T (.fin x) h
  obtain ⟨hP, skip, seen, todo, s0⟩ := h
  obtain ⟨B, d, hB, hdB, hBp, sB⟩ := smaTouchR_spec s0
  obtain ⟨d', hd', hcon⟩ := degree_domain s0.src hm0 s0.gapped n x
  rw [hdB] at hd'
  cases hd'
  have : d.contains (.fin x) = false := by
    by_contra hc
    obtain ⟨p, _, h1, _, h2, _⟩ := hcon.1 (by simpa using hc)
    rw [hP] at h1
    exact absurd h2 (not_le.2 (hx p h1))
  refine ⟨o, ho, hok, ?_⟩
  unfold smaYR at ho
  simp only [hB, this, Bool.not_false, if_true, answer, Option.some.injEq] at ho
  rw [← ho]

/-! ## All averages -/

/-- The rounded average of the first `n` points, then rounded steps towards each further value there is. -/
def smoothedR (fl : ℚ → ℚ) (n : ℕ) (l : List (Pt ℚ)) : Option ℚ :=
  if l.length < n then none
  else some ((withValue (l.drop n)).foldl (fun s p => fl (s + fl (fl (1 / (n : ℚ)) * fl (p.2 - s))))
    (firstMeanR fl (withValue (l.take n))))

/-- What a rounded smoothed average does at each knot. -/
def smmaRuleR (fl : ℚ → ℚ) (n : ℕ) : Rule := fun knots out =>
  match knots.getLast? with
  | some (_, some y) =>
    match lastOut out with
    | some e => .ok (some (fl (e + fl (fl (1 / (n : ℚ)) * fl (y - e)))))
    | none =>
      if knots.length < n then .ok none
      else .ok (some (firstMeanR fl (windowAt (withValue knots) n (knots.length - 1))))
  | _ => .ok (lastOut out)

theorem smmaRuleR_run (hn : 1 ≤ n) : ∀ P : List (Pt ℚ), StartsWhole n P →
    ∃ out, runRule (smmaRuleR fl n) [] [] P = (out, none) ∧ lastOut out = smoothedR fl n P := by
  intro P
  induction P using List.reverseRecOn with
  | nil => exact fun _ => ⟨[], rfl, by simp [lastOut, smoothedR]; omega⟩
  | append_singleton P p ih =>
    intro hw
    obtain ⟨out, h1, h2⟩ := ih (by
      have := hw.take P.length
      rwa [List.take_append_of_le_length le_rfl, List.take_length] at this)
    have hg : smmaRuleR fl n (P ++ [p]) out = .ok (smoothedR fl n (P ++ [p])) := by
      unfold smmaRuleR
      simp only [List.getLast?_append, List.getLast?_singleton, Option.some_or]
      obtain ⟨x, _ | y⟩ := p
      · simp only [h2]
        unfold smoothedR
        by_cases hlt : P.length < n
        · exact absurd rfl (hw (x, none) (by rw [List.take_of_length_le (by simp; omega)]; simp))
        · have hge : ¬ (P ++ [(x, none)] : List (Pt ℚ)).length < n := by simp; omega
          rw [if_neg hlt, if_neg hge, List.drop_append_of_le_length (by omega), withValue_append,
            List.take_append_of_le_length (by omega)]
          simp [withValue]
      · simp only [h2]
        unfold smoothedR
        by_cases hlt : P.length < n
        · rw [if_pos hlt]
          simp only [List.length_append, List.length_singleton]
          by_cases hlt2 : P.length + 1 < n
          · simp [hlt2]
          · have e : P.length + 1 = n := by omega
            rw [if_neg hlt2, if_neg hlt2]
            have e1 : (P ++ [(x, some y)]).drop n = [] := by simp [← e]
            have e2 : (P ++ [(x, some y)]).take n = P ++ [(x, some y)] := List.take_of_length_le (by simp [e])
            rw [e1, e2]
            simp only [withValue, List.filterMap_nil, List.foldl_nil, windowAt]
            have hw' := congrArg List.length (whole_defined (P := P ++ [(x, some y)]) (by rw [← e2]; exact hw))
            simp only [defined, List.length_map, List.length_append, List.length_singleton] at hw'
            rw [show P.length + 1 - 1 + 1 = n by omega, Nat.sub_self, List.drop_zero, List.take_of_length_le]
            show (withValue (P ++ [(x, some y)])).length ≤ n
            omega
        · have hge : ¬ (P ++ [(x, some y)]).length < n := by simp; omega
          simp only [if_neg hlt, if_neg hge]
          rw [List.drop_append_of_le_length (by omega), withValue_append (P.drop n), List.foldl_append,
            List.take_append_of_le_length (by omega)]
          have : withValue [(x, some y)] = [(x, y)] := rfl
          simp only [this, List.foldl_cons, List.foldl_nil]
    refine ⟨out ++ [(p.1, smoothedR fl n (P ++ [p]))], ?_, by simp [lastOut]⟩
    rw [runRule_append, h1]
    simp only [List.nil_append, runRule, hg]

/-- The SMA suits the source. -/
def SuitsR (fl : ℚ → ℚ) (n : ℕ) (m : ℚ) (u : Bool) (T : Accum) (src : Pts ℚ) : Prop :=
  OkR fl (.degree n) m u src.points { T with src := src } ∧ StartsWhole n src.points

theorem SuitsR.withSrc {T : Accum} {src src' : Pts ℚ} (h : SuitsR fl n m u T src) (hs : Honest src')
    (hp : src'.points = src.points) : SuitsR fl n m u T src' := by
  obtain ⟨⟨h1, skip, seen, todo, h2⟩, hl⟩ := h
  exact ⟨⟨rfl, _, _, _, h2.withSrc hs hp⟩, hp ▸ hl⟩

theorem SuitsR.honest {T : Accum} {src : Pts ℚ} (h : SuitsR fl n m u T src) : Honest src := by
  obtain ⟨⟨h1, skip, seen, todo, h2⟩, hl⟩ := h
  exact h2.src

theorem SuitsR.touch {T : Accum} {src : Pts ℚ} (h : SuitsR fl n m u T src) : SuitsR fl n m u T src.touch :=
  h.withSrc (.read h.honest) rfl

theorem smmaR_follows (hm : minStepQ ≤ m) (hn : 1 ≤ n) (fuel : ℕ) :
    FollowsOwn (SuitsR fl n m u) m (smmaTfmR fl n (fuel + 1)) (smmaRuleR fl n) := by
  intro src seen rest p out s hI hs hp hrun _
  obtain ⟨hok, hl⟩ := id hI
  have hseen : src.points.take (seen.length + 1) = seen ++ [p] := by
    rw [hp, List.take_append, List.take_of_length_le (by omega)]; simp
  have hw : StartsWhole n (seen ++ [p]) := hseen ▸ hl.take _
  obtain ⟨x, _ | y⟩ := p
  · refine ⟨s, src, _, rfl, ?_, hI, hs, rfl⟩
    unfold smmaRuleR
    simp only [List.getLast?_append, List.getLast?_singleton, Option.some_or]
  unfold smmaTfmR smmaRuleR
  simp only [List.getLast?_append, List.getLast?_singleton, Option.some_or, List.length_append, List.length_singleton]
  cases hlast : lastOut out with
  | some e => exact ⟨s, src, _, rfl, rfl, hI, hs, rfl⟩
  | none =>
    simp only
    by_cases hlt : seen.length + 1 < n
    · obtain ⟨o, h1, h2, h3⟩ := degreeR_before hm hn hok (x := x) (fun r hr =>
        hs.wf.asc.lt (i := seen.length) (j := n - 1) (p := (x, some y)) (by simp [hp]) hr (by omega)) fuel
      refine ⟨o.st, o.st.src, none, by rw [h1, Option.map_some, h3], by rw [if_pos hlt], ?_⟩
      obtain ⟨h4, _, _, _, h5⟩ := id h2
      rw [← h4] at h2
      exact ⟨⟨h2, h4 ▸ hl⟩, h5.src, h4⟩
    · -- no value so far: this is the `n`-th knot
      have hlen : seen.length + 1 = n := by
        by_contra hne
        obtain ⟨out', e1, e2⟩ := smmaRuleR_run hn seen (by
          have := hl.take seen.length
          rwa [hp, List.take_append_of_le_length le_rfl, List.take_length] at this)
        rw [hrun] at e1
        cases e1
        rw [hlast] at e2
        unfold smoothedR at e2
        rw [if_neg (by omega)] at e2
        cases e2
      have hwh : ∀ q ∈ seen ++ [(x, some y)], q.2 ≠ none := by
        intro q hq
        exact hw q (by rwa [List.take_of_length_le (by simp [hlen])])
      have hdef := whole_defined hwh
      have hpre : defined (withValue (seen ++ [(x, some y)])) <+: src.points := by
        rw [hdef, ← hseen]; exact List.take_prefix _ _
      have hvl : (withValue (seen ++ [(x, some y)])).length = seen.length + 1 := by
        have := congrArg List.length hdef
        simpa [defined] using this
      have hkq : (withValue (seen ++ [(x, some y)]))[seen.length]? = some (x, y) := by
        have hs' : (withValue seen).length = seen.length := by
          have := congrArg List.length (whole_defined fun q hq => hwh q (List.mem_append_left _ hq))
          simpa [defined] using this
        rw [withValue_append, List.getElem?_append_right (by omega), hs', Nat.sub_self]; rfl
      rw [show seen.length = n - 1 by omega] at hkq
      obtain ⟨o, h1, h2, h3⟩ := degreeR_first hm hn hpre hok (hvl.trans hlen) hkq fuel
      have hwin : windowAt (withValue (seen ++ [(x, some y)])) n (seen.length + 1 - 1) = withValue (seen ++ [(x, some y)]) := by
        rw [windowAt, show seen.length + 1 - 1 + 1 = n by omega, Nat.sub_self, List.drop_zero, List.take_of_length_le (by omega)]
      refine ⟨o.st, o.st.src, _, by rw [h1, Option.map_some, h3], by rw [if_neg hlt, hwin], ?_⟩
      obtain ⟨h4, _, _, _, h5⟩ := id h2
      rw [← h4] at h2
      exact ⟨⟨h2, h4 ▸ hl⟩, h5.src, h4⟩

theorem smoothingR_sound (hm : minStepQ ≤ m) (hn : 1 ≤ n) (h : SmoothingR fl n m u S) :
    SuitsR fl n m u S.sma S.ema.src ∧ AllFit m u S.ema.src.points ∧
      ∃ seen todo, Sound (smmaRuleR fl n) m .linear u S.ema seen todo := by
  have hm0 : (0 : ℚ) < m := lt_of_lt_of_le (by norm_num [minStepQ]) hm
  induction h with
  | new hs hf hl hnew =>
    unfold Smma.new at hnew
    split at hnew
    · cases hnew
    · rename_i T hS
      cases hnew
      have hok := averagingR_ok (fl := fl) hm (show Fits m (.degree n) from hn) (.new hs hf hS)
      unfold Sma.new at hS
      split at hS
      · cases hS
        exact ⟨⟨hok, hl⟩, hf, _, _, Sound.new hs (hf _ (List.suffix_refl _))⟩
      · cases hS
  | query _ ho ih =>
    obtain ⟨h1, hf, seen, todo, h2⟩ := ih
    obtain ⟨o, r1, r2, r3, _, r5⟩ := h2.queryS (fun _ _ h => h.touch) (smmaR_follows hm hn _) hm0 h1 _
    unfold Smma.queryR at ho
    rw [r1, Option.map_some, Option.some.injEq, Prod.mk.injEq] at ho
    rw [← ho.1]
    exact ⟨r3, by show AllFit m u o.st.src.points; rw [r2]; exact hf, r5⟩
  | edit _ hl he ht hf hd ih =>
    obtain ⟨⟨⟨_, _, _, _, h1⟩, _⟩, _, seen, todo, h2⟩ := ih
    have hsma := (h1.edit hl _ he ht hf).2
    have hema := h2.edit hl _ he ht (hf _ (List.suffix_refl _))
    unfold Smma.edit
    refine ⟨⟨?_, by rw [hema.2.1]; exact hd⟩, ?_, hema.2.2⟩
    · rw [hema.2.1]
      obtain ⟨h3, _, _, _, h4⟩ := hsma
      exact ⟨rfl, _, _, _, h4.withSrc (.edit h2.src hl he ht) h3.symm⟩
    · rw [hema.2.1]; exact hf
  | read _ ih =>
    obtain ⟨h1, hf, seen, todo, h2⟩ := ih
    refine ⟨h1.withSrc h2.touch.src (touch_points _), ?_, _, _, h2.touch⟩
    show AllFit m u (Accum.touch _).src.points
    rw [touch_points]; exact hf
  | readSource _ ih =>
    obtain ⟨h1, hf, seen, todo, h2⟩ := ih
    exact ⟨h1.touch, hf, _, _, h2.touchSrc⟩

/-- **Whatever was asked before**: at the `k`-th knot, after any history, the rounded smoothed average is that of the first `k`
points: none if there are less than `n`; else the rounded average of the first `n` points, then rounded steps towards each
further value; where a value is missing it stays. -/
theorem C173_answer (hm : minStepQ ≤ m) (hn : 1 ≤ n) (h : SmoothingR fl n m u S) {k : ℕ} {p : Pt ℚ}
    (hk : S.ema.src.points[k]? = some p) (fuel : ℕ) :
    (S.queryR fl n (fuel + 1) (.fin p.1)).map Prod.snd =
      some (.ok (smoothedR fl n (S.ema.src.points.take (k + 1)))) := by
  have hm0 : (0 : ℚ) < m := lt_of_lt_of_le (by norm_num [minStepQ]) hm
  obtain ⟨h1, _, seen, todo, h2⟩ := smoothingR_sound hm hn h
  obtain ⟨o, r1, _, _, r4, _⟩ := h2.queryS (fun _ _ h => h.touch) (smmaR_follows hm hn fuel) hm0 h1 (.fin p.1)
  unfold Smma.queryR
  rw [r1, Option.map_some, Option.map_some, r4]
  obtain ⟨out, h3, h4⟩ := smmaRuleR_run hn (S.ema.src.points.take (k + 1)) (h1.2.take _)
  have := accumulatedAt_knot (g := smmaRuleR fl n) .linear h2.src.wf.asc hk h3
  rw [← h4]
  exact congrArg some this


/-- **The same for all histories**: two rounded smoothed averages over the same points give the same at them. -/
theorem C173_same (hm : minStepQ ≤ m) (hn : 1 ≤ n) (h : SmoothingR fl n m u S) {S' : Smma} (h' : SmoothingR fl n m u S')
    (hp : S'.ema.src.points = S.ema.src.points) {k : ℕ} {p : Pt ℚ} (hk : S.ema.src.points[k]? = some p) (fuel fuel' : ℕ) :
    (S'.queryR fl n (fuel' + 1) (.fin p.1)).map Prod.snd = (S.queryR fl n (fuel + 1) (.fin p.1)).map Prod.snd := by
  rw [C173_answer hm hn h hk fuel, C173_answer hm hn h' (hp ▸ hk) fuel', hp]

/-! ## Rounded steps -/

/-- One rounded step. -/
abbrev smoothStepR (fl : ℚ → ℚ) (n : ℕ) (s y : ℚ) : ℚ := fl (s + fl (fl (1 / (n : ℚ)) * fl (y - s)))

theorem fraction_small (R : Rounding fl ε) (hn : 2 ≤ n) : 0 < fl (1 / (n : ℚ)) ∧ fl (1 / (n : ℚ)) * (1 + ε) ^ 2 ≤ 1
    ∧ fl (1 / (n : ℚ)) ≤ 65 / 64 * (1 / n) ∧ |fl (1 / (n : ℚ)) - 1 / n| ≤ ε * (1 / n) := by
  have hu := R.nonneg
  have hs := R.small
  have hn' : (2 : ℚ) ≤ n := by exact_mod_cast hn
  have hpos : (0 : ℚ) < 1 / n := by positivity
  have hhalf : (1 : ℚ) / n ≤ 1 / 2 := by gcongr
  have he := R.err (1 / (n : ℚ))
  rw [abs_of_pos hpos] at he
  obtain ⟨h1, h2⟩ := abs_le.1 he
  have h3 : ε * (1 / (n : ℚ)) ≤ 1 / 64 * (1 / n) := by gcongr
  refine ⟨by linarith, ?_, by linarith, he⟩
  have h4 : fl (1 / (n : ℚ)) ≤ 65 / 128 := by linarith
  have h5 : (1 + ε) ^ 2 ≤ (65 / 64) ^ 2 := by gcongr; linarith
  calc fl (1 / (n : ℚ)) * (1 + ε) ^ 2 ≤ 65 / 128 * (65 / 64) ^ 2 := by gcongr
    _ ≤ 1 := by norm_num

theorem fold_between (R : Rounding fl ε) (hn : 2 ≤ n) {lo hi : ℚ} : ∀ (r : List (ℚ × ℚ)) (s : ℚ), Machine fl s →
    (∀ p ∈ r, Machine fl p.2) → lo ≤ s ∧ s ≤ hi → (∀ p ∈ r, lo ≤ p.2 ∧ p.2 ≤ hi) →
    lo ≤ r.foldl (fun s p => smoothStepR fl n s p.2) s ∧ r.foldl (fun s p => smoothStepR fl n s p.2) s ≤ hi := by
  obtain ⟨a1, a2, _, _⟩ := fraction_small R hn
  intro r
  induction r with
  | nil => intro s _ _ hs _; exact hs
  | cons p r ih =>
    intro s hms hmr hs hr
    refine ih _ (R.machine _) (fun q hq => hmr q (List.mem_cons_of_mem _ hq)) ?_ fun q hq => hr q (List.mem_cons_of_mem _ hq)
    obtain ⟨k1, k2⟩ := ema_between R a1.le a2 hms (hmr p (by simp))
    obtain ⟨h1, h2⟩ := hr p (by simp)
    exact ⟨(le_min hs.1 h1).trans k1, k2.trans (max_le hs.2 h2)⟩

theorem fold_error (R : Rounding fl ε) (hn : 2 ≤ n) {M E : ℚ} (hE : 0 ≤ E) : ∀ (r : List (ℚ × ℚ)) (s s' : ℚ), Machine fl s →
    (∀ p ∈ r, Machine fl p.2) → |s| ≤ M → (∀ p ∈ r, |p.2| ≤ M) → |s - s'| ≤ E + ε * M * (n + 9) →
    |r.foldl (fun s p => smoothStepR fl n s p.2) s - r.foldl (fun s p => s + (p.2 - s) / (n : ℚ)) s'| ≤ E + ε * M * (n + 9) := by
  have hu := R.nonneg
  obtain ⟨a1, a2, a3, a4⟩ := fraction_small R hn
  have hn' : (2 : ℚ) ≤ n := by exact_mod_cast hn
  intro r
  induction r with
  | nil => intro s s' _ _ _ _ h; exact h
  | cons p r ih =>
    intro s s' hms hmr hs hr hd
    have hM : 0 ≤ M := (abs_nonneg _).trans hs
    have hpM := hr p (by simp)
    refine ih _ _ (R.machine _) (fun q hq => hmr q (List.mem_cons_of_mem _ hq)) ?_ (fun q hq => hr q (List.mem_cons_of_mem _ hq)) ?_
    · obtain ⟨k1, k2⟩ := ema_between R a1.le a2 hms (hmr p (by simp))
      obtain ⟨h1, h2⟩ := abs_le.1 hs
      obtain ⟨h3, h4⟩ := abs_le.1 hpM
      exact abs_le.2 ⟨(le_min h1 h3).trans k1, k2.trans (max_le h2 h4)⟩
    · obtain ⟨a, ha⟩ : ∃ a, a = fl (1 / (n : ℚ)) := ⟨_, rfl⟩
      obtain ⟨b, hb⟩ : ∃ b : ℚ, b = 1 / n := ⟨_, rfl⟩
      have k := ema_step_error R a1.le a2 hs hpM
      rw [← ha] at a1 a2 a3 a4 k
      rw [← hb] at a3 a4
      have hb0 : 0 < b := by rw [hb]; positivity
      have hb1 : b ≤ 1 := by rw [hb, div_le_one (by linarith)]; linarith
      have hdist : |p.2 - s| ≤ 2 * M := by have := abs_sub p.2 s; linarith
      have t1 : |(a - b) * (p.2 - s)| ≤ ε * b * (2 * M) := by rw [abs_mul]; gcongr
      have t2 : |(1 - b) * (s - s')| ≤ (1 - b) * (E + ε * M * (n + 9)) := by
        rw [abs_mul, abs_of_nonneg (by linarith : 0 ≤ 1 - b)]; gcongr
      have e : smoothStepR fl n s p.2 - (s' + (p.2 - s') / n) =
          (fl (s + fl (a * fl (p.2 - s))) - (s + a * (p.2 - s))) + (a - b) * (p.2 - s) + (1 - b) * (s - s') := by
        rw [show smoothStepR fl n s p.2 = fl (s + fl (a * fl (p.2 - s))) by rw [ha], hb]
        ring
      have hbn : b * n = 1 := by rw [hb]; field_simp
      have huM : 0 ≤ ε * M := mul_nonneg hu hM
      have t3 : ε * M * (1 + 6 * a) ≤ ε * M * (1 + 7 * b) := mul_le_mul_of_nonneg_left (by linarith) huM
      have t4 : 0 ≤ b * E := by positivity
      have e2 : (1 - b) * (E + ε * M * (n + 9)) = E + ε * M * (n + 9) - b * E - ε * M * (1 + 9 * b) := by
        have : (1 - b) * (E + ε * M * (n + 9)) = E + ε * M * (n + 9) - b * E - ε * M * (b * n + 9 * b) := by ring
        rw [this, hbn]
      simp only [e]
      rw [abs_le] at *
      constructor <;> nlinarith

theorem firstMeanR_machine (R : Rounding fl ε) (h : ∀ p ∈ l, Machine fl p.2) : Machine fl (firstMeanR fl l) := by
  unfold firstMeanR
  split
  · rename_i p q _ hq
    split
    · exact h q (List.mem_of_getLast? hq)
    · exact R.machine _
  · exact R.zero

/-- How far the first average is off. -/
theorem firstMeanR_error (R : Rounding fl ε) {X M δ : ℚ} (hδ : 0 < δ) (hn : l.length = n) (h1 : 1 ≤ n)
    (hasc : l.Pairwise fun p q => p.1 < q.1) (ht : Tame fl (defined l) X M δ) (hN : (2 * (n : ℚ) + 1) * ε ≤ 1) :
    |firstMeanR fl l - meanHeight l| ≤ 5 * ε * M + 6 * n * (98 * ε * M * X ^ 2 / δ + 2 * ε * M * X) / width l := by
  have hu := R.nonneg
  have hsm := R.small
  have hne : l ≠ [] := by intro h0; rw [h0] at hn; simp at hn; omega
  obtain ⟨p, hp⟩ : ∃ p, l.head? = some p := ⟨_, List.head?_eq_some_head hne⟩
  obtain ⟨q, hq⟩ : ∃ q, l.getLast? = some q := ⟨_, List.getLast?_eq_some_getLast hne⟩
  have hpm : (p.1, some p.2) ∈ defined l := by
    simp only [defined, List.mem_map]
    exact ⟨p, List.mem_of_mem_head? hp, rfl⟩
  have hM : 0 ≤ M := le_trans (abs_nonneg _) (ht.values _ hpm p.2 rfl)
  have hX : 0 ≤ X := le_trans (abs_nonneg _) (ht.near _ hpm)
  have hwl : width l = q.1 - p.1 := by simp only [width, hp, hq]
  obtain _ | ⟨a, _ | ⟨b, r⟩⟩ := l
  · exact absurd rfl hne
  · have e1 : firstMeanR fl [a] = a.2 := by simp [firstMeanR]
    have e2 : meanHeight [a] = a.2 := rfl
    have e3 : width [a] = 0 := by simp [width]
    rw [e1, e2, e3, sub_self, abs_zero, div_zero, add_zero]
    positivity
  · cases hp
    have hpq : p.1 < q.1 := by
      have hqm : q ∈ b :: r := by
        rw [List.getLast?_cons_cons] at hq
        exact List.mem_of_getLast? hq
      exact (List.pairwise_cons.1 hasc).1 q hqm
    have hL : 0 < q.1 - p.1 := by linarith
    obtain ⟨k, hk⟩ : ∃ k, n = k + 1 := ⟨n - 1, by omega⟩
    have hkq : (n : ℚ) = (k : ℚ) + 1 := by rw [hk]; push_cast; ring
    have hcut : ((p :: b :: r).take (k + 1)).drop 0 = p :: b :: r := by
      rw [List.drop_zero, List.take_of_length_le (by omega)]
    obtain ⟨v, b1, b2, b3⟩ := stretch_error R hM hX hδ (k := k) (s := 0) (j := k) (l := p :: b :: r)
      (by rw [List.drop_zero] at hcut; rw [hcut]; exact ht) (by rw [← hkq]; exact hN) (Nat.zero_le _) le_rfl (by omega)
    rw [hcut] at b1 b3
    have hf : firstMeanR fl (p :: b :: r) = fl (fl (v - 0) / fl (q.1 - p.1)) := by
      simp only [firstMeanR, List.head?_cons, hq]
      rw [if_neg hpq.ne, b1, Option.getD_some, show fl v = v from b2, show fl 0 = 0 from R.zero]
    have hmh : meanHeight (p :: b :: r) = (totalArea .linear (p :: b :: r) - 0) / (q.1 - p.1) := by
      rw [← hwl, sub_zero]; rfl
    obtain ⟨E, hE⟩ : ∃ E, E = ((k : ℚ) + 1) * (98 * ε * M * X ^ 2 / δ + ε * (2 * M * X)) := ⟨_, rfl⟩
    have hE0 : 0 ≤ E := by rw [hE]; positivity
    have hE2 : 2 * ((k : ℚ) + 1) * (98 * ε * M * X ^ 2 / δ + ε * (2 * M * X)) = 2 * E := by rw [hE]; ring
    have hE6 : 6 * (n : ℚ) * (98 * ε * M * X ^ 2 / δ + 2 * ε * M * X) = 6 * E := by rw [hE, hkq]; ring
    rw [hE2] at b3
    have key := C151_mean R hL (v0 := 0) (w0 := 0) (E := 2 * E) (by rw [sub_zero, abs_zero]; linarith) b3
    rw [hf, hmh, hwl, hE6]
    refine key.trans ?_
    have hwin : ∀ z ∈ p :: b :: r, -M ≤ z.2 ∧ z.2 ≤ M := by
      intro z hz
      have hz' : (z.1, some z.2) ∈ defined (p :: b :: r) := by
        simp only [defined, List.mem_map]
        exact ⟨z, hz, rfl⟩
      exact abs_le.1 (ht.values _ hz' z.2 rfl)
    obtain ⟨c1, c2⟩ := area_bounds _ hasc hwin
    rw [hwl] at c1 c2
    have c3 : |totalArea .linear (p :: b :: r) - 0| ≤ M * (q.1 - p.1) := by rw [sub_zero]; exact abs_le.2 ⟨by linarith, c2⟩
    have c4 : 5 * ε * |totalArea .linear (p :: b :: r) - 0| ≤ 5 * ε * (M * (q.1 - p.1)) := by gcongr
    have c5 : ε * E ≤ 1 / 64 * E := mul_le_mul_of_nonneg_right hsm hE0
    have e2 : 5 * ε * M + 6 * E / (q.1 - p.1) = (5 * ε * (M * (q.1 - p.1)) + 6 * E) / (q.1 - p.1) := by
      field_simp
    rw [e2]
    refine div_le_div_of_nonneg_right ?_ hL.le
    linarith

/-! ## The averages -/

/-- What the first average may lose. -/
def firstLoss (ε : ℚ) (n : ℕ) (X M δ : ℚ) (l : List (ℚ × ℚ)) : ℚ :=
  5 * ε * M + 6 * n * (98 * ε * M * X ^ 2 / δ + 2 * ε * M * X) / width l

/-- **Near the exact average, however many values there are**: what the first average loses, and for `n` steps what rounding
loses in each. -/
theorem C173_error (R : Rounding fl ε) (hm : minStepQ ≤ m) (hn : 2 ≤ n) (h : SmoothingR fl n m u S) {X M δ : ℚ} (hδ : 0 < δ)
    {k : ℕ} {p : Pt ℚ} (hk : S.ema.src.points[k]? = some p) (hnk : n ≤ k + 1)
    (ht : Tame fl (S.ema.src.points.take n) X M δ) (hv : ∀ q ∈ S.ema.src.points.take (k + 1), ∀ y, q.2 = some y → |y| ≤ M)
    (hmv : MachineValues fl (S.ema.src.points.take (k + 1))) (hN : (2 * (n : ℚ) + 1) * ε ≤ 1) (fuel : ℕ) :
    ∃ v w, (S.queryR fl n (fuel + 1) (.fin p.1)).map Prod.snd = some (.ok (some v)) ∧
      smoothed meanHeight n (S.ema.src.points.take (k + 1)) = some w ∧
      |v - w| ≤ firstLoss ε n X M δ (withValue (S.ema.src.points.take n)) +
        ε * (M + firstLoss ε n X M δ (withValue (S.ema.src.points.take n))) * (n + 9) := by
  have hu := R.nonneg
  have hlk := (List.getElem?_eq_some_iff.1 hk).1
  have h1 := C173_answer hm (by omega) h hk fuel
  obtain ⟨h2, _, _, _, h3⟩ := smoothingR_sound hm (by omega) h
  have hlen : ¬ (S.ema.src.points.take (k + 1)).length < n := by rw [List.length_take]; omega
  have htake : (S.ema.src.points.take (k + 1)).take n = S.ema.src.points.take n := by
    rw [List.take_take, Nat.min_eq_left hnk]
  have hdef := whole_defined (P := S.ema.src.points.take n) h2.2
  have hl : (withValue (S.ema.src.points.take n)).length = n := by
    have := congrArg List.length hdef
    rw [show (defined (withValue (S.ema.src.points.take n))).length = (withValue (S.ema.src.points.take n)).length by
      simp [defined], List.length_take] at this
    omega
  have hasc := withValue_asc (h3.src.wf.asc.sublist (List.take_sublist n _))
  have hfe := firstMeanR_error R hδ hl (by omega) hasc (by rw [hdef]; exact ht) hN
  have hmem : ∀ q ∈ withValue (S.ema.src.points.take n), (q.1, some q.2) ∈ S.ema.src.points.take n := fun q hq => withValue_mem hq
  have hM : 0 ≤ M := by
    obtain ⟨q, hq⟩ : ∃ q, q ∈ withValue (S.ema.src.points.take n) := by
      apply List.exists_mem_of_length_pos; omega
    exact le_trans (abs_nonneg _) (ht.values _ (hmem q hq) q.2 rfl)
  have hmh : |meanHeight (withValue (S.ema.src.points.take n))| ≤ M := by
    obtain ⟨c1, c2⟩ := meanHeight_bounds (l := withValue (S.ema.src.points.take n)) (lo := -M) (hi := M)
      (by intro h0; rw [h0] at hl; simp at hl; omega) hasc (fun q hq => abs_le.1 (ht.values _ (hmem q hq) q.2 rfl))
    exact abs_le.2 ⟨c1, c2⟩
  obtain ⟨E, hE⟩ : ∃ E, E = firstLoss ε n X M δ (withValue (S.ema.src.points.take n)) := ⟨_, rfl⟩
  have hE' : |firstMeanR fl (withValue (S.ema.src.points.take n)) - meanHeight (withValue (S.ema.src.points.take n))| ≤ E := by
    rw [hE]; exact hfe
  have hE0 : 0 ≤ E := (abs_nonneg _).trans hE'
  rw [← hE]
  refine ⟨_, _, by rw [h1, smoothedR, if_neg hlen], by rw [smoothed, if_neg hlen], ?_⟩
  rw [htake]
  have hrest : ∀ q ∈ withValue ((S.ema.src.points.take (k + 1)).drop n), (q.1, some q.2) ∈ S.ema.src.points.take (k + 1) :=
    fun q hq => List.mem_of_mem_drop (withValue_mem hq)
  refine fold_error R hn (M := M + E) hE0 _ _ _ (firstMeanR_machine R fun q hq => ht.machine _ (hmem q hq) q.2 rfl)
    (fun q hq => hmv _ (hrest q hq) q.2 rfl) ?_ (fun q hq => (hv _ (hrest q hq) q.2 rfl).trans (by linarith)) ?_
  · rw [abs_le] at *
    constructor <;> linarith
  · refine hE'.trans ?_
    have : 0 ≤ ε * (M + E) * (n + 9) := by positivity
    linarith

/-- **Between**: from the first average on, a rounded smoothed average is between the least and the greatest of the first
average and the values after it. -/
theorem C173_between (R : Rounding fl ε) (hm : minStepQ ≤ m) (hn : 2 ≤ n) (h : SmoothingR fl n m u S)
    {k : ℕ} {p : Pt ℚ} (hk : S.ema.src.points[k]? = some p) (hnk : n ≤ k + 1)
    (hmv : MachineValues fl (S.ema.src.points.take (k + 1))) (fuel fuel' : ℕ) {p0 : Pt ℚ} (h0 : S.ema.src.points[n - 1]? = some p0) :
    ∃ e v, (S.queryR fl n (fuel' + 1) (.fin p0.1)).map Prod.snd = some (.ok (some e)) ∧
      (S.queryR fl n (fuel + 1) (.fin p.1)).map Prod.snd = some (.ok (some v)) ∧
      ∀ lo hi, lo ≤ e → e ≤ hi → (∀ x y, (x, some y) ∈ (S.ema.src.points.take (k + 1)).drop n → lo ≤ y ∧ y ≤ hi) →
        lo ≤ v ∧ v ≤ hi := by
  have hlk := (List.getElem?_eq_some_iff.1 hk).1
  have hln := (List.getElem?_eq_some_iff.1 h0).1
  obtain ⟨h2, _, _, _, h3⟩ := smoothingR_sound hm (by omega) h
  have hlen : ¬ (S.ema.src.points.take (k + 1)).length < n := by rw [List.length_take]; omega
  have hlen0 : ¬ (S.ema.src.points.take (n - 1 + 1)).length < n := by rw [List.length_take]; omega
  have htake : (S.ema.src.points.take (k + 1)).take n = S.ema.src.points.take n := by
    rw [List.take_take, Nat.min_eq_left hnk]
  have hdrop : (S.ema.src.points.take (n - 1 + 1)).drop n = [] := by
    apply List.drop_eq_nil_of_le; rw [List.length_take]; omega
  have htake0 : (S.ema.src.points.take (n - 1 + 1)).take n = S.ema.src.points.take n := by
    rw [List.take_take, Nat.min_eq_left (by omega)]
  refine ⟨firstMeanR fl (withValue (S.ema.src.points.take n)), _, ?_, by
    rw [C173_answer hm (by omega) h hk fuel, smoothedR, if_neg hlen], ?_⟩
  · rw [C173_answer hm (by omega) h h0 fuel', smoothedR, if_neg hlen0, hdrop, htake0]
    rfl
  · intro lo hi hlo hhi hb
    rw [htake]
    refine fold_between R hn _ _ (firstMeanR_machine R fun q hq => ?_) (fun q hq => ?_) ⟨hlo, hhi⟩ (fun q hq => ?_)
    · refine hmv (q.1, some q.2) ?_ q.2 rfl
      have := withValue_mem hq
      rw [← htake] at this
      exact List.mem_of_mem_take this
    · exact hmv _ (List.mem_of_mem_drop (withValue_mem hq)) q.2 rfl
    · exact hb q.1 q.2 (withValue_mem hq)

/-! ## Concrete averages -/

/-- What is answered after other queries. -/
def smmaAfterR (fl : ℚ → ℚ) (n : ℕ) : Smma → List ℚ → ℚ → Option (Except Err (Option ℚ))
  | S, [], x => (S.queryR fl n 2 (.fin x)).map Prod.snd
  | S, z :: zs, x => (S.queryR fl n 2 (.fin z)).bind fun o => smmaAfterR fl n o.1 zs x

/-- The average over the points, if the constructor gives one. -/
def smmaOf (pts : List (Pt ℚ)) (n : ℕ) : Smma := ⟨Accum.new (loose pts) 1, Accum.new (loose pts) 1⟩

theorem smmaOf_new (pts : List (Pt ℚ)) (hn : 1 ≤ n) : smmaOver pts n 1 = .ok (smmaOf pts n) := by
  have : (Window.degree n).valid = true := by simp [Window.valid]; omega
  simp [smmaOver, Smma.new, Sma.new, this, smmaOf]

/-- A great value, then small ones. -/
def dropPts : List (Pt ℚ) := [(0, some (2 ^ 60)), (1, some 1), (2, some 1)]

/-- A constant, near `1/10`. -/
def tenthPts : List (Pt ℚ) := [0, 1, 2, 3, 4, 5].map fun x => (x, some (3602879701896397 / 36028797018963968))

theorem drop_smoothing (fl : ℚ → ℚ) (hn : 1 ≤ n) : SmoothingR fl n 1 true (smmaOf dropPts n) := by
  have hp : (loose dropPts).points = dropPts := by decide +kernel
  have he : EquallySpaced dropPts := ⟨1, by norm_num [dropPts]⟩
  refine .new (loose_honest (by norm_num [Ascending, dropPts]) he (by decide +kernel)) ?_ ?_ (smmaOf_new _ hn)
  · rw [hp]; exact allFit_of_spaced (by norm_num [Gapped, dropPts]) he
  · rw [hp]
    intro p hp
    have := List.mem_of_mem_take hp
    simp only [dropPts, List.mem_cons, List.not_mem_nil, or_false] at this
    rcases this with rfl | rfl | rfl <;> simp

theorem tenth_smoothing (fl : ℚ → ℚ) (hn : 1 ≤ n) : SmoothingR fl n 1 true (smmaOf tenthPts n) := by
  have hp : (loose tenthPts).points = tenthPts := by decide +kernel
  have he : EquallySpaced tenthPts := ⟨1, by norm_num [tenthPts]⟩
  refine .new (loose_honest (by norm_num [Ascending, tenthPts]) he (by decide +kernel)) ?_ ?_ (smmaOf_new _ hn)
  · rw [hp]; exact allFit_of_spaced (by norm_num [Gapped, tenthPts]) he
  · rw [hp]
    intro p hp
    have := List.mem_of_mem_take hp
    simp only [tenthPts, List.mem_map] at this
    obtain ⟨x, -, rfl⟩ := this
    simp

/-- **Not the value itself**: of degree `1` an average is each value, if calculated exactly.  With numbers of 64 bits it is `0`
where the value is `1`, after the value `2 ^ 60`; so the bounds of `C173_between` fail for the degree `1`. -/
theorem C173_negation : SmoothingR fl64 1 1 true (smmaOf dropPts 1) ∧ MachineValues fl64 dropPts ∧
    smmaAfterR fl64 1 (smmaOf dropPts 1) [] 1 = some (.ok (some 0)) ∧
    smoothed meanHeight 1 (dropPts.take 2) = some 1 := by
  refine ⟨drop_smoothing _ le_rfl, ?_, by decide +kernel, by decide +kernel⟩
  intro q hq y hy
  simp only [dropPts, List.mem_cons, List.not_mem_nil, or_false] at hq
  rcases hq with rfl | rfl | rfl <;> (cases hy; show fl64 _ = _; decide +kernel)

/-- **Not the constant**: the average of a constant near `1/10` is greater than it, from the first one on, and so it stays. -/
theorem C173_negation_constant : SmoothingR fl64 4 1 true (smmaOf tenthPts 4) ∧ MachineValues fl64 tenthPts ∧
    (∀ p ∈ tenthPts, p.2 = some (3602879701896397 / 36028797018963968)) ∧
    ∃ v, 3602879701896397 / 36028797018963968 < v ∧ smmaAfterR fl64 4 (smmaOf tenthPts 4) [] 3 = some (.ok (some v)) ∧
      smmaAfterR fl64 4 (smmaOf tenthPts 4) [] 5 = some (.ok (some v)) := by
  refine ⟨tenth_smoothing _ (by norm_num), ?_, ?_, firstMeanR fl64 (withValue (tenthPts.take 4)), ?_, ?_, ?_⟩
  · intro q hq y hy
    simp only [tenthPts, List.mem_map] at hq
    obtain ⟨x, -, rfl⟩ := hq
    cases hy
    show fl64 _ = _
    decide +kernel
  · intro p hp
    simp only [tenthPts, List.mem_map] at hp
    obtain ⟨x, -, rfl⟩ := hp
    rfl
  all_goals decide +kernel

/-! ### An instance of each theorem -/

-- `C173_answer`, `C173_same`: after queries at `2` and `0`, and after none
example : smmaAfterR fl64 2 (smmaOf dropPts 2) [2, 0] 2 = smmaAfterR fl64 2 (smmaOf dropPts 2) [] 2 ∧
    smmaAfterR fl64 2 (smmaOf dropPts 2) [] 2 = some (.ok (smoothedR fl64 2 dropPts)) ∧
    smoothedR fl64 2 dropPts = some (2 ^ 58) ∧ smoothed meanHeight 2 dropPts = some (2 ^ 58 + 3 / 4) := by
  refine ⟨by decide +kernel, ?_, by decide +kernel, by decide +kernel⟩
  have hp : (smmaOf dropPts 2).ema.src.points = dropPts := by decide +kernel
  have := C173_answer (m := 1) (by norm_num [minStepQ]) (by norm_num) (drop_smoothing fl64 (n := 2) (by norm_num)) (k := 2)
    (p := (2, some 1)) (by rw [hp]; rfl) 1
  rw [hp] at this
  exact this

theorem drop_tame : Tame fl64 (dropPts.take 2) 1 (2 ^ 60) 1 := by
  refine ⟨?_, ?_, ?_, ?_⟩
  · intro q hq
    simp [dropPts] at hq
    rcases hq with rfl | rfl <;> norm_num
  · intro q hq y hy
    simp [dropPts] at hq
    rcases hq with rfl | rfl <;> (cases hy; norm_num [abs_le])
  · intro q hq y hy
    simp [dropPts] at hq
    rcases hq with rfl | rfl <;> (cases hy; show fl64 _ = _; decide +kernel)
  · norm_num [dropPts]

theorem drop_machine : MachineValues fl64 dropPts := C173_negation.2.1

-- `C173_error`: less than `2 ^ 20` for values up to `2 ^ 60`
example : ∃ v w, smmaAfterR fl64 2 (smmaOf dropPts 2) [] 2 = some (.ok (some v)) ∧ smoothed meanHeight 2 dropPts = some w ∧
    |v - w| ≤ 2 ^ 20 := by
  have hp : (smmaOf dropPts 2).ema.src.points = dropPts := by decide +kernel
  obtain ⟨v, w, h1, h2, h3⟩ := C173_error fl64_rounding (m := 1) (by norm_num [minStepQ]) le_rfl
    (drop_smoothing fl64 (n := 2) (by norm_num)) (X := 1) (M := 2 ^ 60) (δ := 1) (by norm_num) (k := 2) (p := (2, some 1))
    (by rw [hp]; rfl) (by norm_num) (by rw [hp]; exact drop_tame) (by
      rw [hp]; intro q hq y hy
      simp [dropPts] at hq
      rcases hq with rfl | rfl | rfl <;> (cases hy; norm_num [abs_le]))
    (by rw [hp]; exact drop_machine) (by norm_num) 1
  rw [hp] at h2 h3
  refine ⟨v, w, h1, h2, h3.trans ?_⟩
  decide +kernel

-- `C173_between`
example : ∃ e v, smmaAfterR fl64 2 (smmaOf dropPts 2) [] 1 = some (.ok (some e)) ∧
    smmaAfterR fl64 2 (smmaOf dropPts 2) [] 2 = some (.ok (some v)) ∧ (1 ≤ e → 1 ≤ v ∧ v ≤ e) := by
  have hp : (smmaOf dropPts 2).ema.src.points = dropPts := by decide +kernel
  obtain ⟨e, v, h1, h2, h3⟩ := C173_between fl64_rounding (m := 1) (by norm_num [minStepQ]) le_rfl
    (drop_smoothing fl64 (n := 2) (by norm_num)) (k := 2) (p := (2, some 1))
    (by rw [hp]; rfl) (by norm_num) (by rw [hp]; exact drop_machine) 1 1 (p0 := (1, some 1)) (by rw [hp]; rfl)
  refine ⟨e, v, h1, h2, fun he => h3 1 e he le_rfl ?_⟩
  rw [hp]
  intro x y hxy
  simp [dropPts] at hxy
  obtain ⟨rfl, rfl⟩ := hxy
  exact ⟨le_rfl, he⟩

end Props
end Curvepy
