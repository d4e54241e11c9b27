import Verif.Spec.EmaInit
import Verif.Lemmas.ScanOwn
import Verif.Lemmas.Fold
import Verif.Props.SmmaHoles

/-!
# Property C168: averages that take their first value from another curve
-/

namespace Curvepy
namespace Props
open Spec Pts Accum EmaInit

variable {alpha period : Option ℚ} {m : ℚ} {u : Bool} {fr : ℚ → ℚ → ℚ} {H : List (ℚ → Option ℚ)} {E : EmaInit}

theorem stepFold_congr {f f' : ℚ → Option ℚ} {l : List (Pt ℚ)} (h : ∀ p ∈ l, f p.1 = f' p.1) :
    stepFold (emaStep fr (some f)) none none l = stepFold (emaStep fr (some f')) none none l := by
  induction l using List.reverseRecOn with
  | nil => rfl
  | append_singleton l p ih =>
    rw [stepFold_snoc, stepFold_snoc, ih fun q hq => h q (by simp [hq])]
    generalize stepFold _ none none l = e
    unfold emaStep
    simp only [h p (by simp)]

theorem runRule_ema_congr {f f' : ℚ → Option ℚ} {l : List (Pt ℚ)} (h : ∀ p ∈ l, f p.1 = f' p.1) :
    runRule (stepRule (emaStep fr (some f))) [] [] l = runRule (stepRule (emaStep fr (some f'))) [] [] l := by
  induction l using List.reverseRecOn with
  | nil => rfl
  | append_singleton l p ih =>
    obtain ⟨out, h1, _⟩ := runRule_step (emaStep fr (some f)) l
    have ih := ih fun q hq => h q (by simp [hq])
    have h2 := ih ▸ h1
    have e : stepRule (emaStep fr (some f)) (l ++ [p]) out = stepRule (emaStep fr (some f')) (l ++ [p]) out := by
      unfold stepRule emaStep
      simp only [List.getLast?_append, List.getLast?_singleton, Option.some_or, h p (by simp)]
    rw [runRule_snoc _ _ _ h1, runRule_snoc _ _ _ h2, e]

/-- Only what the rule gives for the knots seen matters. -/
theorem sound_swap {g g' : Rule} {i : Interp} {A : Accum} {seen todo : List (Pt ℚ)} (h : Sound g m i u A seen todo)
    (hr : runRule g' [] [] seen = runRule g [] [] seen) : Sound g' m i u A seen todo :=
  ⟨h.src, h.pts, h.fit, h.acc, h.interp, h.force, hr.trans h.run, h.cur, h.start, h.step, h.cache, h.idleB, h.idleE⟩

/-- The other curve has these values at the knots after the first `N`. -/
def TellsFrom (N : ℕ) (f : ℚ → Option ℚ) (I src : Pts ℚ) : Prop :=
  Honest I ∧ ∀ (k : ℕ) p, N ≤ k → src.points[k]? = some p → valuesOf I p.1 = f p.1

theorem init_follows (hm : 0 < m) (hw : Fraction alpha period fr) (N : ℕ) (f : ℚ → Option ℚ) :
    FollowsFrom N (TellsFrom N f) m (initTfm alpha period m) (stepRule (emaStep fr (some f))) := by
  intro src seen rest p out I hN hI hs hp hrun hg
  have hxs := runRule_xs hrun
  have hI' := hI
  obtain ⟨h1, h2⟩ := hI'
  have hk := h2 seen.length p hN (by simp [hp])
  obtain ⟨x, y⟩ := p
  unfold initTfm stepRule
  simp only [List.getLast?_append, List.getLast?_singleton, Option.some_or, List.dropLast_concat]
  cases y with
  | none => exact ⟨I, src, lastOut out, rfl, rfl, hI, hs, rfl⟩
  | some y =>
    cases hl : lastOut out with
    | none =>
      refine ⟨I.touch, src, f x, ?_, rfl, ⟨.read h1, h2⟩, hs, rfl⟩
      simp only
      rw [y_eq h1.wf]
      show some (_, _, Except.ok (valuesOf I x)) = _
      rw [hk]
    | some e =>
      obtain ⟨q, hq⟩ : ∃ q, seen.getLast? = some q := by
        cases hq : seen.getLast? with
        | some q => exact ⟨q, rfl⟩
        | none =>
          rw [List.getLast?_eq_none_iff] at hq
          subst hq
          simp only [runRule, Prod.mk.injEq, and_true] at hrun
          rw [← hrun] at hl
          cases hl
      cases hw with
      | alpha a => exact ⟨I, src, some (e + a * (y - e)), rfl, by simp [emaStep, hq], hI, hs, rfl⟩
      | period hp0 =>
        have hgap := gapped_pair (hp ▸ hg) hq
        refine ⟨I, src, _, ?_, rfl, hI, hs, rfl⟩
        simp only [emaTfm]
        rw [xPrevious_knot hs hm le_rfl hp hg, hq]
        simp only [Option.map_some, if_neg hp0, emaStep]
        rw [abs_div, abs_of_nonneg (by linarith : 0 ≤ x - q.1)]

/-- After any history the results are those of some values, each of which the other curve has had. -/
def Held (fr : ℚ → ℚ → ℚ) (m : ℚ) (u : Bool) (H : List (ℚ → Option ℚ)) (E : EmaInit) : Prop :=
  Honest E.init ∧ valuesOf E.init ∈ H ∧ ∃ f : ℚ → Option ℚ, (∀ x, ∃ h ∈ H, f x = h x) ∧
    ∃ seen todo, Sound (stepRule (emaStep fr (some f))) m .linear u E.ema seen todo

theorem ask_from (hm : 0 < m) (hw : Fraction alpha period fr) (h1 : Honest E.init) (h2 : valuesOf E.init ∈ H)
    {f : ℚ → Option ℚ} (h3 : ∀ x, ∃ h ∈ H, f x = h x) {seen todo : List (Pt ℚ)}
    (h4 : Sound (stepRule (emaStep fr (some f))) m .linear u E.ema seen todo) (x : Ext) :
    ∃ E' r f' seen' todo', E.query alpha period x = some (E', r) ∧ Honest E'.init ∧ valuesOf E'.init = valuesOf E.init ∧
      (∀ x, ∃ h ∈ H, f' x = h x) ∧ (∀ p ∈ seen, f' p.1 = f p.1) ∧
      Sound (stepRule (emaStep fr (some f'))) m .linear u E'.ema seen' todo' ∧
      (∀ q, x = .fin q → (span E.ema.src.points).contains x = true → ∃ p ∈ seen', q ≤ p.1) ∧
      E'.ema.src.points = E.ema.src.points ∧
      r = accumulatedAt (stepRule (emaStep fr (some f'))) .linear E.ema.src.points x := by
  let f' : ℚ → Option ℚ := fun z => if z ∈ seen.map Prod.fst then f z else valuesOf E.init z
  have hf' : ∀ x, ∃ h ∈ H, f' x = h x := by
    intro z
    by_cases hz : z ∈ seen.map Prod.fst
    · obtain ⟨h, hh, he⟩ := h3 z
      exact ⟨h, hh, by simp only [f', if_pos hz, he]⟩
    · exact ⟨_, h2, by simp only [f', if_neg hz]⟩
  have hff : ∀ p ∈ seen, f' p.1 = f p.1 := fun p hp => by
    simp only [f', if_pos (List.mem_map_of_mem (f := Prod.fst) hp)]
  have h5 : Sound (stepRule (emaStep fr (some f'))) m .linear u E.ema seen todo := sound_swap h4 (runRule_ema_congr hff)
  have hT : TellsFrom seen.length f' E.init E.ema.src := by
    refine ⟨h1, fun k p hk hp => ?_⟩
    have : p.1 ∉ seen.map Prod.fst := by
      intro hc
      obtain ⟨q, hq, hqp⟩ := List.mem_map.1 hc
      rw [h5.pts, List.getElem?_append_right hk] at hp
      have := (List.pairwise_append.1 h5.asc).2.2 q hq p (List.mem_of_getElem? hp)
      rw [hqp] at this
      exact lt_irrefl _ this
    simp only [f', if_neg this]
  have hI : ∀ (s src : Pts ℚ), TellsFrom seen.length f' s src ∧ valuesOf s = valuesOf E.init →
      TellsFrom seen.length f' s src.touch ∧ valuesOf s = valuesOf E.init := fun _ _ h => h
  have hfol : FollowsFrom seen.length (fun s src => TellsFrom seen.length f' s src ∧ valuesOf s = valuesOf E.init) m
      (initTfm alpha period E.ema.minStep) (stepRule (emaStep fr (some f'))) := by
    rw [h5.step]
    intro src sn rest p out I hN hI hs hp hrun hg
    obtain ⟨s', src', v, r1, r2, r3, r4, r5⟩ := init_follows hm hw _ f' src sn rest p out I hN hI.1 hs hp hrun hg
    refine ⟨s', src', v, r1, r2, ⟨r3, ?_⟩, r4, r5⟩
    rw [← hI.2]
    unfold initTfm at r1
    split at r1
    · simp only [Option.some.injEq, Prod.mk.injEq] at r1
      rw [← r1.1]; rfl
    · simp only [Option.some.injEq, Prod.mk.injEq] at r1
      rw [← r1.1]
  obtain ⟨o, r1, r2, r3, r4, seen', todo', r5, r6⟩ := h5.queryFrom hI hfol hm ⟨hT, rfl⟩ x
  refine ⟨⟨o.st, o.own⟩, o.res, f', seen', todo', ?_, r3.1.1, r3.2, hf', hff, r5, r6, r2, r4⟩
  unfold EmaInit.query
  rw [r1]
  rfl

theorem Held.ask (hm : 0 < m) (hw : Fraction alpha period fr) (h : Held fr m u H E) (x : Ext) :
    ∃ E' r f, E.query alpha period x = some (E', r) ∧ Held fr m u H E' ∧ (∀ x, ∃ h ∈ H, f x = h x) ∧
      E'.ema.src.points = E.ema.src.points ∧ valuesOf E'.init = valuesOf E.init ∧
      r = accumulatedAt (stepRule (emaStep fr (some f))) .linear E.ema.src.points x := by
  obtain ⟨h1, h2, f, h3, seen, todo, h4⟩ := h
  obtain ⟨E', r, f', seen', todo', e1, e2, e3, e4, _, e5, _, e6, e7⟩ := ask_from hm hw h1 h2 h3 h4 x
  exact ⟨E', r, f', e1, ⟨e2, e3 ▸ h2, f', e4, _, _, e5⟩, e4, e6, e3, e7⟩

theorem primed_held (hm : 0 < m) (hw : Fraction alpha period fr) (h : Primed alpha period m u H E) : Held fr m u H E := by
  induction h with
  | new hs hf hI =>
    exact ⟨hI, List.mem_singleton.2 rfl, _, fun x => ⟨_, List.mem_singleton.2 rfl, rfl⟩, _, _, Sound.new hs hf⟩
  | query _ ho ih =>
    obtain ⟨E', r, _, h1, h2, _⟩ := ih.ask hm hw _
    rw [h1] at ho
    cases ho
    exact h2
  | edit _ hl he ht hf ih =>
    obtain ⟨h1, h2, f, h3, seen, todo, h4⟩ := ih
    exact ⟨h1, h2, f, h3, (h4.edit hl _ he ht hf).2.2⟩
  | editInit _ hl he ht ih =>
    obtain ⟨h1, h2, f, h3, h4⟩ := ih
    refine ⟨.edit h1 hl he ht, List.mem_cons_self, f, fun x => ?_, h4⟩
    obtain ⟨h, hh, hx⟩ := h3 x
    exact ⟨h, List.mem_cons_of_mem _ hh, hx⟩
  | read _ ih =>
    obtain ⟨h1, h2, f, h3, seen, todo, h4⟩ := ih
    exact ⟨h1, h2, f, h3, _, _, h4.touch⟩
  | readSource _ ih =>
    obtain ⟨h1, h2, f, h3, seen, todo, h4⟩ := ih
    exact ⟨h1, h2, f, h3, _, _, h4.touchSrc⟩

theorem Held.asc (h : Held fr m u H E) : Ascending E.ema.src.points := by
  obtain ⟨_, _, _, _, seen, todo, h4⟩ := h
  exact h4.src.wf.asc

/-- C168: after any history of queries and of edits of both curves, the answer at each knot is the recurrence of C47 over the points up
to it, begun from a value that the other curve has had there at some time. -/
theorem C168_some_time (hm : 0 < m) (hw : Fraction alpha period fr) (h : Primed alpha period m u H E) {k : ℕ} {p : Pt ℚ}
    (hk : E.ema.src.points[k]? = some p) :
    ∃ f : ℚ → Option ℚ, (∀ x, ∃ h ∈ H, f x = h x) ∧ (E.query alpha period (.fin p.1)).map Prod.snd =
      some (.ok (stepFold (emaStep fr (some f)) none none (E.ema.src.points.take (k + 1)))) := by
  have h0 := primed_held hm hw h
  obtain ⟨E', r, f, h1, h2, h3, _, _, h4⟩ := h0.ask hm hw (.fin p.1)
  refine ⟨f, h3, ?_⟩
  rw [h1, Option.map_some, h4, accumulatedAt_step _ _ h0.asc hk]

/-- C168: it is begun from the present value, if the other curve has always had its present values at the points of the source. -/
theorem C168_answer_partial (hm : 0 < m) (hw : Fraction alpha period fr) (h : Primed alpha period m u H E)
    (hH : ∀ f ∈ H, ∀ p ∈ E.ema.src.points, f p.1 = valuesOf E.init p.1) {k : ℕ} {p : Pt ℚ} (hk : E.ema.src.points[k]? = some p) :
    (E.query alpha period (.fin p.1)).map Prod.snd =
      some (.ok (stepFold (emaStep fr (some (valuesOf E.init))) none none (E.ema.src.points.take (k + 1)))) := by
  obtain ⟨f, h1, h2⟩ := C168_some_time hm hw h hk
  rw [h2, stepFold_congr fun q hq => ?_]
  obtain ⟨g, hg, he⟩ := h1 q.1
  rw [he]
  exact hH g hg q (List.mem_of_mem_take hq)

/-- C168: no query raises, and none changes the points of the source or the values of the other curve. -/
theorem C168_quiet (hm : 0 < m) (hw : Fraction alpha period fr) (h : Primed alpha period m u H E) (x : Ext) :
    ∃ E' v, E.query alpha period x = some (E', .ok v) ∧ E'.ema.src.points = E.ema.src.points ∧
      valuesOf E'.init = valuesOf E.init := by
  have h0 := primed_held hm hw h
  obtain ⟨E', r, f, h1, _, _, h3, h4, h5⟩ := h0.ask hm hw x
  have : ∃ v, r = .ok v := by
    rw [h5]
    unfold accumulatedAt
    cases x with
    | fin q =>
      simp only
      split
      · obtain ⟨out, h6, _⟩ := runRule_step (emaStep fr (some f)) (upTo q E.ema.src.points)
        rw [h6]
        exact ⟨_, rfl⟩
      · exact ⟨_, rfl⟩
    | _ => exact ⟨_, rfl⟩
  obtain ⟨v, rfl⟩ := this
  exact ⟨E', v, h1, h3, h4⟩

/-- C168: the code does not follow the other curve.  After a query at a knot, no edit of the other curve changes the answer there, whatever
the history was. -/
theorem C168_stale (hm : 0 < m) (hw : Fraction alpha period fr) (h : Primed alpha period m u H E) {k : ℕ} {p : Pt ℚ}
    (hk : E.ema.src.points[k]? = some p) {E' : EmaInit} {v : Except Err (Option ℚ)}
    (hq : E.query alpha period (.fin p.1) = some (E', v)) {op : Op ℚ} (hl : op.Legal) {r : Reads}
    (he : lateError (op.run E'.init r).err = false) (ht : Truthful (op.run E'.init r).st) :
    ((E'.editInit op r).query alpha period (.fin p.1)).map Prod.snd = some v := by
  have h0 := primed_held hm hw h
  have hasc := h0.asc
  obtain ⟨h1, h2, f, h3, seen, todo, h4⟩ := h0
  obtain ⟨E1, r1, f1, seen1, todo1, e1, e2, e3, e4, _, e5, e6, e7, e8⟩ := ask_from hm hw h1 h2 h3 h4 (.fin p.1)
  rw [hq] at e1
  cases e1
  obtain ⟨q, hq1, hq2⟩ := e6 p.1 rfl (knot_in_span hasc (List.mem_of_getElem? hk))
  obtain ⟨E2, r2, f2, seen2, todo2, g1, _, _, _, g4, _, _, _, g8⟩ := ask_from (E := E'.editInit op r)
    (H := valuesOf (op.run E'.init r).st :: H) hm hw (.edit e2 hl he ht) List.mem_cons_self
    (fun x => let ⟨h, hh, hx⟩ := e4 x; ⟨h, List.mem_cons_of_mem _ hh, hx⟩) e5 (.fin p.1)
  rw [g1, Option.map_some, g8, e8]
  have hp : (E'.editInit op r).ema.src.points = E.ema.src.points := e7
  rw [hp]
  simp only
  rw [accumulatedAt_step _ _ hasc hk, accumulatedAt_step _ _ hasc hk]
  rw [stepFold_congr fun z hz => g4 z ?_]
  have hz' : z.1 ≤ p.1 := by
    rw [take_succ_of_getElem? hk] at hz
    rcases List.mem_append.1 hz with hz | hz
    · obtain ⟨j, hj⟩ := List.getElem?_of_mem hz
      have hjk : j < k := by
        by_contra hc
        rw [List.getElem?_eq_none (by simp; omega)] at hj
        cases hj
      rw [List.getElem?_take_of_lt hjk] at hj
      exact (hasc.lt hj hk hjk).le
    · simp at hz; rw [hz]
  have hzm : z ∈ seen1 ++ todo1 := by
    rw [← e5.pts, e7]
    exact List.mem_of_mem_take hz
  rcases List.mem_append.1 hzm with hz1 | hz1
  · exact hz1
  · exact absurd ((List.pairwise_append.1 e5.asc).2.2 q hq1 z hz1) (not_lt.2 (hz'.trans hq2))

/-! ## Examples -/

def primedBy (src init : List (Pt ℚ)) (m : ℚ) : EmaInit := EmaInit.new (loose src) (loose init) m true

/-- The answers to a list of queries. -/
def primedAnswers (alpha period : Option ℚ) : EmaInit → List ℚ → List (Except Err (Option ℚ)) × EmaInit
  | E, [] => ([], E)
  | E, x :: xs =>
    match E.query alpha period (.fin x) with
    | none => ([], E)
    | some (E', r) => (r :: (primedAnswers alpha period E' xs).1, (primedAnswers alpha period E' xs).2)

def risePts : List (Pt ℚ) := [(0, some 4), (1, some 8), (2, some 12)]

def startPts : List (Pt ℚ) := [(0, some 10), (1, some 20), (2, some 30)]

theorem primedBy_primed : Primed (some (1 / 2)) none 1 true [valuesOf (loose startPts)] (primedBy risePts startPts 1) := by
  have h : (loose risePts).points = risePts := by decide +kernel
  refine .new (loose_honest (by norm_num [Ascending, risePts]) ⟨1, by norm_num [risePts]⟩ (by decide +kernel)) ?_
    (loose_honest (by norm_num [Ascending, startPts]) ⟨1, by norm_num [startPts]⟩ (by decide +kernel))
  rw [h]
  exact allFit_of_spaced (by norm_num [Gapped, risePts]) ⟨1, by norm_num [risePts]⟩ _ (List.suffix_refl _)

/-- Begun at the other curve, half of the way each time. -/
example : (primedAnswers (some (1 / 2)) none (primedBy risePts startPts 1) [0, 1, 2]).1 =
    [.ok (some 10), .ok (some 9), .ok (some (21 / 2))] ∧
    stepFold (emaStep (fun _ _ => 1 / 2) (some (valuesOf (loose startPts)))) none none risePts = some (21 / 2) := by
  refine ⟨?_, ?_⟩ <;> decide +kernel

example : ((primedBy risePts startPts 1).query (some (1 / 2)) none (.fin 2)).map Prod.snd = some (.ok (some (21 / 2))) :=
  (C168_answer_partial (by norm_num) (.alpha _) primedBy_primed (fun f hf p _ => by rw [List.mem_singleton.1 hf]; rfl)
    (k := 2) (p := (2, some 12)) (by decide +kernel)).trans (by decide +kernel)

/-- With a period of four. -/
example : (primedAnswers none (some 4) (primedBy risePts startPts 1) [2, 0, 1]).1 =
    [.ok (some (81 / 8)), .ok (some 10), .ok (some (19 / 2))] := by decide +kernel

/-- C168: the other curve is 100 everywhere, and the average still begins at 10; a new average would begin at 100, and so does this one
as soon as the source is edited at its first point. -/
theorem C168_negation : ∃ E : EmaInit, (∃ H, Primed (some (1 / 2)) none 1 true H E) ∧ E.ema.src.points = risePts ∧
    valuesOf E.init 0 = some 100 ∧ (E.query (some (1 / 2)) none (.fin 0)).map Prod.snd = some (.ok (some 10)) ∧
    ((EmaInit.new E.ema.src E.init 1).query (some (1 / 2)) none (.fin 0)).map Prod.snd = some (.ok (some 100)) ∧
    ((E.edit (.replace (0, some 5) false) quiet).query (some (1 / 2)) none (.fin 0)).map Prod.snd = some (.ok (some 100)) := by
  have hq : ∃ E' v, (primedBy risePts startPts 1).query (some (1 / 2)) none (.fin 0) = some (E', v) :=
    let ⟨E', v, h, _⟩ := C168_quiet (by norm_num) (.alpha _) primedBy_primed (.fin 0)
    ⟨E', _, h⟩
  obtain ⟨E', v, hq⟩ := hq
  have hE : E' = (((primedBy risePts startPts 1).query (some (1 / 2)) none (.fin 0)).map Prod.fst).getD (primedBy risePts startPts 1) := by
    rw [hq]; rfl
  refine ⟨E'.editInit (.set [(0, some 100), (1, some 100), (2, some 100)]) quiet, ⟨_, .editInit (.query primedBy_primed hq) ?_ ?_ ?_⟩,
    ?_, ?_, ?_, ?_, ?_⟩
  · norm_num [Op.Legal, Ascending]
  · rw [hE]; decide +kernel
  · rw [hE]
    intro _
    rw [show ((Op.set [(0, some 100), (1, some 100), (2, some 100)]).run _ quiet).st.points =
      [(0, some (100 : ℚ)), (1, some 100), (2, some 100)] from by decide +kernel]
    exact ⟨1, by norm_num⟩
  all_goals (rw [hE]; decide +kernel)

end Props
end Curvepy
