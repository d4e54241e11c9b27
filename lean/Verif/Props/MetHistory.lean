import Verif.Lemmas.MetScan
import Verif.Props.MetKnots
import Verif.Props.Averages

/-!
# Property C140: accumulators over points at any distances, after any history
-/

namespace Curvepy
namespace Props
open Spec Pts Accum

variable {t : Tfm} {g : Rule} {m : ℚ} {i : Interp} {u : Bool} {A : Accum}

theorem Walked.treading (hf : FollowsMet m t g) (hm : 0 < m) (h : Walked t m i u A) :
    ∃ seen todo, Treading g m i u A seen todo := by
  induction h with
  | new hs hfit => exact ⟨_, _, Treading.new hs hfit⟩
  | query _ ho ih =>
    obtain ⟨_, _, ih⟩ := ih
    obtain ⟨o', h1, _, _, h2⟩ := ih.query (hf.isIn _) hm _
    rw [ho] at h1
    cases h1
    exact h2
  | edit _ hl he ht hfit ih =>
    obtain ⟨_, _, ih⟩ := ih
    obtain ⟨_, _, s, t, h, _⟩ := ih.edit hl _ he ht hfit
    exact ⟨s, t, h⟩
  | read _ ih =>
    obtain ⟨_, _, ih⟩ := ih
    exact ⟨_, _, ih.touch⟩
  | readSource _ ih =>
    obtain ⟨_, _, ih⟩ := ih
    exact ⟨_, _, ih.touchSrc⟩

theorem met_asc {pts : List (Pt ℚ)} (h : Ascending pts) : Ascending (met m pts) :=
  List.Pairwise.sublist (met_sublist m _) h

/-- C140: transforms that only look at their arguments follow a rule. -/
theorem C140_plain (f : ℚ → Option ℚ → Option ℚ → Except Err (Option ℚ)) :
    FollowsMet m (plainTfm f) (plainRule f) := by
  intro src acc seen rest p _ _ _ _
  simp [plainTfm, plainRule]

/-- C140: so does the moving average with a fraction. -/
theorem C140_ema_rule (a : ℚ) (init : Option (ℚ → Option ℚ)) (n : ℚ) :
    FollowsMet m (emaTfm (some a) none init n) (stepRule (emaStep (fun _ _ => a) init)) := by
  intro src acc seen rest p _ _ hs hx
  simp only [stepRule, List.getLast?_append, List.getLast?_singleton, Option.some_or,
    List.dropLast_concat, emaTfm, emaStep]
  cases hy : p.2 with
  | none => rfl
  | some y =>
    cases he : lastOut acc.points with
    | none => cases init <;> rfl
    | some e =>
      obtain ⟨q, hq⟩ := lastOut_none hx he
      simp [hq]

/-- C140: and the integral. -/
theorem C140_integral_rule (hm : minStepQ ≤ m) (mode : Interp) :
    FollowsMet m (integralTfm mode) (stepRule (areaStep mode)) := by
  intro src acc seen rest p h1 h2 hs hx
  refine integral_step hm mode (fun q hq => C01_stored_value h1 ((met_sublist m _).subset (by rw [hs]; simp [hq]))) h2 hx ?_
  have hg := met_gapped m src.points
  rw [hs] at hg
  exact List.IsChain.prefix hg ⟨rest, by simp⟩

/-- C140: what an accumulator answers, after any history of queries and edits, is the fold over the points that are
met now in its source, interpolated. -/
theorem C140_fold_partial (hf : FollowsMet m t g) (hm : 0 < m) (h : Walked t m i u A) (x : Ext) :
    ∃ o, A.query t x = some o ∧ o.res = walkedAt g i m A.src.points x ∧ o.st.src.points = A.src.points := by
  obtain ⟨_, _, hs⟩ := Walked.treading hf hm h
  obtain ⟨o, h1, h2, h3, _⟩ := hs.query (hf.isIn _) hm x
  exact ⟨o, h1, h3, h2⟩

/-- C140: two accumulators over sources in which the same points are met, and with the same domain, answer the same. -/
theorem C140_same_partial (hf : FollowsMet m t g) (hm : 0 < m) (hA : Walked t m i u A) {B : Accum}
    (hB : Walked t m i u B) (hp : met m A.src.points = met m B.src.points) (hd : span A.src.points = span B.src.points)
    (x : Ext) : (A.query t x).map Out.res = (B.query t x).map Out.res := by
  obtain ⟨a, h1, h2, _⟩ := C140_fold_partial hf hm hA x
  obtain ⟨b, h3, h4, _⟩ := C140_fold_partial hf hm hB x
  rw [h1, h3, Option.map_some, Option.map_some, h2, h4]
  unfold walkedAt
  rw [hp, hd]

/-- C140: an edit of the source never makes an accumulator raise, and ends as if there were no accumulator. -/
theorem C140_edit_partial (hf : FollowsMet m t g) (hm : 0 < m) (h : Walked t m i u A) {op : Op ℚ}
    (hl : op.Legal) (r : Reads) (he : lateError (op.run A.src r).err = false)
    (ht : Truthful (op.run A.src r).st) (hfit : Paced m u (op.run A.src r).st.points) :
    (A.edit op r).2 = none ∧ (A.edit op r).1.src = (op.run A.src r).st := by
  obtain ⟨_, _, hs⟩ := Walked.treading hf hm h
  exact ⟨(hs.edit hl r he ht hfit).1, (hs.edit hl r he ht hfit).2.1⟩

/-- C140: if all points are at least a step apart, that is the fold over the points (C46). -/
theorem C140_apart {pts : List (Pt ℚ)} (hg : Gapped m pts) (x : Ext) :
    walkedAt g i m pts x = accumulatedAt g i pts x := by
  cases x with
  | fin q =>
    simp only [walkedAt, accumulatedIn, accumulatedAt, met_all hg]
    rfl
  | ninf => rfl
  | pinf => rfl

/-- At a point met. -/
theorem walkedAt_met {pts : List (Pt ℚ)} (hasc : Ascending pts) {k : ℕ} {p : Pt ℚ}
    (hk : (met m pts)[k]? = some p) :
    walkedAt g i m pts (.fin p.1) = accumulatedAt g i (met m pts) (.fin p.1) := by
  have hp := List.mem_of_getElem? hk
  have h1 : (span pts).contains (.fin p.1) = true := by
    rw [← getDomain_eq_span]; exact getDomain_contains_mem hasc ((met_sublist m _).subset hp)
  have h2 : (span (met m pts)).contains (.fin p.1) = true := by
    rw [← getDomain_eq_span]; exact getDomain_contains_mem (met_asc hasc) hp
  simp only [walkedAt, accumulatedIn, accumulatedAt, h1, h2, if_true]
  rfl

/-- C140: a moving average with a fraction, at a point met, is the recurrence over the points met up to it. -/
theorem C140_ema_partial (hm : 0 < m) (a : ℚ) (init : Option (ℚ → Option ℚ))
    (h : Walked (emaTfm (some a) none init m) m i u A) {k : ℕ} {p : Pt ℚ} (hk : (met m A.src.points)[k]? = some p) :
    (A.query (emaTfm (some a) none init m) (.fin p.1)).map Out.res =
      some (.ok (stepFold (emaStep (fun _ _ => a) init) none none ((met m A.src.points).take (k + 1)))) := by
  have hf := C140_ema_rule (m := m) a init m
  obtain ⟨_, _, hs⟩ := Walked.treading hf hm h
  obtain ⟨o, h1, h2, _⟩ := C140_fold_partial hf hm h (.fin p.1)
  rw [h1, Option.map_some, h2, walkedAt_met hs.src.wf.asc hk, accumulatedAt_step _ i (met_asc hs.src.wf.asc) hk]

/-- C140: the integral, at a point met, is the constant plus the area below the curve through the points met. -/
theorem C140_integral_partial (hm : minStepQ ≤ m) (mode : Interp) (const : ℚ)
    (h : Walked (integralTfm mode) m i u A) {l : List (ℚ × ℚ)} (hl : met m A.src.points = defined l) {k : ℕ}
    {p : ℚ × ℚ} (hk : l[k]? = some p) :
    (integralQuery mode const A (.fin p.1)).map Out.res =
      some (.ok (some (totalArea mode (l.take (k + 1)) + const))) := by
  have h0 : (0 : ℚ) < minStepQ := by norm_num [minStepQ]
  have hf := C140_integral_rule hm mode
  have hk' : (met m A.src.points)[k]? = some (p.1, some p.2) := by simp [hl, defined, hk]
  obtain ⟨_, _, hs⟩ := Walked.treading hf (h0.trans_le hm) h
  obtain ⟨o, h1, h2, _⟩ := C140_fold_partial hf (h0.trans_le hm) h (.fin p.1)
  have e1 := walkedAt_met (g := stepRule (areaStep mode)) (i := i) hs.src.wf.asc hk'
  simp only at e1
  simp only [integralQuery, h1, Option.map_some, h2, e1]
  have e2 := accumulatedAt_step (areaStep mode) i (met_asc hs.src.wf.asc) hk'
  simp only at e2
  rw [e2, hl]
  have : (defined l).take (k + 1) = defined (l.take (k + 1)) := by simp [defined, List.map_take]
  rw [this, stepFold_area mode _ (by
    intro h0; rw [take_succ_of_getElem? hk] at h0; simp at h0)]
  rfl

/-- C140: after the last point met there is no value. -/
theorem C140_after_partial (hf : FollowsMet m t g) (hm : 0 < m) (h : Walked t m i u A) {x : ℚ} {out : List (Pt ℚ)}
    (hx : ∀ p ∈ met m A.src.points, p.1 < x) (hr : runRule g [] [] (met m A.src.points) = (out, none)) :
    (A.query t (.fin x)).map Out.res = some (.ok none) := by
  obtain ⟨o, h1, h2, _⟩ := C140_fold_partial hf hm h (.fin x)
  rw [h1, Option.map_some, h2]
  exact congrArg some (C139_after hx hr)

/-! ### Concrete cases -/

/-- Points of which two pairs are closer than a step. -/
def nearPts : List (Pt ℚ) := [(0, some 0), (1/10, some 10), (1, some 4), (2, some 8), (21/10, some 100)]

theorem near_honest : Honest (loose nearPts) :=
  loose_irregular (by norm_num [Ascending, nearPts]) (by decide +kernel) (by decide +kernel)

theorem near_met : met (1/2) (loose nearPts).points = [(0, some 0), (1, some 4), (2, some 8)] := by decide +kernel

theorem near_paced (u : Bool) : Paced (1/2) u (loose nearPts).points := by
  have he : EquallySpaced (met (1/2) (loose nearPts).points) := by
    rw [near_met]; exact ⟨1, by norm_num⟩
  exact ⟨fun _ _ _ _ hp _ => EquallySpaced.prefix hp he, fun _ => he⟩

/-- The point at `21/10` is passed over; after another one is added, that counts. -/
example :
    let t := emaTfm (some (1/2)) none none (1/2)
    let A := Accum.new (loose nearPts) (1/2) .linear true
    let op : Op ℚ := .append (3, some 1)
    Walked t (1/2) .linear true A ∧
    answerAfter t A [] (.fin 2) = some (.ok (some 5)) ∧
    answerAfter t A [] (.fin (21/10)) = some (.ok none) ∧
    ((queries t A [.fin (21/10)]).bind fun r => answerAfter t (r.1.edit op quiet).1 [] (.fin (21/10))) =
      some (.ok (some (24/5))) ∧
    met (1/2) (op.run (loose nearPts) quiet).st.points = [(0, some 0), (1, some 4), (2, some 8), (3, some 1)] :=
  ⟨.new near_honest (near_paced true), by decide +kernel, by decide +kernel, by decide +kernel, by decide +kernel⟩
example : (integralQuery .linear 7 (Accum.new (loose nearPts) (1/2) .linear true) (.fin 2)).map Out.res =
    some (.ok (some 15)) ∧ totalArea .linear [(0, 0), (1, 4), (2, 8)] = 8 :=
  ⟨by decide +kernel, by decide +kernel⟩

/-- C140 does not hold for a moving average with a period: it passes over the same points, but measures the gap from the
point before, which it passed over. -/
theorem C140_negation : Honest (loose nearPts) ∧
    answerAfter (emaTfm none (some 1) none (1/2)) (Accum.new (loose nearPts) (1/2) .linear true) [] (.fin 1) =
      some (.ok (some (18/5))) ∧
    stepFold (emaStep (fun x0 x => (x - x0) / |1|) none) none none [(0, some 0), (1, some 4)] = some 4 :=
  ⟨near_honest, by decide +kernel, by decide +kernel⟩

/-! ## Further examples -/

theorem near_walked (t : Tfm) : Walked t (1 / 2) .linear true (Accum.new (loose nearPts) (1 / 2) .linear true) :=
  .new near_honest (near_paced true)

/-- C140: the average at the second point that is met, and the integral there; nothing after the last one met. -/
example : ((Accum.new (loose nearPts) (1 / 2) .linear true).query (emaTfm (some (1 / 2)) none none (1 / 2)) (.fin 1)).map Out.res =
      some (.ok (some 2)) ∧
    (integralQuery .linear 7 (Accum.new (loose nearPts) (1 / 2) .linear true) (.fin 1)).map Out.res = some (.ok (some 9)) := by
  constructor
  · refine (C140_ema_partial (k := 1) (p := (1, some 4)) (by norm_num) (1 / 2) none (near_walked _) ?_).trans ?_
    · show (met (1/2) (loose nearPts).points)[1]? = _
      rw [near_met]; rfl
    · show some (Except.ok (stepFold _ none none ((met (1/2) (loose nearPts).points).take 2))) = _
      rw [near_met]; decide +kernel
  · refine (C140_integral_partial (l := [(0, 0), (1, 4), (2, 8)]) (k := 1) (p := (1, 4)) (by norm_num [minStepQ]) .linear 7 (near_walked _) near_met rfl).trans ?_
    norm_num [totalArea, areaBetween]

example : ((Accum.new (loose nearPts) (1 / 2) .linear true).query (integralTfm .linear) (.fin (21 / 10))).map Out.res = some (.ok none) := by
  decide +kernel
/-! ## More instances -/

example (x : Ext) : ∃ o, (Accum.new (loose nearPts) (1/2) .linear true).query (emaTfm (some (1/2)) none none 3) x = some o ∧
    o.res = walkedAt (stepRule (emaStep (fun _ _ => 1/2) none)) .linear (1/2) (loose nearPts).points x ∧ o.st.src.points = (loose nearPts).points :=
  C140_fold_partial (C140_ema_rule (1/2) none 3) (by norm_num) (near_walked _) x

/-- Reading first at `1` leaves the answers as they were. -/
example (x : Ext) {o : Out (Option ℚ)}
    (ho : (Accum.new (loose nearPts) (1/2) .linear true).query (integralTfm .linear) (.fin 1) = some o)
    (hw : Walked (integralTfm .linear) (1/2) .linear true o.st) (hp : o.st.src.points = (loose nearPts).points) :
    (o.st.query (integralTfm .linear) x).map Out.res =
      ((Accum.new (loose nearPts) (1/2) .linear true).query (integralTfm .linear) x).map Out.res :=
  C140_same_partial (C140_integral_rule (by norm_num [minStepQ]) .linear) (by norm_num) hw (near_walked _)
    (by rw [hp]; rfl) (by rw [hp]; rfl) x

example (f : ℚ → Option ℚ → Option ℚ → Except Err (Option ℚ)) (x : Ext) :
    ∃ o, (Accum.new (loose nearPts) (1/2) .linear true).query (plainTfm f) x = some o ∧
      o.res = walkedAt (plainRule f) .linear (1/2) (loose nearPts).points x ∧ o.st.src.points = (loose nearPts).points :=
  C140_fold_partial (C140_plain f) (by norm_num) (near_walked _) x

end Props
end Curvepy
