import Verif.Spec.Forecast
import Verif.Props.TrendPrediction

/-!
# Property C143: the course of a prediction
-/

namespace Curvepy
namespace Props
open Spec Trend View

/-- The target that belongs to a crossing and an extremum. -/
structure Aims (t : TLine) (o i x : XY) (d : Pred) : Prop where
  extrema : d.extrema = some x
  line : d.confirmation = some (o, x)
  y : d.y = some (i.2 + (x.2 - i.2) * t.gold ^ 2)
  yMin : d.yMin = some (t.tolMin (i.2 + (x.2 - i.2) * t.gold ^ 2))
  yMax : d.yMax = some (t.tolMax (i.2 + (x.2 - i.2) * t.gold ^ 2))
  xMin : d.xMin = some x.1
  xMax : d.xMax = some (targetLimit t o x)
  valid : d.valid = decide (0 < i.2 + (x.2 - i.2) * t.gold ^ 2)

/-- The attributes of a prediction that stands like this. -/
inductive StandsAs (t : TLine) (o : XY) (d : Pred) : View → Prop where
  | waiting (n : ℕ) (ho : d.origin = some o) (hf : d.failed = false) (hs : d.succeeded = false) (hp : d.phase = .none)
      (ht : d.tangents = n) (hl : d.lastExtrema = none) (hv : d.valid = false) : StandsAs t o d (.waiting n)
  | crossed (i : XY) (last : Option XY) (ho : d.origin = some o) (hf : d.failed = false) (hs : d.succeeded = false)
      (hp : d.phase = .intersected) (hi : d.intersection = some i) (hx : d.retestXMax = some (retestLimit t o i))
      (hl : d.lastExtrema = last) (ha : ∀ x, last = some x → Aims t o i x d) : StandsAs t o d (.crossed i last)
  | retested (i x r last : XY) (b : Bool) (ho : d.origin = some o) (hf : d.failed = false) (hs : d.succeeded = false)
      (hp : d.phase = if b then .confirmed else .retested) (hi : d.intersection = some i)
      (hx : d.retestXMax = some (retestLimit t o i)) (hr : d.retest = some r) (hl : d.lastExtrema = some last)
      (ha : Aims t o i x d) : StandsAs t o d (.retested i x r last b)
  | failed (hf : d.failed = true) (hs : d.succeeded = false) : StandsAs t o d .failed
  | succeeded (p : XY) (hf : d.failed = false) (hs : d.succeeded = true) (hp : d.phase = .fulfilled)
      (hq : d.successPoint = some p) : StandsAs t o d (.succeeded p)

variable {t : TLine} {o : XY} {d u : Pred} {v : View} {m : Mark}

theorem lineY_onward {x : XY} {z y : ℚ} (h : lineY (o, x) z = some y) : y = onward o x z := by
  unfold lineY at h
  unfold onward
  simp only at h
  split_ifs at h with h1 h2
  · cases h; rw [h2]; simp
  · cases h; rfl

theorem stands_decided (h : StandsAs t o d v) : v.decided = (d.succeeded || d.failed) := by
  cases h <;> simp [decided, *]

theorem stands_step (h : StandsAs t o d v) (hf : d.failed = false) (hs : d.succeeded = false) (e : t.predAt d m = .ok u) :
    StandsAs t o u (see t o v m) := by
  unfold TLine.predAt at e
  cases h with
  | failed hf' => rw [hf] at hf'; cases hf'
  | succeeded p _ hs' => rw [hs] at hs'; cases hs'
  | waiting n ho hf hs hp ht hl hv =>
    rw [if_pos hp] at e
    unfold TLine.seeBefore at e
    unfold see
    cases hk : m.kind with
    | tangent =>
      rw [hk] at e
      cases e
      exact .waiting _ ho hf hs hp (by simp [ht]) hl hv
    | extrema =>
      rw [hk] at e
      cases e
      exact .waiting _ ho hf hs hp ht hl hv
    | intersection =>
      rw [hk] at e
      simp only at e ⊢
      rw [ht] at e
      by_cases h1 : n < t.minPoints
      · rw [if_pos h1] at e ⊢
        cases e
        exact .failed rfl hs
      · rw [if_neg h1] at e ⊢
        rw [ho] at e
        obtain ⟨o', e0, e⟩ := bind_inv e
        cases e0
        by_cases h2 : t.gold = 0
        · rw [if_pos h2] at e; cases e
        · rw [if_neg h2] at e
          cases e
          exact .crossed _ _ rfl hf hs rfl rfl rfl hl (by simp)
  | crossed i last ho hf hs hp hi hx hl ha =>
    rw [if_neg (by rw [hp]; simp)] at e
    unfold see
    cases hk : m.kind with
    | intersection =>
      rw [hk] at e
      cases e
      exact .failed rfl hs
    | extrema =>
      rw [hk] at e
      simp only [TLine.seeExtrema] at e
      rw [if_pos hp] at e
      obtain ⟨r, e1, e⟩ := bind_inv e
      rcases target_inv e1 hi ho with ⟨h1, _⟩ | ⟨x, h1, h2, h3⟩
      · cases h1
      · cases h1
        rw [if_pos h2] at e
        have := pure_inv e
        subst this
        rw [h3]
        refine .crossed _ _ ho hf hs hp hi hx rfl ?_
        intro x hx
        cases hx
        constructor <;> simp [predictedY, sq, targetLimit]
    | tangent =>
      rw [hk] at e
      simp only [TLine.seeTangent, hx, need, bind, Except.bind] at e ⊢
      split_ifs at e ⊢ with h1
      · have := pure_inv e
        subst this
        exact .failed rfl hs
      · split at e
        · cases e
        · rename_i r e1
          rcases target_inv e1 hi ho with ⟨h3, h4⟩ | ⟨x, h3, h4, h5⟩
          · rw [hl] at h3
            subst h3
            rw [h4] at e
            simp only [Bool.false_eq_true, if_false] at e
            have := pure_inv e
            subst this
            exact .failed rfl hs
          · rw [hl] at h3
            subst h3
            rw [if_pos h4] at e
            have := pure_inv e
            subst this
            rw [h5]
            refine .retested _ _ _ _ _ ho hf hs (by simp) hi hx rfl hl ?_
            constructor <;> simp [predictedY, sq, targetLimit]
  | retested i x r last b ho hf hs hp hi hx hr hl ha =>
    rw [if_neg (by rw [hp]; cases b <;> simp)] at e
    unfold see
    cases hk : m.kind with
    | intersection =>
      rw [hk] at e
      cases e
      exact .failed rfl hs
    | tangent =>
      rw [hk] at e
      simp only [TLine.seeTangent, hx, need, bind, Except.bind] at e ⊢
      split_ifs at e ⊢ with h1
      · have := pure_inv e
        subst this
        exact .failed rfl hs
      · split at e
        · cases e
        · rename_i r' e1
          rcases target_inv e1 hi ho with ⟨h3, h4⟩ | ⟨z, h3, h4, h5⟩
          · rw [hl] at h3
            cases h3
          · rw [hl] at h3
            cases h3
            rw [if_pos h4] at e
            have := pure_inv e
            subst this
            rw [h5]
            refine .retested _ _ _ _ _ ho hf hs (by simp) hi hx rfl hl ?_
            constructor <;> simp [predictedY, sq, targetLimit]
    | extrema =>
      rw [hk] at e
      simp only [TLine.seeExtrema] at e
      rw [if_neg (by rw [hp]; cases b <;> simp)] at e
      obtain ⟨w, e1, e2⟩ := bind_inv e
      -- confirmation
      have hw : w = { d with lastExtrema := some m.pt, phase := if b || isBeyond t o x m.pt then .confirmed else .retested } := by
        unfold TLine.confirm at e1
        simp only at e1
        cases b with
        | true =>
          simp only [if_true] at hp
          rw [if_neg (by rw [hp]; simp)] at e1
          have := pure_inv e1
          subst this
          simp [hp]
        | false =>
          simp only [Bool.false_eq_true, if_false] at hp
          rw [if_pos hp, ha.line] at e1
          obtain ⟨c, e3, e1⟩ := bind_inv e1
          cases e3
          obtain ⟨y, e3, e1⟩ := bind_inv e1
          have hy : y = onward o x m.pt.1 := by
            cases hc : lineY (o, x) m.pt.1 with
            | none => rw [hc] at e3; cases e3
            | some y' => rw [hc] at e3; cases e3; exact lineY_onward hc
          subst hy
          simp only [Bool.false_or, isBeyond]
          cases hu : t.upper
          · simp only [hu, Bool.false_and, Bool.not_false, Bool.true_and, Bool.false_or, Bool.false_eq_true, if_false] at e1 ⊢
            split_ifs at e1 with h1
            · have := pure_inv e1
              subst this
              simp only [decide_eq_true_eq] at h1
              simp [h1, ha.line]
            · have := pure_inv e1
              subst this
              simp only [decide_eq_true_eq] at h1
              simp [h1, hp, ha.line]
          · simp only [hu, Bool.true_and, Bool.not_true, Bool.false_and, Bool.or_false, if_true] at e1 ⊢
            split_ifs at e1 with h1
            · have := pure_inv e1
              subst this
              simp only [decide_eq_true_eq, ge_iff_le] at h1
              simp [h1, ha.line]
            · have := pure_inv e1
              subst this
              simp only [decide_eq_true_eq, ge_iff_le] at h1
              simp [h1, hp, ha.line]
      subst hw
      unfold TLine.fulfil at e2
      simp only at e2 ⊢
      cases hb : (b || isBeyond t o x m.pt)
      · simp only [hb, Bool.false_eq_true, if_false, reduceCtorEq] at e2 ⊢
        have := pure_inv e2
        subst this
        exact .retested _ _ _ _ _ ho hf hs (by simp) hi hx hr rfl ⟨ha.1, ha.2, ha.3, ha.4, ha.5, ha.6, ha.7, ha.8⟩
      · simp only [hb, if_true, ha.yMin, ha.yMax, ha.xMax, need, bind, Except.bind] at e2 ⊢
        have hre : (t.upper && decide (m.pt.2 ≥ t.tolMin (i.2 + (x.2 - i.2) * t.gold ^ 2)) ||
            !t.upper && decide (m.pt.2 ≤ t.tolMax (i.2 + (x.2 - i.2) * t.gold ^ 2))) = isReached t i x m.pt := by
          unfold isReached
          cases t.upper <;> simp
        rw [hre] at e2
        cases hq : isReached t i x m.pt
        · rw [hq] at e2
          simp only [Bool.false_eq_true, if_false] at e2 ⊢
          split_ifs at e2 ⊢ with h1
          · have := pure_inv e2
            subst this
            exact .failed rfl hs
          · have := pure_inv e2
            subst this
            exact .retested _ _ _ _ _ ho hf hs (by simp) hi hx hr rfl ⟨ha.1, ha.2, ha.3, rfl, rfl, ha.6, rfl, ha.8⟩
        · rw [hq] at e2
          simp only [if_true] at e2 ⊢
          have := pure_inv e2
          subst this
          exact .succeeded _ hf rfl rfl rfl

theorem see_decided (h : v.decided = true) (m : Mark) : see t o v m = v := by
  cases v <;> first | rfl | cases h

theorem foldl_decided (h : v.decided = true) (ms : List Mark) : ms.foldl (see t o) v = v := by
  induction ms with
  | nil => rfl
  | cons m ms ih => rw [List.foldl_cons, see_decided h, ih]

theorem target_processed {r : Pred × Bool} (e : t.target d = .ok r) : r.1.xProcessed = d.xProcessed := by
  unfold TLine.target at e
  split at e
  · cases e
  · split at e
    · cases e; rfl
    · obtain ⟨o, _, e⟩ := bind_inv e
      have := pure_inv e
      subst this
      rfl

theorem predAt_processed (e : t.predAt d m = .ok u) : u.xProcessed = d.xProcessed := by
  unfold TLine.predAt at e
  split_ifs at e
  · unfold TLine.seeBefore at e
    split at e
    · cases e; rfl
    · cases e; rfl
    · by_cases h1 : d.tangents < t.minPoints
      · rw [if_pos h1] at e; cases e; rfl
      · rw [if_neg h1] at e
        obtain ⟨o, _, e⟩ := bind_inv e
        by_cases h2 : t.gold = 0
        · rw [if_pos h2] at e; cases e
        · rw [if_neg h2] at e; cases e; rfl
  · split at e
    · unfold TLine.seeExtrema at e
      simp only at e
      split_ifs at e
      · obtain ⟨r, e1, e⟩ := bind_inv e
        have := target_processed e1
        split_ifs at e <;> have h := pure_inv e <;> subst h <;> exact this
      · obtain ⟨w, e1, e⟩ := bind_inv e
        have h1 : w.xProcessed = d.xProcessed := by
          unfold TLine.confirm at e1
          split_ifs at e1
          · obtain ⟨c, _, e1⟩ := bind_inv e1
            obtain ⟨y, _, e1⟩ := bind_inv e1
            split_ifs at e1 <;> have h := pure_inv e1 <;> subst h <;> rfl
          · have h := pure_inv e1
            subst h; rfl
        rw [← h1]
        unfold TLine.fulfil at e
        split_ifs at e
        · obtain ⟨lo, _, e⟩ := bind_inv e
          obtain ⟨hi, _, e⟩ := bind_inv e
          split_ifs at e
          · have h := pure_inv e
            subst h; rfl
          · obtain ⟨xm, _, e⟩ := bind_inv e
            split_ifs at e <;> have h := pure_inv e <;> subst h <;> rfl
        · have h := pure_inv e
          subst h; rfl
    · unfold TLine.seeTangent at e
      obtain ⟨xm, _, e⟩ := bind_inv e
      split_ifs at e
      · have h := pure_inv e
        subst h; rfl
      · obtain ⟨r, e1, e⟩ := bind_inv e
        have := target_processed e1
        split_ifs at e <;> have h := pure_inv e <;> subst h <;> exact this
    · cases e; rfl

theorem predLoop_cons (t : TLine) (d : Pred) (m : Mark) (ms : List Mark) : t.predLoop (m :: ms) d =
    if !(d.xProcessed.all fun x => decide (x ≤ m.pt.1)) then t.predLoop ms d
    else if d.succeeded || d.failed then .ok d
    else (t.predAt d m >>= fun d => t.predLoop ms d) := by
  rw [TLine.predLoop]
  cases d.xProcessed with
  | none => rfl
  | some x =>
    simp only [Option.all_some]
    congr 1
    rw [← decide_not]
    simp

theorem stands_loop {ms : List Mark} (h : StandsAs t o d v) (e : t.predLoop ms d = .ok u) :
    StandsAs t o u ((ms.filter fun m => d.xProcessed.all fun x => decide (x ≤ m.pt.1)).foldl (see t o) v) ∧
    u.xProcessed = d.xProcessed := by
  induction ms generalizing d v with
  | nil => cases e; exact ⟨h, rfl⟩
  | cons m ms ih =>
    rw [predLoop_cons] at e
    cases hc : d.xProcessed.all fun x => decide (x ≤ m.pt.1)
    · rw [hc] at e
      simp only [Bool.not_false, if_true] at e
      rw [List.filter_cons_of_neg (by simp [hc])]
      exact ih h e
    · rw [hc] at e
      simp only [Bool.not_true, Bool.false_eq_true, if_false] at e
      split_ifs at e with h1
      · cases e
        rw [foldl_decided (by rw [stands_decided h, h1])]
        exact ⟨h, rfl⟩
      · rw [Bool.not_eq_true, Bool.or_eq_false_iff] at h1
        obtain ⟨w, e1, e⟩ := bind_inv e
        rw [List.filter_cons_of_pos (by simp [hc]), List.foldl_cons]
        have hw := predAt_processed e1
        have := ih (stands_step h h1.2 h1.1 e1) e
        rw [hw] at this
        exact this

theorem stands_late {z : ℚ} (h : StandsAs t o d v) (hf : d.failed = false) (hs : d.succeeded = false) (e : TLine.timeouts d z = .ok u) :
    StandsAs t o u (late t o z v) ∧ u.xProcessed = d.xProcessed := by
  unfold TLine.timeouts at e
  cases h with
  | failed hf' => rw [hf] at hf'; cases hf'
  | succeeded p _ hs' => rw [hs] at hs'; cases hs'
  | waiting n ho hf hs hp ht hl hv =>
    rw [if_neg (by rw [hp]; simp), if_neg (by rw [hp]; simp)] at e
    have := pure_inv e
    subst this
    exact ⟨.waiting n ho hf hs hp ht hl hv, rfl⟩
  | crossed i last ho hf hs hp hi hx hl ha =>
    rw [if_neg (by rw [hp]; simp), if_pos hp, hx] at e
    obtain ⟨xm, e0, e⟩ := bind_inv e
    cases e0
    have := pure_inv e
    subst this
    unfold late
    by_cases h1 : retestLimit t o i ≤ z
    · rw [if_pos h1]
      simp only
      rw [if_pos h1]
      exact ⟨.failed rfl hs, trivial⟩
    · rw [if_neg h1]
      simp only
      rw [if_neg h1]
      exact ⟨.crossed i last ho hf hs hp hi hx hl ha, trivial⟩
  | retested i x r last b ho hf hs hp hi hx hr hl ha =>
    rw [if_pos (by rw [hp]; cases b <;> simp), ha.xMax] at e
    obtain ⟨xm, e0, e⟩ := bind_inv e
    cases e0
    have := pure_inv e
    subst this
    unfold late
    by_cases h1 : targetLimit t o x ≤ z
    · rw [if_pos h1]
      simp only
      rw [if_pos h1]
      exact ⟨.failed rfl hs, trivial⟩
    · rw [if_neg h1]
      simp only
      rw [if_neg h1]
      exact ⟨.retested i x r last b ho hf hs hp hi hx hr hl ha, trivial⟩

theorem stands_mark {x : Option ℚ} (h : StandsAs t o d v) : StandsAs t o { d with xProcessed := x } v := by
  cases h with
  | failed hf hs => exact .failed hf hs
  | succeeded p hf hs hp hq => exact .succeeded p hf hs hp hq
  | waiting n ho hf hs hp ht hl hv => exact .waiting n ho hf hs hp ht hl hv
  | crossed i last ho hf hs hp hi hx hl ha =>
    exact .crossed i last ho hf hs hp hi hx hl fun x h => ⟨(ha x h).1, (ha x h).2, (ha x h).3, (ha x h).4, (ha x h).5, (ha x h).6, (ha x h).7, (ha x h).8⟩
  | retested i x r last b ho hf hs hp hi hx hr hl ha =>
    exact .retested i x r last b ho hf hs hp hi hx hr hl ⟨ha.1, ha.2, ha.3, ha.4, ha.5, ha.6, ha.7, ha.8⟩

/-- One call. -/
theorem stands_call {c : List Mark × List XY} (h : StandsAs t o d v) (e : t.predict d c.1 c.2 = .ok u) :
    StandsAs t o u (attend t o (v, d.xProcessed) c).1 ∧ u.xProcessed = (attend t o (v, d.xProcessed) c).2 := by
  unfold TLine.predict at e
  unfold attend
  cases hm : c.1.getLast? with
  | none =>
    rw [hm] at e
    cases e
    exact ⟨h, rfl⟩
  | some m =>
    rw [hm] at e
    simp only at e ⊢
    obtain ⟨w, e1, e⟩ := bind_inv e
    obtain ⟨h1, h2⟩ := stands_loop h e1
    have hd := stands_decided h1
    by_cases h3 : w.succeeded || w.failed
    · rw [if_pos (by rw [hd, h3])]
      rw [if_neg (by cases h4 : w.succeeded <;> cases h5 : w.failed <;> simp_all)] at e
      have := pure_inv e
      subst this
      exact ⟨h1, h2⟩
    · rw [if_neg (by rw [hd]; exact h3)]
      rw [Bool.not_eq_true, Bool.or_eq_false_iff] at h3
      rw [if_pos (by simp [h3.1, h3.2])] at e
      cases hu : c.2.getLast? with
      | none =>
        rw [hu] at e
        cases e
      | some p =>
        rw [hu] at e
        exact stands_late (d := { w with xProcessed := some m.pt.1 }) (stands_mark h1) h3.2 h3.1 e

/-- **C143** However the points of interest come in, and in as many calls as they come, a prediction takes the course that `View` tells: it waits for
a crossing after enough tangent points; after it, for a retest in time that has an extremum before it; then for an
extremum beyond the line to the last extremum, and one at the target in time.  It fails as soon as it is crossed too
early or again, or a retest is too late or has no extremum before it, or time is up; it fails in no other case. -/
theorem C143_course {calls : List (List Mark × List XY)} (h : predictions t { Pred.reset with origin := some o } calls = .ok d) :
    StandsAs t o d (calls.foldl (attend t o) (.waiting 0, none)).1 := by
  have key : ∀ (calls : List (List Mark × List XY)) (d u : Pred) (v : View), StandsAs t o d v → predictions t d calls = .ok u →
      StandsAs t o u (calls.foldl (attend t o) (v, d.xProcessed)).1 := by
    intro calls
    induction calls with
    | nil =>
      intro d u v h e
      cases e
      exact h
    | cons c cs ih =>
      intro d u v h e
      rw [predictions] at e
      obtain ⟨w, e1, e⟩ := bind_inv e
      obtain ⟨h1, h2⟩ := stands_call h e1
      have := ih w u _ h1 e
      rw [h2] at this
      exact this
  exact key calls _ d _ (.waiting 0 rfl rfl rfl rfl rfl rfl rfl) h

/-- **C143** So a prediction has failed or succeeded exactly if its course has. -/
theorem C143_outcome {calls : List (List Mark × List XY)} (h : predictions t { Pred.reset with origin := some o } calls = .ok d) :
    (d.failed = true ↔ (calls.foldl (attend t o) (.waiting 0, none)).1 = .failed) ∧
    ∀ p, (d.succeeded = true ∧ d.successPoint = some p) ↔ (calls.foldl (attend t o) (.waiting 0, none)).1 = .succeeded p := by
  have := C143_course h
  revert this
  generalize (calls.foldl (attend t o) (.waiting 0, none)).1 = v
  intro h
  cases h <;> simp_all

/-! ### No exceptions -/

/-- The extremas are after the origin. -/
def After (o : XY) : View → Prop
  | .crossed _ (some x) => o.1 < x.1
  | .retested _ x _ l _ => o.1 < x.1 ∧ o.1 < l.1
  | _ => True

theorem after_see (h : After o v) (hm : m.kind = .extrema → o.1 < m.pt.1) : After o (see t o v m) := by
  unfold see
  cases v with
  | waiting n =>
    cases hk : m.kind with
    | tangent => trivial
    | extrema => trivial
    | intersection => simp only; split_ifs <;> trivial
  | crossed i last =>
    cases hk : m.kind with
    | extrema => exact hm hk
    | intersection => trivial
    | tangent =>
      simp only
      split_ifs
      · trivial
      · cases last with
        | none => trivial
        | some x => exact ⟨h, h⟩
  | retested i x r last b =>
    cases hk : m.kind with
    | intersection => trivial
    | tangent =>
      simp only
      split_ifs
      · trivial
      · exact ⟨h.2, h.2⟩
    | extrema =>
      simp only
      split_ifs
      · trivial
      · trivial
      · exact ⟨h.1, hm hk⟩
      · exact ⟨h.1, hm hk⟩
  | failed => trivial
  | succeeded => trivial

theorem after_late {z : ℚ} (h : After o v) : After o (late t o z v) := by
  unfold late
  cases v with
  | waiting n => trivial
  | crossed i last => simp only; split_ifs <;> [trivial; exact h]
  | retested i x r last b => simp only; split_ifs <;> [trivial; exact h]
  | failed => trivial
  | succeeded => trivial

theorem predAt_ok (hg : t.gold ≠ 0) (h : StandsAs t o d v) (hv : After o v) (hf : d.failed = false) (hs : d.succeeded = false) :
    ∃ u, t.predAt d m = .ok u := by
  unfold TLine.predAt
  cases h with
  | failed hf' => rw [hf] at hf'; cases hf'
  | succeeded p _ hs' => rw [hs] at hs'; cases hs'
  | waiting n ho hf hs hp ht hl hv =>
    rw [if_pos hp]
    unfold TLine.seeBefore
    cases m.kind with
    | tangent => exact ⟨_, rfl⟩
    | extrema => exact ⟨_, rfl⟩
    | intersection =>
      simp only
      split_ifs
      · exact ⟨_, rfl⟩
      · rw [ho]; simp only [need, bind, Except.bind]
        exact ⟨_, rfl⟩
  | crossed i last ho hf hs hp hi hx hl ha =>
    rw [if_neg (by rw [hp]; simp)]
    cases m.kind with
    | intersection => exact ⟨_, rfl⟩
    | extrema =>
      simp only [TLine.seeExtrema, hp, if_true, TLine.target, hi, ho, need, bind, Except.bind, pure, Except.pure]
      exact ⟨_, rfl⟩
    | tangent =>
      simp only [TLine.seeTangent, hx, need, bind, Except.bind, TLine.target, hi, ho, pure, Except.pure]
      split_ifs
      · exact ⟨_, rfl⟩
      · cases d.lastExtrema with
        | none => exact ⟨_, rfl⟩
        | some x => exact ⟨_, rfl⟩
  | retested i x r last b ho hf hs hp hi hx hr hl' ha =>
    rw [if_neg (by rw [hp]; cases b <;> simp)]
    cases m.kind with
    | intersection => exact ⟨_, rfl⟩
    | tangent =>
      simp only [TLine.seeTangent, hx, need, bind, Except.bind, TLine.target, hi, ho, hl', pure, Except.pure]
      split_ifs
      · exact ⟨_, rfl⟩
      · exact ⟨_, rfl⟩
    | extrema =>
      have hxx : o.1 < x.1 := hv.1
      have hline : lineY (o, x) m.pt.1 = some (onward o x m.pt.1) := by
        unfold lineY
        rw [if_neg hxx.ne']
        rfl
      simp only [TLine.seeExtrema]
      rw [if_neg (by rw [hp]; cases b <;> simp)]
      have : ∃ w, t.confirm { d with lastExtrema := some m.pt } m.pt = .ok w ∧ w.yMin = d.yMin ∧ w.yMax = d.yMax ∧ w.xMax = d.xMax := by
        unfold TLine.confirm
        simp only [ha.line, hline, need, bind, Except.bind, pure, Except.pure]
        split_ifs
        · exact ⟨_, rfl, rfl, rfl, rfl⟩
        · exact ⟨_, rfl, rfl, rfl, rfl⟩
        · exact ⟨_, rfl, rfl, rfl, rfl⟩
      obtain ⟨w, e, e1, e2, e3⟩ := this
      rw [e]
      simp only [bind, Except.bind, TLine.fulfil, e1, e2, e3, ha.yMin, ha.yMax, ha.xMax, need, pure, Except.pure]
      split_ifs <;> exact ⟨_, rfl⟩

theorem predLoop_ok (hg : t.gold ≠ 0) {ms : List Mark} (hm : ∀ m ∈ ms, m.kind = .extrema → o.1 < m.pt.1) (h : StandsAs t o d v) (hv : After o v) :
    ∃ u w, t.predLoop ms d = .ok u ∧ StandsAs t o u w ∧ After o w := by
  induction ms generalizing d v with
  | nil => exact ⟨d, v, rfl, h, hv⟩
  | cons m ms ih =>
    rw [predLoop_cons]
    split_ifs with h1 h2
    · exact ih (fun m hm' => hm m (by simp [hm'])) h hv
    · exact ⟨d, v, rfl, h, hv⟩
    · rw [Bool.not_eq_true, Bool.or_eq_false_iff] at h2
      obtain ⟨u, e⟩ := predAt_ok (m := m) hg h hv h2.2 h2.1
      rw [e]
      exact ih (fun m hm' => hm m (by simp [hm'])) (stands_step h h2.2 h2.1 e) (after_see hv (hm m (by simp)))

theorem timeouts_ok (h : StandsAs t o d v) (hf : d.failed = false) (hs : d.succeeded = false) (z : ℚ) : ∃ u, TLine.timeouts d z = .ok u := by
  unfold TLine.timeouts
  cases h with
  | failed hf' => rw [hf] at hf'; cases hf'
  | succeeded p _ hs' => rw [hs] at hs'; cases hs'
  | waiting n ho hf hs hp ht hl hv =>
    rw [if_neg (by rw [hp]; simp), if_neg (by rw [hp]; simp)]
    exact ⟨_, rfl⟩
  | crossed i last ho hf hs hp hi hx hl ha =>
    rw [if_neg (by rw [hp]; simp), if_pos hp, hx]
    exact ⟨_, rfl⟩
  | retested i x r last b ho hf hs hp hi hx hr hl ha =>
    rw [if_pos (by rw [hp]; cases b <;> simp), ha.xMax]
    exact ⟨_, rfl⟩

/-- **C143** Nothing is raised if the extremas are after the origin of the line and there are underlying points. -/
theorem C143_no_error (hg : t.gold ≠ 0) {calls : List (List Mark × List XY)} (hm : ∀ c ∈ calls, (∀ m ∈ c.1, m.kind = .extrema → o.1 < m.pt.1) ∧ c.2 ≠ []) :
    ∃ d, predictions t { Pred.reset with origin := some o } calls = .ok d := by
  have key : ∀ (calls : List (List Mark × List XY)) (d : Pred) (v : View), StandsAs t o d v → After o v →
      (∀ c ∈ calls, (∀ m ∈ c.1, m.kind = .extrema → o.1 < m.pt.1) ∧ c.2 ≠ []) → ∃ u, predictions t d calls = .ok u := by
    intro calls
    induction calls with
    | nil => exact fun d _ _ _ _ => ⟨d, rfl⟩
    | cons c cs ih =>
      intro d v h hv hm
      have hcs : ∀ c ∈ cs, (∀ m ∈ c.1, m.kind = .extrema → o.1 < m.pt.1) ∧ c.2 ≠ [] := fun c hc => hm c (by simp [hc])
      obtain ⟨hc1, hc2⟩ := hm c (by simp)
      have hcall : ∃ u w, t.predict d c.1 c.2 = .ok u ∧ StandsAs t o u w ∧ After o w := by
        unfold TLine.predict
        cases c.1.getLast? with
        | none => exact ⟨d, v, rfl, h, hv⟩
        | some m =>
          obtain ⟨u, w, e, h1, h2⟩ := predLoop_ok hg hc1 h hv
          simp only [e, bind, Except.bind]
          by_cases h3 : u.succeeded || u.failed
          · rw [if_neg (by cases h4 : u.succeeded <;> cases h5 : u.failed <;> simp_all)]
            exact ⟨u, w, rfl, h1, h2⟩
          · rw [Bool.not_eq_true, Bool.or_eq_false_iff] at h3
            rw [if_pos (by simp [h3.1, h3.2])]
            rw [List.getLast?_eq_some_getLast hc2]
            have hs' : StandsAs t o { u with xProcessed := some m.pt.1 } w := stands_mark h1
            obtain ⟨x, hx⟩ := timeouts_ok hs' h3.2 h3.1 (c.2.getLast hc2).1
            exact ⟨x, _, hx, (stands_late hs' h3.2 h3.1 hx).1, after_late h2⟩
      obtain ⟨u, w, e, h1, h2⟩ := hcall
      obtain ⟨x, hx⟩ := ih u w h1 h2 hcs
      exact ⟨x, by rw [predictions, e]; exact hx⟩
  exact key calls _ _ (.waiting 0 rfl rfl rfl rfl rfl rfl rfl) trivial hm

/-! ### Concrete cases -/

/-- Where a prediction stands after points of interest. -/
def after (ms : List Mark) : View := ms.foldl (see (plain 2) (0, 0)) (.waiting 0)

def opened : List Mark := [⟨(0, 0), .tangent⟩, ⟨(2, 0), .tangent⟩, ⟨(4, 0), .intersection⟩]

/-- Success; too few tangent points; crossed again; a late retest; a retest without an extremum; a late target; a retest takes back what an
extremum beyond the line had confirmed. -/
example : (goodCalls.foldl (attend (plain 2) (0, 0)) (.waiting 0, none)).1 = .succeeded (8, 3) ∧
    after (opened.drop 1) = .failed ∧
    after (opened ++ [⟨(5, 1), .extrema⟩, ⟨(6, 0), .intersection⟩]) = .failed ∧
    after (opened ++ [⟨(5, 1), .extrema⟩, ⟨(7, 0), .tangent⟩]) = .failed ∧
    after (opened ++ [⟨(6, 0), .tangent⟩]) = .failed ∧
    after (opened ++ [⟨(5, 1), .extrema⟩, ⟨(6, 0), .tangent⟩, ⟨(12, 5/2), .extrema⟩]) = .retested (4, 0) (5, 1) (6, 0) (12, 5/2) true ∧
    after (opened ++ [⟨(5, 1), .extrema⟩, ⟨(6, 0), .tangent⟩, ⟨(13, 5/2), .extrema⟩]) = .retested (4, 0) (5, 1) (6, 0) (13, 5/2) false ∧
    after (opened ++ [⟨(5, 1), .extrema⟩, ⟨(6, 0), .tangent⟩, ⟨(7, 2), .extrema⟩, ⟨(13, 2), .extrema⟩]) = .failed ∧
    after (opened ++ [⟨(5, 1), .extrema⟩, ⟨(6, 0), .tangent⟩, ⟨(6, 2), .extrema⟩, ⟨(6, 0), .tangent⟩]) =
      .retested (4, 0) (6, 2) (6, 0) (6, 2) false :=
  ⟨by decide +kernel, by decide +kernel, by decide +kernel, by decide +kernel, by decide +kernel, by decide +kernel, by decide +kernel,
    by decide +kernel, by decide +kernel⟩

/-- Time runs out for a retest at `13/2`, for the target of the extremum at 5 at 13. -/
example : (attend (plain 2) (0, 0) (.waiting 0, none) (opened, [(13/2, 0)])).1 = .failed ∧
    (attend (plain 2) (0, 0) (.waiting 0, none) (opened, [(6, 0)])) = (.crossed (4, 0) none, some 4) ∧
    (attend (plain 2) (0, 0) (.waiting 0, none) (opened ++ [⟨(5, 1), .extrema⟩, ⟨(6, 0), .tangent⟩], [(13, 0)])).1 = .failed :=
  ⟨by decide +kernel, by decide +kernel, by decide +kernel⟩

example : ∃ d, predictions (plain 2) { Pred.reset with origin := some (0, 0) } goodCalls = .ok d :=
  C143_no_error (by decide +kernel) (by decide +kernel)

/-- C143: an extremum at the origin of the line raises. -/
theorem C143_negation : (predictions (plain 2) { Pred.reset with origin := some (4, 0) }
    [(opened ++ [⟨(4, 1), .extrema⟩, ⟨(4, 0), .tangent⟩, ⟨(5, 2), .extrema⟩], [(5, 2)])]).toOption = none := by decide +kernel

end Props
end Curvepy
