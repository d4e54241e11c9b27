import Verif.Props.TrendLine

/-!
# Properties of single trend lines: predictions
-/

namespace Curvepy
namespace Props
open Spec Trend

/-- What is known after the points of interest `s`, as long as the prediction has not failed. -/
inductive Tells (t : TLine) (o : XY) (s : List Mark) (d : Pred) : Prop where
  | failed (hf : d.failed = true) (hs : d.succeeded = false)
  | none (hf : d.failed = false) (hs : d.succeeded = false) (ho : d.origin = some o) (hp : d.phase = .none)
      (hk : ∀ m ∈ s, m.kind ≠ .intersection)
      (ht : d.tangents = (s.filter fun m => decide (m.kind = .tangent)).length) (hl : d.lastExtrema = Option.none)
  | intersected (hf : d.failed = false) (hs : d.succeeded = false) (ho : d.origin = some o)
      (hp : d.phase = .intersected) (a : List Mark) (i : Mark) (b : List Mark) (e : s = a ++ i :: b)
      (hop : Opening t a i) (hi : d.intersection = some i.pt)
      (hx : d.retestXMax = some (i.pt.1 + (i.pt.1 - o.1) / t.gold)) (hb : ∀ m ∈ b, m.kind = .extrema)
      (hl : d.lastExtrema = lastExtremum b)
  | retested (hf : d.failed = false) (ho : d.origin = some o)
      (a : List Mark) (i : Mark) (b : List Mark) (x : XY) (r : Mark) (c : List Mark)
      (e : s = a ++ i :: (b ++ r :: c)) (hr : Retested t o a i b x r c) (hi : d.intersection = some i.pt)
      (hx : d.retestXMax = some (i.pt.1 + (i.pt.1 - o.1) / t.gold))
      (hex : d.extrema = some x) (hre : d.retest = some r.pt) (hc : d.confirmation = some (o, x))
      (hlo : d.yMin = some (t.tolMin (predictedY t i.pt x))) (hhi : d.yMax = some (t.tolMax (predictedY t i.pt x)))
      (hxm : d.xMax = some (x.1 + (x.1 - o.1) * t.gold))
      (hl : d.lastExtrema = lastExtremum (b ++ r :: c))
      (hph : (d.succeeded = false ∧ (d.phase = .retested ∨
          (d.phase = .confirmed ∧ ∃ m ∈ c, Confirms t o x m.pt))) ∨
        (d.succeeded = true ∧ d.phase = .fulfilled ∧ (∃ m ∈ c, Confirms t o x m.pt) ∧
          ∃ q c', c = c' ++ [q] ∧ Reaches t i.pt x q.pt ∧ d.successPoint = some q.pt))

theorem lastExtremum_append_extrema (b : List Mark) (m : Mark) (h : m.kind = .extrema) :
    lastExtremum (b ++ [m]) = some m.pt := by
  unfold lastExtremum
  rw [List.filter_append, List.filter_cons_of_pos (by simp [h])]
  simp

theorem lastExtremum_append_tangent (b : List Mark) (m : Mark) (h : m.kind = .tangent) :
    lastExtremum (b ++ [m]) = lastExtremum b := by
  unfold lastExtremum
  rw [List.filter_append, List.filter_cons_of_neg (by simp [h])]
  simp

theorem target_inv {t : TLine} {d : Pred} {r : Pred × Bool} {i o : XY} (h : t.target d = .ok r)
    (hi : d.intersection = some i) (ho : d.origin = some o) :
    (d.lastExtrema = none ∧ r = (d, false)) ∨ ∃ e, d.lastExtrema = some e ∧ r.2 = true ∧
      r.1 = { d with extrema := some e, confirmation := some (o, e), y := some (predictedY t i e),
                     yMin := some (t.tolMin (predictedY t i e)), yMax := some (t.tolMax (predictedY t i e)),
                     xMin := some e.1, xMax := some (e.1 + (e.1 - o.1) * t.gold),
                     valid := decide (predictedY t i e > 0) } := by
  unfold TLine.target at h
  rw [hi] at h
  simp only at h
  cases hl : d.lastExtrema with
  | none => rw [hl] at h; simp only [Except.ok.injEq] at h; exact .inl ⟨rfl, h.symm⟩
  | some e =>
    rw [hl] at h
    simp only [ho, need, bind, Except.bind] at h
    have := pure_inv h
    exact .inr ⟨e, rfl, by rw [← this], by rw [← this]; simp [predictedY, hi, ho]⟩

/-- Processing one more point of interest. -/
theorem tells_step {t : TLine} {o : XY} {s : List Mark} {d u : Pred} {m : Mark} (h : Tells t o s d)
    (hf : d.failed = false) (hs : d.succeeded = false) (e : t.predAt d m = .ok u) : Tells t o (s ++ [m]) u := by
  unfold TLine.predAt at e
  cases h with
  | failed hf' _ => rw [hf] at hf'; cases hf'
  | none hf hs ho hp hk ht hl =>
    rw [if_pos hp] at e
    unfold TLine.seeBefore at e
    cases hm : m.kind with
    | extrema =>
      rw [hm] at e
      simp only [Except.ok.injEq] at e
      subst e
      refine .none hf hs ho hp ?_ ?_ hl
      · intro q hq
        rcases List.mem_append.1 hq with hq | hq
        · exact hk q hq
        · simp only [List.mem_singleton] at hq; subst hq; rw [hm]; decide
      · rw [List.filter_append, List.filter_cons_of_neg (by simp [hm]), List.filter_nil, List.append_nil, ht]
    | tangent =>
      rw [hm] at e
      simp only [Except.ok.injEq] at e
      subst e
      refine .none hf hs ho hp ?_ ?_ hl
      · intro q hq
        rcases List.mem_append.1 hq with hq | hq
        · exact hk q hq
        · simp only [List.mem_singleton] at hq; subst hq; rw [hm]; decide
      · rw [List.filter_append, List.filter_cons_of_pos (by simp [hm])]
        simp [ht]
    | intersection =>
      rw [hm] at e
      simp only at e
      split_ifs at e with h1
      · simp only [Except.ok.injEq] at e
        subst e
        exact .failed rfl hs
      · rw [ho] at e; cases e
      · rw [ho] at e
        simp only [need, bind, Except.bind] at e
        have := pure_inv e
        subst this
        refine .intersected hf hs rfl rfl s m [] rfl ⟨hk, ?_, hm⟩ rfl rfl (by simp) hl
        rw [← ht]; omega
  | intersected hf hs ho hp a i b he hop hi hx hb hl =>
    subst he
    rw [if_neg (by rw [hp]; decide)] at e
    cases hm : m.kind with
    | extrema =>
      rw [hm] at e
      simp only at e
      unfold TLine.seeExtrema at e
      simp only [hp, if_true] at e
      obtain ⟨r, e1, e⟩ := bind_inv e
      rcases target_inv e1 hi ho with ⟨h1, -⟩ | ⟨x, h1, h2, h3⟩
      · cases h1
      · rw [h2] at e
        simp only [if_true] at e
        have := pure_inv e
        subst this
        rw [h3]
        refine .intersected hf hs ho rfl a i (b ++ [m]) (by simp) hop hi hx ?_ ?_
        · intro q hq
          rcases List.mem_append.1 hq with hq | hq
          · exact hb q hq
          · simp only [List.mem_singleton] at hq; subst hq; exact hm
        · rw [lastExtremum_append_extrema b m hm]
    | tangent =>
      rw [hm] at e
      simp only at e
      unfold TLine.seeTangent at e
      simp only [hx, need, bind, Except.bind] at e
      split_ifs at e with h1
      · have := pure_inv e
        subst this
        exact .failed rfl hs
      · obtain ⟨r, e1, e⟩ := bind_inv e
        rcases target_inv e1 hi ho with ⟨h2, h3⟩ | ⟨x, h2, h3, h4⟩
        · rw [h3] at e
          have := pure_inv e
          subst this
          exact .failed rfl hs
        · rw [h3] at e
          simp only [if_true] at e
          have := pure_inv e
          subst this
          rw [h4]
          refine .retested hf ho a i b x m [] (by simp) ⟨hop, ?_, ?_, hm, not_lt.1 h1, by simp⟩ hi hx rfl rfl rfl
            rfl rfl rfl ?_ (.inl ⟨hs, .inl rfl⟩)
          · intro q hq h; rw [hb q hq] at h; cases h
          · rw [← hl]; exact h2
          · simp only
            rw [lastExtremum_append_tangent b m hm]; exact hl
    | intersection =>
      rw [hm] at e
      simp only [Except.ok.injEq] at e
      subst e
      exact .failed rfl hs
  | retested hf ho a i b x r c he hr hi hx hex hre hc hlo hhi hxm hl hph =>
    have hph : d.phase = .retested ∨ (d.phase = .confirmed ∧ ∃ m ∈ c, Confirms t o x m.pt) := by
      rcases hph with h | h
      · exact h.2
      · rw [hs] at h; cases h.1
    subst he
    have hpn : d.phase ≠ .none := by rcases hph with h | h; · rw [h]; decide
                                     · rw [h.1]; decide
    have hpi : d.phase ≠ .intersected := by rcases hph with h | h; · rw [h]; decide
                                            · rw [h.1]; decide
    rw [if_neg hpn] at e
    cases hm : m.kind with
    | extrema =>
      rw [hm] at e
      simp only at e
      unfold TLine.seeExtrema at e
      simp only [if_neg hpi] at e
      have hr' : Retested t o a i b x r (c ++ [m]) := ⟨hr.1, hr.2, hr.3, hr.4, hr.5, by
        intro q hq
        rcases List.mem_append.1 hq with hq | hq
        · exact hr.6 q hq
        · simp only [List.mem_singleton] at hq; subst hq; exact hm⟩
      have hl' : some m.pt = lastExtremum (b ++ r :: (c ++ [m])) := by
        have := lastExtremum_append_extrema (b ++ r :: c) m hm
        rw [← this]; simp
      obtain ⟨v, e1, e⟩ := bind_inv e
      -- after the confirmation
      have hv : (v = { d with lastExtrema := some m.pt } ∧ (d.phase = .retested ∨
            (d.phase = .confirmed ∧ ∃ m ∈ c, Confirms t o x m.pt))) ∨
          (v = { d with lastExtrema := some m.pt, phase := .confirmed } ∧ ∃ q ∈ c ++ [m], Confirms t o x q.pt) := by
        unfold TLine.confirm at e1
        simp only at e1
        split_ifs at e1 with h1
        · rw [hc] at e1
          simp only [need, bind, Except.bind] at e1
          cases hy : lineY (o, x) m.pt.1 with
          | none => rw [hy] at e1; cases e1
          | some cy =>
            rw [hy] at e1
            simp only at e1
            split_ifs at e1 with h2
            · have := pure_inv e1
              refine .inr ⟨by rw [← this, hc], m, by simp, cy, hy, ?_⟩
              simp only [Bool.or_eq_true, Bool.and_eq_true, decide_eq_true_eq, Bool.not_eq_true', ge_iff_le] at h2
              rcases h2 with h2 | h2
              · rw [if_pos h2.1]; exact h2.2
              · rw [if_neg (by simp [h2.1])]; exact h2.2
            · have := pure_inv e1
              exact .inl ⟨by rw [← this, hc], hph⟩
        · have := pure_inv e1
          exact .inl ⟨this.symm, hph⟩
      have key : ∀ (ph : Phase), v = { d with lastExtrema := some m.pt, phase := ph } →
          (ph = .retested ∨ (ph = .confirmed ∧ ∃ q ∈ c ++ [m], Confirms t o x q.pt)) →
          Tells t o (a ++ i :: (b ++ r :: c) ++ [m]) u := by
        intro ph hv hph
        subst hv
        unfold TLine.fulfil at e
        simp only at e
        rcases hph with rfl | ⟨rfl, hconf⟩
        · rw [if_neg (by decide)] at e
          have := pure_inv e
          subst this
          exact .retested hf ho a i b x r (c ++ [m]) (by simp) hr' hi hx hex hre hc hlo hhi hxm hl'
            (.inl ⟨hs, .inl rfl⟩)
        · rw [if_pos rfl, hlo, hhi] at e
          simp only [need, bind, Except.bind] at e
          split_ifs at e with h2
          · have := pure_inv e
            subst this
            refine .retested hf ho a i b x r (c ++ [m]) (by simp) hr' hi hx hex hre hc rfl rfl hxm hl'
              (.inr ⟨rfl, rfl, hconf, m, c, rfl, ?_, rfl⟩)
            simp only [Bool.or_eq_true, Bool.and_eq_true, decide_eq_true_eq, Bool.not_eq_true', ge_iff_le] at h2
            unfold Reaches
            rcases h2 with h2 | h2
            · rw [if_pos h2.1]; exact h2.2
            · rw [if_neg (by simp [h2.1])]; exact h2.2
          · rw [hxm] at e
            simp only at e
            split_ifs at e with h3
            · have := pure_inv e
              subst this
              exact .failed rfl hs
            · have := pure_inv e
              subst this
              exact .retested hf ho a i b x r (c ++ [m]) (by simp) hr' hi hx hex hre hc rfl rfl rfl hl'
                (.inl ⟨hs, .inr ⟨rfl, hconf⟩⟩)
      rcases hv with ⟨hv, hp⟩ | ⟨hv, hp⟩
      · refine key d.phase hv ?_
        rcases hp with hp | ⟨hp, q, hq, hqc⟩
        · exact .inl hp
        · exact .inr ⟨hp, q, List.mem_append_left _ hq, hqc⟩
      · exact key .confirmed hv (.inr ⟨rfl, hp⟩)
    | tangent =>
      rw [hm] at e
      simp only at e
      unfold TLine.seeTangent at e
      simp only [hx, need, bind, Except.bind] at e
      split_ifs at e with h1
      · have := pure_inv e
        subst this
        exact .failed rfl hs
      · obtain ⟨z, e1, e⟩ := bind_inv e
        rcases target_inv e1 hi ho with ⟨h2, h3⟩ | ⟨y, h2, h3, h4⟩
        · rw [h3] at e
          have := pure_inv e
          subst this
          exact .failed rfl hs
        · rw [h3] at e
          simp only [if_true] at e
          have := pure_inv e
          subst this
          rw [h4]
          refine .retested hf ho a i (b ++ r :: c) y m [] (by simp)
            ⟨hr.opening, ?_, ?_, hm, not_lt.1 h1, by simp⟩ hi hx rfl rfl rfl rfl rfl rfl ?_ (.inl ⟨hs, .inl rfl⟩)
          · intro q hq
            rcases List.mem_append.1 hq with hq | hq
            · exact hr.once q hq
            · rcases List.mem_cons.1 hq with rfl | hq
              · rw [hr.touched]; decide
              · rw [hr.since q hq]; decide
          · rw [← hl]; exact h2
          · simp only
            rw [show b ++ r :: c ++ [m] = (b ++ r :: c) ++ [m] from rfl, lastExtremum_append_tangent _ m hm]
            exact hl
    | intersection =>
      rw [hm] at e
      simp only [Except.ok.injEq] at e
      subst e
      exact .failed rfl hs

theorem tells_mark {t : TLine} {o : XY} {s : List Mark} {d : Pred} (x : Option ℚ) (h : Tells t o s d) :
    Tells t o s { d with xProcessed := x } := by
  cases h with
  | failed hf hs => exact .failed hf hs
  | none hf hs ho hp hk ht hl => exact .none hf hs ho hp hk ht hl
  | intersected hf hs ho hp a i b e hop hi hx hb hl => exact .intersected hf hs ho hp a i b e hop hi hx hb hl
  | retested hf ho a i b y r c e hr hi hx hex hre hc hlo hhi hxm hl hph =>
    exact .retested hf ho a i b y r c e hr hi hx hex hre hc hlo hhi hxm hl hph

theorem tells_origin {t : TLine} {o : XY} {s : List Mark} {d : Pred} (h : Tells t o s d) :
    Tells t o s { d with origin := some o } := by
  cases h with
  | failed hf hs => exact .failed hf hs
  | none hf hs ho hp hk ht hl => exact .none hf hs rfl hp hk ht hl
  | intersected hf hs ho hp a i b e hop hi hx hb hl => exact .intersected hf hs rfl hp a i b e hop hi hx hb hl
  | retested hf ho a i b y r c e hr hi hx hex hre hc hlo hhi hxm hl hph =>
    exact .retested hf rfl a i b y r c e hr hi hx hex hre hc hlo hhi hxm hl hph

/-- Only the parameters of the line matter. -/
theorem tells_same {t u : TLine} {o : XY} {s : List Mark} {d : Pred} (hs : TLine.Same t u) (h : Tells t o s d) :
    Tells u o s d := by
  have hmin : ∀ y, u.tolMin y = t.tolMin y := fun y => by unfold TLine.tolMin; rw [hs.rel, hs.tol]
  have hmax : ∀ y, u.tolMax y = t.tolMax y := fun y => by unfold TLine.tolMax; rw [hs.rel, hs.tol]
  have hpr : ∀ i e, predictedY u i e = predictedY t i e := fun i e => by unfold predictedY; rw [hs.gold]
  have hco : ∀ o e q, Confirms t o e q → Confirms u o e q := fun o e q h => by
    unfold Confirms at h ⊢
    simpa only [hmin, hmax, hs.upper] using h
  have hre : ∀ i e q, Reaches t i e q → Reaches u i e q := fun i e q h => by
    unfold Reaches at h ⊢
    simpa only [hmin, hmax, hpr, hs.upper] using h
  have hop : ∀ a i, Opening t a i → Opening u a i := fun a i h => ⟨h.1, by rw [hs.points]; exact h.2, h.3⟩
  cases h with
  | failed hf hs => exact .failed hf hs
  | none hf hs ho hp hk ht hl => exact .none hf hs ho hp hk ht hl
  | intersected hf hs' ho hp a i b e hop' hi hx hb hl =>
    exact .intersected hf hs' ho hp a i b e (hop _ _ hop') hi (by rw [hs.gold]; exact hx) hb hl
  | retested hf ho a i b y r c e hr hi hx hex hre' hc hlo hhi hxm hl hph =>
    refine .retested hf ho a i b y r c e ⟨hop _ _ hr.1, hr.2, hr.3, hr.4, by rw [hs.gold]; exact hr.5, hr.6⟩ hi
      (by rw [hs.gold]; exact hx) hex hre' hc (by rw [hmin, hpr]; exact hlo) (by rw [hmax, hpr]; exact hhi)
      (by rw [hs.gold]; exact hxm) hl ?_
    rcases hph with ⟨h1, h2⟩ | ⟨h1, h2, ⟨m, hm, hmc⟩, q, c', h4, h5, h6⟩
    · refine .inl ⟨h1, h2.imp_right ?_⟩
      rintro ⟨h, m, hm, hmc⟩
      exact ⟨h, m, hm, hco _ _ _ hmc⟩
    · exact .inr ⟨h1, h2, ⟨m, hm, hco _ _ _ hmc⟩, q, c', h4, hre _ _ _ h5, h6⟩

theorem tells_not_both {t : TLine} {o : XY} {s : List Mark} {d : Pred} (h : Tells t o s d) :
    ¬ (d.succeeded = true ∧ d.failed = true) := by
  rintro ⟨h1, h2⟩
  cases h with
  | failed hf hs => rw [hs] at h1; cases h1
  | none hf => rw [hf] at h2; cases h2
  | intersected hf => rw [hf] at h2; cases h2
  | retested hf => rw [hf] at h2; cases h2

theorem tells_loop {t : TLine} {o : XY} : ∀ {ms s : List Mark} {d u : Pred}, Tells t o s d →
    t.predLoop ms d = .ok u → ∃ part, part.Sublist ms ∧ Tells t o (s ++ part) u
  | [], s, d, u, h, e => by
    simp only [TLine.predLoop, Except.ok.injEq] at e
    subst e
    exact ⟨[], List.Sublist.refl _, by simpa using h⟩
  | m :: ms, s, d, u, h, e => by
    rw [TLine.predLoop] at e
    split_ifs at e with h1 h2
    · obtain ⟨part, h2, h3⟩ := tells_loop h e
      exact ⟨part, List.Sublist.cons _ h2, h3⟩
    · simp only [Except.ok.injEq] at e
      subst e
      exact ⟨[], List.nil_sublist _, by simpa using h⟩
    · simp only [Bool.or_eq_true, not_or, Bool.not_eq_true] at h2
      obtain ⟨v, e1, e⟩ := bind_inv e
      obtain ⟨part, h3, h4⟩ := tells_loop (tells_step h h2.2 h2.1 e1) e
      exact ⟨m :: part, List.Sublist.cons_cons _ h3, by simpa using h4⟩

theorem tells_timeouts {t : TLine} {o : XY} {s : List Mark} {d u : Pred} {x : ℚ} (h : Tells t o s d)
    (hs : d.succeeded = false) (e : TLine.timeouts d x = .ok u) : Tells t o s u := by
  have key : ∀ xm : Option ℚ, (do let xm ← need xm; pure (if x ≥ xm then { d with failed := true } else d)) =
      Except.ok u → Tells t o s u := by
    intro xm e
    obtain ⟨y, -, e⟩ := bind_inv e
    have := pure_inv e
    split_ifs at this
    · subst this; exact .failed rfl hs
    · subst this; exact h
  unfold TLine.timeouts at e
  split_ifs at e
  · exact key _ e
  · exact key _ e
  · have := pure_inv e
    subst this; exact h

/-- A call of `update_prediction` processes some of its points of interest, in order. -/
theorem tells_predict {t : TLine} {o : XY} {ms s : List Mark} {d u : Pred} {ps : List XY} (h : Tells t o s d)
    (e : t.predict d ms ps = .ok u) : ∃ part, part.Sublist ms ∧ Tells t o (s ++ part) u := by
  unfold TLine.predict at e
  split at e
  · simp only [Except.ok.injEq] at e
    subst e
    exact ⟨[], List.nil_sublist _, by simpa using h⟩
  · obtain ⟨v, e1, e⟩ := bind_inv e
    obtain ⟨part, h1, h2⟩ := tells_loop h e1
    refine ⟨part, h1, ?_⟩
    split_ifs at e with h3
    · simp only at e
      simp only [Bool.and_eq_true, Bool.not_eq_true'] at h3
      split at e
      · cases e
      · refine tells_timeouts ?_ ?_ e
        · exact tells_mark _ h2
        · exact h3.1
    · have := pure_inv e
      subst this; exact h2

/-- C59: whatever points of interest the calls of `update_prediction` are given, a prediction that succeeded did
so by an intersection after enough tangent points, then a retest in time, then an extremum beyond the
confirmation line, then one at the target.  The points are among those given, in the order of the calls. -/
theorem C59_success {t : TLine} {o : XY} {calls : List (List Mark × List XY)} {d : Pred}
    (h : predictions t { Pred.reset with origin := some o } calls = .ok d) (hs : d.succeeded = true) :
    ∃ parts p, List.Forall₂ (fun part c => List.Sublist part (Prod.fst c)) parts calls ∧
      d.successPoint = some p ∧ Succeeds t o parts.flatten p := by
  have H : ∀ (calls : List (List Mark × List XY)) (s : List Mark) (d u : Pred), Tells t o s d →
      predictions t d calls = .ok u → ∃ parts, List.Forall₂ (fun part c => List.Sublist part (Prod.fst c)) parts calls ∧
        Tells t o (s ++ parts.flatten) u := by
    intro calls
    induction calls with
    | nil =>
      intro s d u h e
      simp only [predictions, Except.ok.injEq] at e
      subst e
      exact ⟨[], .nil, by simpa using h⟩
    | cons c cs ih =>
      intro s d u h e
      rw [predictions] at e
      obtain ⟨v, e1, e⟩ := bind_inv e
      obtain ⟨part, h1, h2⟩ := tells_predict h e1
      obtain ⟨parts, h3, h4⟩ := ih _ _ _ h2 e
      exact ⟨part :: parts, .cons h1 h3, by simpa using h4⟩
  obtain ⟨parts, h1, h2⟩ := H calls [] _ d (.none rfl rfl rfl rfl (by simp) rfl rfl) h
  rw [List.nil_append] at h2
  cases h2 with
  | failed _ h => rw [h] at hs; cases hs
  | none _ h => rw [h] at hs; cases hs
  | intersected _ h => rw [h] at hs; cases hs
  | retested hf ho a i b y r c e hr hi hx hex hre' hc hlo hhi hxm hl hph =>
    rcases hph with ⟨h, -⟩ | ⟨-, -, h3, q, c', rfl, h5, h6⟩
    · rw [h] at hs; cases hs
    · exact ⟨parts, q.pt, h1, h6, a, i, b, y, r, c', q, e, hr, h3, h5, rfl⟩

/-- The prediction of a line that can come about. -/
theorem grown_tells {t : TLine} (h : Grown t) :
    t.pred = Pred.reset ∨ ∃ l s, t.line = some l ∧ Tells t l.1 s t.pred := by
  have hup : ∀ {w u : TLine} {ps : List XY}, (w.pred = Pred.reset ∨ ∃ l s, w.line = some l ∧ Tells w l.1 s w.pred) →
      w.updatePrediction ps = .ok u → (u.pred = Pred.reset ∨ ∃ l s, u.line = some l ∧ Tells u l.1 s u.pred) := by
    intro w u ps hw e
    unfold TLine.updatePrediction at e
    split_ifs at e
    · simp only [Except.ok.injEq] at e
      subst e; exact hw
    · obtain ⟨l, e1, e⟩ := bind_inv e
      obtain ⟨ms, e2, e⟩ := bind_inv e
      obtain ⟨d, e3, e⟩ := bind_inv e
      have := pure_inv e
      subst this
      have hl : w.line = some l := by
        cases hl : w.line with
        | none => rw [hl] at e1; cases e1
        | some k => rw [hl] at e1; simp only [need, Except.ok.injEq] at e1; rw [e1]
      have ht : ∃ s, Tells w l.1 s { w.pred with origin := some l.1 } := by
        rcases hw with hw | ⟨k, s, hk, ht⟩
        · rw [hw]; exact ⟨[], .none rfl rfl rfl rfl (by simp) rfl rfl⟩
        · rw [hl] at hk; cases hk; exact ⟨s, tells_origin ht⟩
      obtain ⟨s, ht⟩ := ht
      obtain ⟨part, -, h2⟩ := tells_predict ht e3
      exact .inr ⟨l, _, hl, tells_same (t := w) ⟨rfl, rfl, rfl, rfl, rfl, rfl, rfl, rfl⟩ h2⟩
  have htr : ∀ {w u : TLine} {ps : List XY}, w.updateTrend ps = .ok u →
      (u.pred = Pred.reset ∨ ∃ l s, u.line = some l ∧ Tells u l.1 s u.pred) := by
    intro w u ps e
    unfold TLine.updateTrend at e
    obtain ⟨v, -, e⟩ := bind_inv e
    obtain ⟨l, -, e⟩ := bind_inv e
    obtain ⟨up, -, e⟩ := bind_inv e
    obtain ⟨lo, -, e⟩ := bind_inv e
    obtain ⟨r, -, e⟩ := bind_inv e
    exact hup (.inl rfl) e
  induction h with
  | new => exact .inl rfl
  | @append t t' p under b' h e ih =>
    rcases append_cases e with rfl | ⟨bs, ts, -, -, e⟩ | ⟨-, -, v, c, e1, e2⟩
    · exact ih
    · exact htr e
    · obtain ⟨i, a, e, s, h6⟩ := TLine.updatePoi_eq e1
      refine hup ?_ e2
      rw [h6]
      rcases ih with ih | ⟨l, s', hl, ht⟩
      · exact .inl ih
      · exact .inr ⟨l, s', hl, tells_same (t := t) ⟨rfl, rfl, rfl, rfl, rfl, rfl, rfl, rfl⟩ ht⟩
  | update h e ih =>
    rcases update_cases e with rfl | ⟨bs, ts, i, a, e, -, -, h⟩
    · exact ih
    · exact htr h

/-- C59: the prediction of a line never both succeeds and fails. -/
theorem C59_exclusive {t : TLine} (h : Grown t) : ¬ (t.pred.succeeded = true ∧ t.pred.failed = true) := by
  rcases grown_tells h with h | ⟨l, s, -, h⟩
  · rw [h]; simp [Pred.reset]
  · exact tells_not_both h

/-- C59: the recorded intersection, retest point, extremum and success point of a line whose prediction
succeeded fit together. -/
theorem C59_recorded {t : TLine} (h : Grown t) (hs : t.pred.succeeded = true) :
    ∃ l i r e p, t.line = some l ∧ t.pred.intersection = some i ∧ t.pred.retest = some r ∧ t.pred.extrema = some e ∧
      t.pred.successPoint = some p ∧ t.pred.phase = .fulfilled ∧ r.1 ≤ i.1 + (i.1 - l.1.1) / t.gold ∧
      Reaches t i e p ∧ ∃ q, Confirms t l.1 e q := by
  rcases grown_tells h with h | ⟨l, s, hl, h⟩
  · rw [h] at hs; cases hs
  · cases h with
    | failed _ h => rw [h] at hs; cases hs
    | none _ h => rw [h] at hs; cases hs
    | intersected _ h => rw [h] at hs; cases hs
    | retested hf ho a i b y r c e hr hi hx hex hre' hc hlo hhi hxm hl' hph =>
      rcases hph with ⟨h, -⟩ | ⟨-, h2, ⟨m, -, h3⟩, q, c', rfl, h5, h6⟩
      · rw [h] at hs; cases hs
      · exact ⟨l, i.pt, r.pt, y, q.pt, hl, hi, hre', hex, h6, h2, hr.inTime, h5, m.pt, h3⟩

theorem predLoop_outcome (t : TLine) (d : Pred) (h : d.succeeded = true ∨ d.failed = true) :
    ∀ ms, t.predLoop ms d = .ok d
  | [] => rfl
  | m :: ms => by
    rw [TLine.predLoop, predLoop_outcome t d h ms]
    split_ifs with h1 h2
    · rfl
    · rfl
    · exact absurd (by simpa using h) h2

/-- C59: after success or failure further calls of `update_prediction` change nothing. -/
theorem C59_final (t : TLine) (d : Pred) (h : d.succeeded = true ∨ d.failed = true) (ms : List Mark)
    (ps : List XY) : t.predict d ms ps = .ok d := by
  unfold TLine.predict
  split
  · rfl
  · rw [predLoop_outcome t d h]
    simp only [bind, Except.bind]
    rw [if_neg (by rcases h with h | h <;> simp [h])]
    rfl

/-- C79, for a single call: a prediction under way has enough tangent points before its crossing.  Missing:
further calls, which count again the tangent point at which the call before stopped. -/
theorem C79_partial {t : TLine} {o : XY} {ms : List Mark} {ps : List XY} {d : Pred}
    (h : t.predict { Pred.reset with origin := some o } ms ps = .ok d) (hf : d.failed = false)
    (hp : d.phase ≠ .none) :
    ∃ a i b, ms = a ++ i :: b ∧ d.intersection = some i.pt ∧ i.kind = .intersection ∧
      t.minPoints ≤ (a.filter fun m => decide (m.kind = .tangent)).length := by
  obtain ⟨part, h1, h2⟩ := tells_predict (s := []) (.none rfl rfl rfl rfl (by simp) rfl rfl) h
  rw [List.nil_append] at h2
  have key : ∀ a i b, part = a ++ i :: b → Opening t a i → d.intersection = some i.pt →
      ∃ a i b, ms = a ++ i :: b ∧ d.intersection = some i.pt ∧ i.kind = .intersection ∧
        t.minPoints ≤ (a.filter fun m => decide (m.kind = .tangent)).length := by
    rintro a i b rfl ho hi
    obtain ⟨k, l, rfl, h3, h4⟩ := List.append_sublist_iff.mp h1
    obtain ⟨k', l', rfl, h5, h6⟩ := List.cons_sublist_iff.mp h4
    obtain ⟨x, y, rfl⟩ := List.append_of_mem h5
    exact ⟨k ++ x, i, y ++ l', by simp, hi, ho.crossed,
      ho.enough.trans ((h3.trans (List.sublist_append_left k x)).filter _).length_le⟩
  cases h2 with
  | failed h => rw [h] at hf; cases hf
  | none _ _ _ h => exact absurd h hp
  | intersected _ _ _ _ a i b e hop hi => exact key a i b e hop hi
  | retested _ _ a i b y r c e hr hi => exact key a i _ e hr.opening hi

/-- Disagreement with C79: the line wants three points, a prediction is under way and the line was touched
twice before the crossing. -/
theorem C79_negation : ∃ (t : TLine) (i : XY), Grown t ∧ t.isValid = true ∧ t.minPoints = 3 ∧
    t.pred.phase = .intersected ∧ t.pred.failed = false ∧ t.pred.intersection = some i ∧
    t.intersections = [i] ∧ t.tangents.length = 2 ∧ t.pred.tangents = 3 := by
  refine ⟨appendedD (TLine.new 2 true 3 0 10 none (some 1) (8 / 5)) [(0, 1), (2, 2), (3, 2), (4, 4), (7, 0)], (347 / 71, 200 / 71),
    appendedD_grown (Grown.new _ _ _ _ _ _ _ _) _, ?_, ?_, ?_, ?_, ?_, ?_, ?_, ?_⟩ <;> decide +kernel

/-- C80, where the line stays: appending a point that is not on the line keeps the outcome of its prediction.
Missing: points on the line, which start the prediction anew. -/
theorem C80_partial {t u : TLine} {p : XY} {ps : List XY} {b : Bool} (hv : t.isValid = true)
    (ho : t.onTrend p = .ok false) (h : t.didAppend p ps = .ok (u, b))
    (hf : t.pred.succeeded = true ∨ t.pred.failed = true) :
    u.pred.succeeded = t.pred.succeeded ∧ u.pred.failed = t.pred.failed ∧
      u.pred.successPoint = t.pred.successPoint ∧ u.line = t.line := by
  unfold TLine.didAppend at h
  split_ifs at h with h1 h2
  · simp only [Except.ok.injEq, Prod.mk.injEq] at h
    rw [← h.1]; simp
  · rw [hv] at h2; simp at h2
  · rw [ho] at h
    simp only [bind, Except.bind, Bool.false_eq_true, if_false] at h
    obtain ⟨r, e1, h⟩ := bind_inv h
    obtain ⟨w, e2, h⟩ := bind_inv h
    have := pure_inv h
    simp only [Prod.mk.injEq] at this
    rw [← this.1]
    obtain ⟨i, a, e, s, hr⟩ := TLine.updatePoi_eq (b := r.2) e1
    have hrp : r.1.pred = t.pred := by rw [hr]
    have hrl : r.1.line = t.line := by rw [hr]
    unfold TLine.updatePrediction at e2
    split_ifs at e2
    · simp only [Except.ok.injEq] at e2
      rw [← e2, hrp, hrl]; simp
    · obtain ⟨l, -, e2⟩ := bind_inv e2
      obtain ⟨ms, -, e2⟩ := bind_inv e2
      obtain ⟨d, e3, e2⟩ := bind_inv e2
      have := pure_inv e2
      rw [← this]
      rw [hrp, C59_final _ _ (by exact hf)] at e3
      simp only [Except.ok.injEq] at e3
      rw [← e3, hrl]; simp

/-- Disagreement with C80: the prediction of a line has failed, a point on the line is appended, and the
prediction is open again. -/
theorem C80_negation : ∃ (t u : TLine) (p : XY) (ps : List XY), Grown t ∧ t.isValid = true ∧
    t.pred.failed = true ∧ t.onTrend p = .ok true ∧ t.didAppend p ps = .ok (u, true) ∧ u.isValid = true ∧
    u.pred.failed = false ∧ u.pred.succeeded = false ∧ u.minPoints = t.minPoints ∧ t.trend ⊆ u.trend := by
  refine ⟨appendedD (TLine.new 2 true 2 0 10 none (some 1) (8 / 5)) [(0, 0), (1, 0), (2, 2), (3, 5), (4, 2), (5, 4)],
    appendedD (TLine.new 2 true 2 0 10 none (some 1) (8 / 5))
      [(0, 0), (1, 0), (2, 2), (3, 5), (4, 2), (5, 4), (6, 4)],
    (6, 4), [(0, 0), (1, 0), (2, 2), (3, 5), (4, 2), (5, 4), (6, 4)],
    appendedD_grown (Grown.new _ _ _ _ _ _ _ _) _, ?_, ?_, ?_, ?_, ?_, ?_, ?_, ?_, ?_⟩ <;> decide +kernel

/-- A line through falling tops, crossed before 5, retested at 6; the target is reached at 7. -/
def fulfilledRun : List XY :=
  [(0, 3), (1, 0), (2, 2), (3, 1), (4, 0), (5, 1), (6, 0), (7, 3), (8, 2), (9, 3)]

example : (appendedD (TLine.new 2 true 2 0 10 none (some (1 / 10)) (8 / 5)) fulfilledRun).pred.succeeded = true := by
  decide +kernel

example : (appendedD (TLine.new 2 true 2 0 10 none (some (1 / 10)) (8 / 5)) (fulfilledRun.take 6)).pred.phase =
      .intersected ∧
    (appendedD (TLine.new 2 true 2 0 10 none (some (1 / 10)) (8 / 5)) (fulfilledRun.take 7)).pred.phase = .retested ∧
    (appendedD (TLine.new 2 true 2 0 10 none (some (1 / 10)) (8 / 5)) (fulfilledRun.take 8)).pred.successPoint =
      some (7, 3) := by
  decide +kernel

/-- Points of interest that make a prediction succeed, in two calls. -/
def goodCalls : List (List Mark × List XY) :=
  [([⟨(0, 0), .tangent⟩, ⟨(2, 0), .tangent⟩, ⟨(4, 0), .intersection⟩, ⟨(5, 1), .extrema⟩], [(5, 1)]),
   ([⟨(4, 0), .intersection⟩, ⟨(5, 1), .extrema⟩, ⟨(6, 0), .tangent⟩, ⟨(7, 2), .extrema⟩, ⟨(8, 3), .extrema⟩], [(8, 3)])]

example : (predictions (plain 2) { Pred.reset with origin := some (0, 0) } goodCalls).map
    (fun d => (d.succeeded, d.successPoint, d.intersection, d.retest)) =
      .ok (true, some (8, 3), some (4, 0), some (6, 0)) := by decide +kernel

/-- The same without the retest point fails to succeed. -/
example : (predictions (plain 2) { Pred.reset with origin := some (0, 0) }
    [([⟨(0, 0), .tangent⟩, ⟨(2, 0), .tangent⟩, ⟨(4, 0), .intersection⟩, ⟨(5, 1), .extrema⟩, ⟨(7, 2), .extrema⟩,
       ⟨(8, 3), .extrema⟩], [(8, 3)])]).map (fun d => (d.succeeded, d.failed)) = .ok (false, true) := by decide +kernel
/-! ## An instance of each theorem -/

/-- The line of `fulfilledRun`. -/
def fulfilledLine : TLine := appendedD (TLine.new 2 true 2 0 10 none (some (1 / 10)) (8 / 5)) fulfilledRun

theorem fulfilledLine_grown : Grown fulfilledLine := appendedD_grown (Grown.new _ _ _ _ _ _ _ _) _

theorem fulfilledLine_succeeded : fulfilledLine.pred.succeeded = true := by decide +kernel

example : fulfilledLine.pred.failed = false := by
  have := C59_exclusive fulfilledLine_grown
  simpa [fulfilledLine_succeeded] using this

example : ∃ i e p, fulfilledLine.pred.intersection = some i ∧ fulfilledLine.pred.extrema = some e ∧
    fulfilledLine.pred.successPoint = some p ∧ p = (7, 3) ∧ Reaches fulfilledLine i e p := by
  obtain ⟨_, i, _, e, p, _, h1, _, h2, h3, _, _, h4, _⟩ := C59_recorded fulfilledLine_grown fulfilledLine_succeeded
  refine ⟨i, e, p, h1, h2, h3, ?_, h4⟩
  have : fulfilledLine.pred.successPoint = some (7, 3) := by decide +kernel
  rw [h3] at this
  exact Option.some.inj this

example (ms : List Mark) (ps : List XY) : fulfilledLine.predict fulfilledLine.pred ms ps = .ok fulfilledLine.pred :=
  C59_final _ _ (.inl fulfilledLine_succeeded) ms ps

/-- The two calls of `goodCalls`: points of them make up a success at `(8, 3)`. -/
example : ∃ parts, List.Forall₂ (fun part c => List.Sublist part (Prod.fst c)) parts goodCalls ∧
    Succeeds (plain 2) (0, 0) parts.flatten (8, 3) := by
  have key : (match predictions (plain 2) { Pred.reset with origin := some (0, 0) } goodCalls with
      | .ok d => d.succeeded && decide (d.successPoint = some (8, 3))
      | .error _ => false) = true := by decide +kernel
  match e : predictions (plain 2) { Pred.reset with origin := some (0, 0) } goodCalls, key with
  | .ok d, key =>
    simp only [Bool.and_eq_true, decide_eq_true_eq] at key
    obtain ⟨parts, p, h1, h2, h3⟩ := C59_success e key.1
    rw [key.2] at h2
    cases h2
    exact ⟨parts, h1, h3⟩

/-- The first of them alone: the line is crossed at `(4, 0)`, after two tangent points. -/
example : ∃ a i b, (goodCalls.headD ([], [])).1 = a ++ i :: b ∧ i.pt = (4, 0) ∧ i.kind = .intersection ∧
    2 ≤ (a.filter fun m => decide (m.kind = .tangent)).length := by
  have key : (match (plain 2).predict { Pred.reset with origin := some (0, 0) } (goodCalls.headD ([], [])).1 [(5, 1)] with
      | .ok d => !d.failed && decide (d.phase ≠ .none) && decide (d.intersection = some (4, 0))
      | .error _ => false) = true := by decide +kernel
  match e : (plain 2).predict { Pred.reset with origin := some (0, 0) } (goodCalls.headD ([], [])).1 [(5, 1)], key with
  | .ok d, key =>
    simp only [Bool.and_eq_true, decide_eq_true_eq, Bool.not_eq_true'] at key
    obtain ⟨a, i, b, h1, h2, h3, h4⟩ := C79_partial e key.1.1 key.1.2
    rw [key.2] at h2
    exact ⟨a, i, b, h1, (Option.some.inj h2).symm, h3, h4⟩

/-- A point off the line leaves the success as it is. -/
example : ∃ u b, fulfilledLine.didAppend (10, 9) (fulfilledRun ++ [(10, 9)]) = .ok (u, b) ∧ u.pred.succeeded = true ∧
    u.pred.successPoint = some (7, 3) := by
  have key : (match fulfilledLine.didAppend (10, 9) (fulfilledRun ++ [(10, 9)]) with
      | .ok _ => true
      | .error _ => false) = true := by decide +kernel
  match e : fulfilledLine.didAppend (10, 9) (fulfilledRun ++ [(10, 9)]), key with
  | .ok (u, b), _ =>
    obtain ⟨h1, _, h2, _⟩ := C80_partial (by decide +kernel) (by decide +kernel) e (.inl fulfilledLine_succeeded)
    refine ⟨u, b, rfl, h1.trans fulfilledLine_succeeded, h2.trans ?_⟩
    decide +kernel

end Props
end Curvepy
