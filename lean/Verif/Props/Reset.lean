import Verif.Spec.Reset
import Verif.Props.EmaInit
import Verif.Props.Holes
import Verif.Props.ExtremasScan
import Verif.Props.Combinators

/-!
# Property C169: calculating anew
-/

namespace Curvepy
namespace Props
open Spec Pts Accum EmaInit Sma

variable {alpha period : Option ℚ} {m : ℚ} {i : Interp} {u : Bool} {fr : ℚ → ℚ → ℚ} {H : List (ℚ → Option ℚ)} {A : Accum} {E : EmaInit}
  {t : Tfm} {g g' : Rule} {w : Window}

/-! ## Accumulators -/

/-- What happens, between two updates: everything found is forgotten, and one update of everything is announced. -/
theorem beginReset_spec (ha : Honest A.acc) (hb : A.bIv = Iv.empty) (he : A.eIv = Iv.empty) :
    ∃ B : Accum, A.beginReset = ({ B with bIv := Iv.infinite }, [Iv.infinite], none) ∧
      ({ B with bIv := Iv.infinite } : Accum).endReset = ({ B with bIv := Iv.empty, eIv := Iv.empty, cache := none }, [Iv.infinite]) ∧
      B.src = A.src ∧ B.minStep = A.minStep ∧ B.scanStart = none ∧ B.current = none ∧ Honest B.acc ∧ B.acc.points = [] ∧
      B.acc.interp = A.acc.interp ∧ B.acc.force = A.acc.force := by
  obtain ⟨r1, r2, r3, r4, r5⟩ := reset_none_ok ha quiet
  refine ⟨A.resetScan, ?_, (gate_roundtrip (B := A.resetScan) hb he (by decide +kernel)).2, rfl, rfl, rfl, rfl, r2, r3, r4, r5⟩
  have : A.resetScan.acc.reset (some Iv.infinite) quiet = ⟨A.resetScan.acc, [], none⟩ := by
    simp [Pts.reset, show A.resetScan.acc.points = [] from r3]
  unfold beginReset Accum.beginUpdate
  simp only [this]
  rw [(gate_roundtrip (B := A.resetScan) hb he (by decide +kernel)).1]

theorem recalculate_spec (ha : Honest A.acc) (hb : A.bIv = Iv.empty) (he : A.eIv = Iv.empty) :
    A.recalculate.2 = none ∧ A.recalculate.1.src = A.src ∧ A.recalculate.1.minStep = A.minStep ∧ A.recalculate.1.scanStart = none ∧
      A.recalculate.1.current = none ∧ A.recalculate.1.cache = none ∧ A.recalculate.1.bIv = Iv.empty ∧
      A.recalculate.1.eIv = Iv.empty ∧ Honest A.recalculate.1.acc ∧ A.recalculate.1.acc.points = [] ∧
      A.recalculate.1.acc.interp = A.acc.interp ∧ A.recalculate.1.acc.force = A.acc.force := by
  obtain ⟨B, h1, h2, h3, h4, h5, h6, h7, h8, h9, h10⟩ := beginReset_spec ha hb he
  have : A.recalculate = ({ B with bIv := Iv.empty, eIv := Iv.empty, cache := none }, none) := by
    unfold Accum.recalculate
    rw [h1]
    simp only
    rw [h2]
  rw [this]
  exact ⟨rfl, h3, h4, h5, h6, rfl, rfl, rfl, h7, h8, h9, h10⟩

/-- What was found by one rule is forgotten, so that the state is one for any rule. -/
theorem sound_recalculate {seen todo : List (Pt ℚ)} (h : Sound g m i u A seen todo) :
    Sound g' m i u A.recalculate.1 [] A.src.points := by
  obtain ⟨_, r2, r3, r4, r5, r6, r7, r8, r9, r10, r11, r12⟩ := recalculate_spec h.acc h.idleB h.idleE
  exact ⟨r2 ▸ h.src, by rw [r2]; rfl, r2 ▸ h.fit, r9, r11.trans h.interp, r12.trans h.force, by rw [r10]; rfl, r5, by simp,
    r3.trans h.step, Or.inl r6, r7, r8⟩

theorem renewed_sound (hm : 0 < m) (h : Renewed m i u t g A) : Follows m t g ∧ ∃ seen todo, Sound g m i u A seen todo := by
  induction h with
  | new hg hs hf => exact ⟨hg, _, _, Sound.new hs hf⟩
  | query _ ho ih =>
    obtain ⟨hg, _, _, ih⟩ := ih
    obtain ⟨o', h1, _, _, h2⟩ := ih.query hg hm _
    rw [ho] at h1
    cases h1
    exact ⟨hg, h2⟩
  | edit _ hl he ht hfit ih =>
    obtain ⟨hg, _, _, ih⟩ := ih
    exact ⟨hg, (ih.edit hl _ he ht hfit).2.2⟩
  | read _ ih =>
    obtain ⟨hg, _, _, ih⟩ := ih
    exact ⟨hg, _, _, ih.touch⟩
  | readSource _ ih =>
    obtain ⟨hg, _, _, ih⟩ := ih
    exact ⟨hg, _, _, ih.touchSrc⟩
  | anew _ hg ih =>
    obtain ⟨_, _, _, ih⟩ := ih
    exact ⟨hg, _, _, sound_recalculate ih⟩

/-- C169: calculating anew does not raise, tells the observers once that everything changes and once that it has changed, and leaves the
source as it is. -/
theorem C169_announced (hm : 0 < m) (h : Renewed m i u t g A) :
    A.beginReset.2 = ([Iv.infinite], none) ∧ A.beginReset.1.endReset.2 = [Iv.infinite] ∧ A.recalculate.2 = none ∧
      A.recalculate.1.src = A.src := by
  obtain ⟨_, _, _, hs⟩ := renewed_sound hm h
  obtain ⟨B, h1, h2, _⟩ := beginReset_spec hs.acc hs.idleB hs.idleE
  obtain ⟨r1, r2, _⟩ := recalculate_spec hs.acc hs.idleB hs.idleE
  refine ⟨by rw [h1], ?_, r1, r2⟩
  rw [h1]
  simp only
  rw [h2]

/-- C169: with a new calculation at any time, after which the transform may be another one, every answer is the fold of the present rule
over the points of the source. -/
theorem C169_fold (hm : 0 < m) (h : Renewed m i u t g A) (x : Ext) :
    ∃ o, A.query t x = some o ∧ o.res = accumulatedAt g i A.src.points x ∧ o.st.src.points = A.src.points := by
  obtain ⟨hg, _, _, hs⟩ := renewed_sound hm h
  obtain ⟨o, h1, h2, h3, _⟩ := hs.query hg hm x
  exact ⟨o, h1, h3, h2⟩

/-- C169: right after it the answers are those of an accumulator made now. -/
theorem C169_as_new (hm : 0 < m) (h : Renewed m i u t g A) {t' : Tfm} (hg : Follows m t' g') (x : Ext) :
    (A.recalculate.1.query t' x).map Out.res = ((Accum.new A.src m i u).query t' x).map Out.res := by
  obtain ⟨_, _, _, hs⟩ := renewed_sound hm h
  obtain ⟨a, h1, h2, _⟩ := C169_fold hm (.anew h hg) x
  obtain ⟨b, h3, h4, _⟩ := C169_fold hm (.new (i := i) hg hs.src hs.fit) x
  rw [h1, h3, Option.map_some, Option.map_some, h2, h4, (C169_announced hm h).2.2.2]
  rfl

/-! ## Averages that begin at another curve -/

theorem primed_anew (hm : 0 < m) (hw : Fraction alpha period fr) (h : PrimedAnew alpha period m u H E) : Held fr m u H E := by
  induction h with
  | new hs hf hI =>
    exact ⟨hI, List.mem_singleton.2 rfl, _, fun x => ⟨_, List.mem_singleton.2 rfl, rfl⟩, _, _, Sound.new hs hf⟩
  | query _ ho ih =>
    obtain ⟨E', r, _, h1, h2, _⟩ := ih.ask hm hw _
    rw [h1] at ho
    cases ho
    exact h2
  | edit _ hl he ht hf ih =>
    obtain ⟨h1, h2, f, h3, seen, todo, h4⟩ := ih
    exact ⟨h1, h2, f, h3, (h4.edit hl _ he ht hf).2.2⟩
  | editInit _ hl he ht ih =>
    obtain ⟨h1, h2, f, h3, h4⟩ := ih
    refine ⟨.edit h1 hl he ht, List.mem_cons_self, f, fun x => ?_, h4⟩
    obtain ⟨h, hh, hx⟩ := h3 x
    exact ⟨h, List.mem_cons_of_mem _ hh, hx⟩
  | read _ ih =>
    obtain ⟨h1, h2, f, h3, seen, todo, h4⟩ := ih
    exact ⟨h1, h2, f, h3, _, _, h4.touch⟩
  | readSource _ ih =>
    obtain ⟨h1, h2, f, h3, seen, todo, h4⟩ := ih
    exact ⟨h1, h2, f, h3, _, _, h4.touchSrc⟩
  | anew _ ih =>
    obtain ⟨h1, _, _, _, seen, todo, h4⟩ := ih
    exact ⟨h1, List.mem_singleton.2 rfl, _, fun x => ⟨_, List.mem_singleton.2 rfl, rfl⟩, _, _, sound_recalculate h4⟩

/-- C169: an average that takes its first value from another curve takes one that this curve has had since all was last calculated
anew. -/
theorem C169_since (hm : 0 < m) (hw : Fraction alpha period fr) (h : PrimedAnew alpha period m u H E) {k : ℕ} {p : Pt ℚ}
    (hk : E.ema.src.points[k]? = some p) :
    ∃ f : ℚ → Option ℚ, (∀ x, ∃ h ∈ H, f x = h x) ∧ (E.query alpha period (.fin p.1)).map Prod.snd =
      some (.ok (stepFold (emaStep fr (some f)) none none (E.ema.src.points.take (k + 1)))) := by
  have h0 := primed_anew hm hw h
  obtain ⟨E', r, f, h1, h2, h3, _, _, h4⟩ := h0.ask hm hw (.fin p.1)
  refine ⟨f, h3, ?_⟩
  rw [h1, Option.map_some, h4, accumulatedAt_step _ _ h0.asc hk]

/-- C169: so after a new calculation it begins from the present value, whatever the other curve was before. -/
theorem C169_init (hm : 0 < m) (hw : Fraction alpha period fr) (h : PrimedAnew alpha period m u H E) {k : ℕ} {p : Pt ℚ}
    (hk : E.ema.src.points[k]? = some p) :
    (E.recalculate.1.query alpha period (.fin p.1)).map Prod.snd =
      some (.ok (stepFold (emaStep fr (some (valuesOf E.init))) none none (E.ema.src.points.take (k + 1)))) := by
  obtain ⟨_, _, _, _, seen, todo, hs⟩ := primed_anew hm hw h
  obtain ⟨_, r2, _⟩ := recalculate_spec hs.acc hs.idleB hs.idleE
  have hp : E.recalculate.1.ema.src.points = E.ema.src.points := by
    show E.ema.recalculate.1.src.points = _
    rw [r2]
  obtain ⟨f, h1, h2⟩ := C169_since hm hw (.anew h) (k := k) (p := p) (by rw [hp]; exact hk)
  rw [h2, hp, stepFold_congr fun q _ => ?_]
  obtain ⟨g, hg, he⟩ := h1 q.1
  rw [he, List.mem_singleton.1 hg]

/-! ## Simple moving averages -/

theorem averaging_anew_ok (hm : minStepQ ≤ m) (hw : Fits m w) (h : AveragingAnew w m u A) :
    Ok w m u A.src.points A ∧ SmaSound w m u A.recalculate.1 [] [] A.src.points ∧ A.recalculate.1.src = A.src := by
  have key : ∀ {B : Accum}, Ok w m u B.src.points B → Ok w m u B.src.points B ∧
      SmaSound w m u B.recalculate.1 [] [] B.src.points ∧ B.recalculate.1.src = B.src := by
    intro B hB
    refine ⟨hB, ?_⟩
    obtain ⟨_, skip, seen, todo, hs⟩ := hB
    obtain ⟨_, r2, r3, r4, r5, r6, r7, r8, r9, r10, r11, r12⟩ := recalculate_spec hs.acc hs.idleB hs.idleE
    exact ⟨⟨r2 ▸ hs.src, by rw [r2]; rfl, r2 ▸ hs.fit, r9, r11.trans hs.interp, r12.trans hs.force, by rw [r10]; rfl, r5, by simp,
      r3.trans hs.step, (by intro d hd; rw [r6] at hd; cases hd), r7, r8⟩, r2⟩
  apply key
  induction h with
  | new hs hf hn =>
    unfold Sma.new at hn
    split at hn
    · cases hn
      exact ⟨rfl, _, _, _, SmaSound.new hs hf⟩
    · cases hn
  | query _ ho ih =>
    obtain ⟨o, h1, h2⟩ := smaY_ends hm hw _ _ _ ih
    rw [ho] at h1
    cases h1
    exact ⟨rfl, h2.2⟩
  | edit _ hl he ht hf ih =>
    obtain ⟨_, _, _, _, hs⟩ := ih
    exact ⟨rfl, (hs.edit hl _ he ht hf).2.2⟩
  | read _ ih =>
    obtain ⟨_, _, _, _, hs⟩ := ih
    obtain ⟨B, d, h1, _, _, h2⟩ := smaTouch_spec hs
    rw [h1]
    exact ⟨rfl, _, _, _, h2⟩
  | readSource _ ih =>
    obtain ⟨_, _, _, _, hs⟩ := ih
    exact ⟨rfl, _, _, _, hs.touchSrc⟩
  | anew _ ih => exact ⟨rfl, _, _, _, (key ih).2.1⟩

/-- C169: over missing values the answer of a simple moving average depends on what was asked before (C166); after a new calculation it is
that of a new average. -/
theorem C169_sma (hm : minStepQ ≤ m) {n : ℕ} (hn : 2 ≤ n) (h : AveragingAnew (.degree n) m u A) {k : ℕ} {p q : Pt ℚ}
    (hj : A.src.points[k + 1 - n]? = some p) (hk : A.src.points[k]? = some q) (hnk : n ≤ k + 1) (fuel : ℕ) :
    (smaY (.degree n) (fuel + 1) A.recalculate.1 (.fin q.1)).map Out.res =
      some (.ok (if Valued (stretch A.src.points (k + 1 - n - (n - 1)) (k + 1 - n))
        then some (partArea (stretch A.src.points (k + 1 - n) k) / (q.1 - p.1)) else none)) := by
  obtain ⟨_, hs, hr⟩ := averaging_anew_ok hm (show Fits m (.degree n) from by unfold Fits; omega) h
  obtain ⟨out, s, h1, _, h2, h3, h4⟩ := degree_holes hm hn hs (P := A.src.points) (by rw [hr]) hj hk hnk fuel
  rw [h1, Option.map_some, h4, h3 rfl]

/-! ## Extremas and trends -/

theorem dropStale_all : ∀ es : List (ℚ × ℚ), Extr.dropStale Iv.infinite es = ([], decide (es ≠ []))
  | [] => rfl
  | e :: es => by
    unfold Extr.dropStale
    rw [if_pos (Iv.contains_infinite _), dropStale_all es]
    simp

/-- C169: extremas of which at least one was found are after a new calculation extremas made now, after any edits and queries; and it does
not raise. -/
theorem C169_extremas (A : Extr) (h : A.extremas ≠ [] ∨ A.possible = none) (hd : 0 ≤ A.minDev) :
    A.recalculate = (Extr.new A.src A.ref A.minDev A.minStep, none) := by
  unfold Extr.recalculate Extr.beginUpdate
  simp only [Extr.resetScan, dropStale_all, List.reverse_nil, List.getLast?_nil, ne_eq, List.reverse_eq_nil_iff, Extr.new, abs_of_nonneg hd]
  rcases h with h | h
  · simp [h]
  · simp [h]

theorem removeStale_all (ps : List XY) : TLine.removeStale Iv.infinite ps = [] := by
  have : ∀ ps : List XY, TLine.staleLoop Iv.infinite ps = [] := by
    intro ps
    induction ps with
    | nil => rfl
    | cons p ps ih =>
      unfold TLine.staleLoop
      rw [if_pos (Iv.contains_infinite _), ih]
  unfold TLine.removeStale
  rw [this]
  rfl

theorem bare_setTrend (l : TLine) (h : l.boundary = []) : ∃ l', TLine.setTrend l = .ok l' ∧ l'.trend = [] := by
  unfold TLine.setTrend
  rw [h]
  exact ⟨_, rfl, rfl⟩

theorem bare_updateTrend (l : TLine) (hb : l.boundary = []) (ht : l.trend = []) :
    ∃ l', TLine.updateTrend l [] = .ok l' ∧ l'.trend = [] := by
  obtain ⟨k, hk, hkt⟩ : ∃ k, TLine.renew l = .ok k ∧ k.trend = [] := by
    unfold TLine.renew
    split
    · exact bare_setTrend l hb
    · exact ⟨l, rfl, ht⟩
  obtain ⟨minWidth, upper, minPoints, minDist, searchRel, yRel, yAbs, gold, trend, boundary, tangents, line, search, intersections,
    extremas, tolUpper, tolLower, pred⟩ := k
  simp only at hkt
  subst hkt
  unfold TLine.updateTrend
  rw [hk]
  exact ⟨_, rfl, rfl⟩

theorem bare_line (l : TLine) (h : l.trend ≠ [] → l.search.isEmpty = false) :
    ∃ l', TLine.beginUpdate l Iv.infinite [] = .ok l' ∧ l'.isEmpty = true := by
  unfold TLine.beginUpdate
  split
  · rename_i hs
    refine ⟨l, rfl, ?_⟩
    by_contra hc
    have hne : l.trend ≠ [] := by
      intro h0
      apply hc
      simp [TLine.isEmpty, h0]
    have := h hne
    obtain ⟨x, hx⟩ := Iv.exists_mem _ this
    have h1 : l.search.intersects Iv.infinite = true := (Iv.intersects_iff _ _).2 ⟨x, hx, Iv.contains_infinite x⟩
    rw [h1] at hs
    cases hs
  · simp only [removeStale_all]
    split
    · obtain ⟨l', h1, h2⟩ := bare_updateTrend { l with trend := [], boundary := [], intersections := [], tangents := [], extremas := [] }
        rfl rfl
      exact ⟨l', h1, by simp [TLine.isEmpty, h2]⟩
    · exact ⟨_, rfl, rfl⟩

theorem bare_lines : ∀ ls : List TLine, (∀ l ∈ ls, l.trend ≠ [] → l.search.isEmpty = false) →
    Trd.updateLines Iv.infinite [] ls = .ok [] := by
  intro ls h
  have key : ∀ ks : List TLine, (∀ l ∈ ks, l.trend ≠ [] → l.search.isEmpty = false) →
      ∃ os : List TLine, ks.mapM (fun l => l.beginUpdate Iv.infinite []) = .ok os ∧ ∀ l ∈ os, l.isEmpty = true := by
    intro ks
    induction ks with
    | nil => intro _; exact ⟨[], rfl, by simp⟩
    | cons k ks ih =>
      intro hk
      obtain ⟨k', h1, h2⟩ := bare_line k (hk k (by simp))
      obtain ⟨os, h3, h4⟩ := ih fun l hl => hk l (by simp [hl])
      refine ⟨k' :: os, ?_, ?_⟩
      · rw [List.mapM_cons, h1, h3]; rfl
      · intro l hl
        rcases List.mem_cons.1 hl with rfl | hl
        · exact h2
        · exact h4 l hl
  obtain ⟨os, h1, h2⟩ := key ls.reverse fun l hl => h l (List.mem_reverse.1 hl)
  unfold Trd.updateLines
  rw [h1]
  show Except.ok (os.reverse.filter fun l => !l.isEmpty) = _
  rw [List.filter_eq_nil_iff.2]
  intro l hl
  simp [h2 l (List.mem_reverse.1 hl)]

theorem bare_nested (nested : List (List TLine)) (hne : nested ≠ [])
    (h : ∀ ls ∈ nested, ∀ l ∈ ls, l.trend ≠ [] → l.search.isEmpty = false) :
    Trd.updateNested Iv.infinite [] nested = .ok [[]] := by
  have h1 : nested.reverse.mapM (Trd.updateLines Iv.infinite []) = .ok (nested.reverse.map fun _ => []) :=
    mapM_all_ok _ _ _ fun ls hls => bare_lines ls (h ls (List.mem_reverse.1 hls))
  unfold Trd.updateNested
  rw [h1]
  have h2 : (nested.reverse.map fun _ => ([] : List TLine)).reverse = nested.map fun _ => [] := by
    rw [← List.map_reverse, List.reverse_reverse]
  show (match (nested.reverse.map fun _ => ([] : List TLine)).reverse with
    | [] => pure []
    | l :: rest => pure (l :: rest.filter fun l => decide (l.length ≠ 0))) = _
  rw [h2]
  cases nested with
  | nil => exact absurd rfl hne
  | cons l ls =>
    simp only [List.map_cons]
    rw [List.filter_eq_nil_iff.2]
    · rfl
    · intro k hk
      obtain ⟨_, _, rfl⟩ := List.mem_map.1 hk
      simp

/-- A new calculation removes all points and lines, if every line with points searches somewhere. -/
theorem trend_bare (A : TScan) (hu : A.trd.upper ≠ []) (hl : A.trd.lower ≠ [])
    (h : ∀ l ∈ A.allLines, l.trend ≠ [] → l.search.isEmpty = false) :
    A.recalculate = .ok (TScan.new A.src { A.trd with points := [], upper := [[]], lower := [[]] } A.minStep) := by
  have h1 := bare_nested A.trd.upper hu fun ls hls l hll => h l (by simp [TScan.allLines]; exact Or.inl ⟨ls, hls, hll⟩)
  have h2 := bare_nested A.trd.lower hl fun ls hls l hll => h l (by simp [TScan.allLines]; exact Or.inr ⟨ls, hls, hll⟩)
  unfold TScan.recalculate Trd.beginUpdate
  simp only [TScan.resetScan, removeStale_all]
  rw [h1, h2]
  rfl

/-! ## Examples -/

/-- Half of the way each time; then, calculated anew, a quarter. -/
example : ∃ o, (Accum.new (even .linear) 1).query (emaTfm (some (1 / 2)) none none 1) (.fin 4) = some o ∧
    (o.st.recalculate.1.query (emaTfm (some (1 / 4)) none none 1) (.fin 4)).map Out.res =
      ((Accum.new o.st.src 1).query (emaTfm (some (1 / 4)) none none 1) (.fin 4)).map Out.res := by
  have h0 : Renewed 1 .linear true _ _ (Accum.new (even .linear) 1) :=
    .new (ema_follows_alpha (m := 1) (1 / 2) none 1) (even_honest .linear) (even_fit true .linear)
  obtain ⟨o, h, _⟩ := C169_fold one_pos h0 (.fin 4)
  exact ⟨o, h, C169_as_new one_pos (.query h0 h) (ema_follows_alpha (m := 1) (1 / 4) none 1) (.fin 4)⟩

/-- Without calculating anew the old results stay. -/
example : (((Accum.new (even .linear) 1).query (emaTfm (some (1 / 2)) none none 1) (.fin 4)).bind fun o =>
      (o.st.query (emaTfm (some (1 / 4)) none none 1) (.fin 4)).map Out.res) = some (.ok (some (7 / 2))) ∧
    (((Accum.new (even .linear) 1).query (emaTfm (some (1 / 2)) none none 1) (.fin 4)).bind fun o =>
      (o.st.recalculate.1.query (emaTfm (some (1 / 4)) none none 1) (.fin 4)).map Out.res) = some (.ok (some (5 / 2))) ∧
    (Accum.new (even .linear) 1).beginReset.2 = ([Iv.infinite], none) := by
  refine ⟨?_, ?_, ?_⟩ <;> decide +kernel

/-- The witness of C168 put right: the other curve is 100 everywhere, and the average begins at 10 until it is calculated anew. -/
example : ((primedBy risePts startPts 1).query (some (1 / 2)) none (.fin 0)).map (fun r =>
      let E := r.1.editInit (.set [(0, some 100), (1, some 100), (2, some 100)]) quiet
      ((E.query (some (1 / 2)) none (.fin 0)).map Prod.snd, (E.recalculate.1.query (some (1 / 2)) none (.fin 0)).map Prod.snd)) =
    some (some (.ok (some 10)), some (.ok (some 100))) := by decide +kernel

example : ((primedBy risePts startPts 1).recalculate.1.query (some (1 / 2)) none (.fin 2)).map Prod.snd = some (.ok (some (21 / 2))) := by
  have hp : (loose risePts).points = risePts := by decide +kernel
  have h : PrimedAnew (some (1 / 2)) none 1 true [valuesOf (loose startPts)] (primedBy risePts startPts 1) := by
    refine .new (loose_honest (by norm_num [Ascending, risePts]) ⟨1, by norm_num [risePts]⟩ (by decide +kernel)) ?_
      (loose_honest (by norm_num [Ascending, startPts]) ⟨1, by norm_num [startPts]⟩ (by decide +kernel))
    rw [hp]
    exact allFit_of_spaced (by norm_num [Gapped, risePts]) ⟨1, by norm_num [risePts]⟩ _ (List.suffix_refl _)
  exact (C169_init (by norm_num) (.alpha _) h (k := 2) (p := (2, some 12)) (by decide +kernel)).trans (by decide +kernel)

/-- The witness of C166 put right. -/
example : ((smaY (.degree 2) 1 (smaOver holePts 1) (.fin 4)).bind fun o => (smaY (.degree 2) 1 o.st (.fin 6)).map Out.res) =
      some (.ok (some 0)) ∧
    ((smaY (.degree 2) 1 (smaOver holePts 1) (.fin 4)).bind fun o => (smaY (.degree 2) 1 o.st.recalculate.1 (.fin 6)).map Out.res) =
      some (.ok none) := by
  refine ⟨?_, ?_⟩ <;> decide +kernel

/-- Query, edit, calculate anew, query again. -/
def extrAnew (A : Extr) (x : ℚ) (op : Op ℚ) (y : ℚ) : Option (Except Err (Option ℚ) × List (ℚ × ℚ)) :=
  (A.query (.fin x)).bind fun r => ((r.1.edit op quiet).1.recalculate.1.query (.fin y)).map fun r => (r.2, r.1.extremas)

/-- A witness of C60 put right: the extremum whose confirmation was withdrawn is gone. -/
example :
    let A := Extr.new (loose [(0, some 8), (1, some 6), (2, some 12)]) ten 0 1
    let op : Op ℚ := .replace (2, some 4) false
    extrTwice A 2 op 1 = some (.ok (some 6), [(1, 6)]) ∧ extrAnew A 2 op 1 = some (.ok none, []) := by
  refine ⟨?_, ?_⟩ <;> decide +kernel

example (A : Extr) (h : A.extremas ≠ []) (hd : 0 ≤ A.minDev) (x : Ext) :
    A.recalculate.1.query x = (Extr.new A.src A.ref A.minDev A.minStep).query x := by
  rw [C169_extremas A (Or.inl h) hd]

/-- C169: calculating anew does not forget a possible extremum if none was found yet.  After an edit it is recorded, though it is not on the
curve; extremas made now record `(0, 8)`. -/
theorem C169_negation :
    let A := Extr.new (loose [(0, some 8), (1, some 6)]) ten 0 1
    let op : Op ℚ := .set [(0, some 8), (1, some 9), (2, some 12)]
    extrAnew A 1 op 1 = some (.ok (some 6), [(1, 6)]) ∧
    ((A.edit op quiet).1.query (.fin 1)).map (fun r => (r.2, r.1.extremas)) = some (.ok none, [(0, 8)]) ∧
    (op.run A.src quiet).st.points = [(0, some 8), (1, some 9), (2, some 12)] := by
  refine ⟨?_, ?_, ?_⟩ <;> decide +kernel

end Props
end Curvepy
