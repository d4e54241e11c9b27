import Verif.Lemmas.TowerHistory

/-!
# C125, C126: accumulators over accumulators
-/

namespace Curvepy
namespace Props
open Spec Pts Accum

variable {t : Tfm} {g : Rule} {m : ℚ} {i : Interp} {u : Bool} {pts : List (Pt ℚ)} {ls : List Storey}

/-! ## The knots -/

theorem plain_steps (S : Storey) : ∀ (todo seen out : List (Pt ℚ)), ∃ tl,
    (runRule (plainRule S.tfm) seen out todo).1 = out ++ tl ∧ tl.length = todo.length ∧
      ∀ k p, todo[k]? = some p →
        tl[k]? = some (p.1, S.f p.1 p.2 (if k = 0 then lastOut out else ((tl[k - 1]?).map Prod.snd).getD none)) := by
  intro todo
  induction todo with
  | nil => intro seen out; exact ⟨[], by simp [runRule], rfl, by simp⟩
  | cons p ps ih =>
    intro seen out
    have hg : plainRule S.tfm (seen ++ [p]) out = .ok (S.f p.1 p.2 (lastOut out)) := by simp [plainRule, Storey.tfm]
    obtain ⟨tl, h1, h2, h3⟩ := ih (seen ++ [p]) (out ++ [(p.1, S.f p.1 p.2 (lastOut out))])
    refine ⟨(p.1, S.f p.1 p.2 (lastOut out)) :: tl, ?_, by simp [h2], ?_⟩
    · simp only [runRule, hg, h1, List.append_assoc, List.singleton_append]
    · intro k q hk
      cases k with
      | zero => simp at hk; subst hk; simp
      | succ k =>
        simp only [List.getElem?_cons_succ] at hk
        have := h3 k q hk
        rw [List.getElem?_cons_succ, this]
        cases k with
        | zero => simp [lastOut]
        | succ k => simp

theorem towerKnots_step (S : Storey) {k : ℕ} {p : Pt ℚ} (hk : (towerKnots g ls pts)[k]? = some p) :
    (towerKnots g (S :: ls) pts)[k]? = some (p.1, S.f p.1 p.2
      (if k = 0 then none else (((towerKnots g (S :: ls) pts)[k - 1]?).map Prod.snd).getD none)) := by
  obtain ⟨tl, h1, h2, h3⟩ := plain_steps S (towerKnots g ls pts) [] []
  have e : towerKnots g (S :: ls) pts = tl := by
    show (runRule (plainRule S.tfm) [] [] (towerKnots g ls pts)).1 = tl
    rw [h1]; rfl
  rw [e]
  have := h3 k p hk
  simpa [lastOut] using this

theorem towerKnots_at (hg : NeverRaises g) {k : ℕ} {p : Pt ℚ} (hk : pts[k]? = some p) :
    ∃ v, (towerKnots g ls pts)[k]? = some (p.1, v) := by
  have h : ((towerKnots g ls pts).map Prod.fst)[k]? = some p.1 := by
    rw [towerKnots_xs hg, List.getElem?_map, hk]; rfl
  rw [List.getElem?_map, Option.map_eq_some_iff] at h
  obtain ⟨⟨x, v⟩, h1, h2⟩ := h
  exact ⟨v, by rw [h1]; exact congrArg _ (Prod.ext h2 rfl)⟩

theorem towerKnots_value (hg : NeverRaises g) (hasc : Ascending pts) (j : Interp) {k : ℕ} {p : Pt ℚ}
    (hk : (towerKnots g ls pts)[k]? = some p) : valueAtE j (towerKnots g ls pts) (.fin p.1) = p.2 :=
  valueAt_mem (ascending_xs (towerKnots_xs hg ls pts) hasc) (List.mem_of_getElem? hk)

/-! ## C125 -/

/-- C125: accumulators over each other, of any number and after any reads at any height and any edits of the points, have
the values of the folds over folds, interpolated; reading never raises. -/
theorem C125_values (hf : Follows m t g) (hm : 0 < m) (hg : NeverRaises g) (hS : ∀ S ∈ ls, 0 < S.minStep)
    {s : TowerState ls} (h : TowerUsed t m i u ls s) (x : Ext) :
    ((tower t ls).machine.y x s).map Prod.fst =
      some (.ok ((valueAtE (towerInterp i ls) (towerKnots g ls ((tower t ls).src s).points) x).map .fin)) :=
  agrees_result (tower_y hf hm hg x ls hS) (tower_used hf hm hg hS h)

/-- C125: the domain is that of the points. -/
theorem C125_domain (hf : Follows m t g) (hm : 0 < m) (hg : NeverRaises g) (hS : ∀ S ∈ ls, 0 < S.minStep)
    {s : TowerState ls} (h : TowerUsed t m i u ls s) :
    ((tower t ls).machine.dom s).map Prod.fst = some (.ok (span ((tower t ls).src s).points)) := by
  have := agrees_result (tower_shown (c := 0) hf hm hg ls hS).dom (tower_used hf hm hg hS h)
  rw [span_xs (towerKnots_xs hg ls _)] at this
  exact this

/-- C125: at every point the outer accumulator has what its transform makes of the value that the inner one has there
when asked itself and of the value that the outer one has at the point before; nothing before the first. -/
theorem C125_recurrence (hf : Follows m t g) (hm : 0 < m) (hg : NeverRaises g) {S : Storey}
    (hS : ∀ T ∈ S :: ls, 0 < T.minStep) {s : Layer × TowerState ls} (h : TowerUsed t m i u (S :: ls) s) {k : ℕ} {p : Pt ℚ}
    (hk : ((tower t (S :: ls)).src s).points[k]? = some p) :
    ∃ inner before : Option ℚ,
      ((tower t ls).machine.y (.fin p.1) s.2).map Prod.fst = some (.ok (inner.map .fin)) ∧
      (k = 0 → before = none) ∧
      (∀ q, k ≠ 0 → ((tower t (S :: ls)).src s).points[k - 1]? = some q →
        ((tower t (S :: ls)).machine.y (.fin q.1) s).map Prod.fst = some (.ok (before.map .fin))) ∧
      ((tower t (S :: ls)).machine.y (.fin p.1) s).map Prod.fst = some (.ok ((S.f p.1 inner before).map .fin)) := by
  have hF := tower_used hf hm hg hS h
  have hasc := tower_asc hF
  have hin := hF.2
  set pts := ((tower t (S :: ls)).src s).points with hpts
  obtain ⟨v, hv⟩ := towerKnots_at (ls := ls) hg hk
  have hw := towerKnots_step S hv
  refine ⟨v, if k = 0 then none else (((towerKnots g (S :: ls) pts)[k - 1]?).map Prod.snd).getD none, ?_, ?_, ?_, ?_⟩
  · rw [agrees_result (tower_y hf hm hg (.fin p.1) ls fun T hT => hS T (List.mem_cons_of_mem _ hT)) hin,
      towerKnots_value hg hasc _ hv]
  · intro h0; simp [h0]
  · intro q hk0 hq
    obtain ⟨w, hw'⟩ := towerKnots_at (ls := S :: ls) hg hq
    rw [C125_values hf hm hg hS h, towerKnots_value hg hasc _ hw', if_neg hk0, hw']
    rfl
  · rw [C125_values hf hm hg hS h, towerKnots_value hg hasc _ hw]

/-- C125: reading does not matter: two towers over the same points have the same values, whatever was read or edited. -/
theorem C125_undisturbed (hf : Follows m t g) (hm : 0 < m) (hg : NeverRaises g) (hS : ∀ S ∈ ls, 0 < S.minStep)
    {s s' : TowerState ls} (h : TowerUsed t m i u ls s) (h' : TowerUsed t m i u ls s')
    (he : ((tower t ls).src s).points = ((tower t ls).src s').points) (x : Ext) :
    ((tower t ls).machine.y x s).map Prod.fst = ((tower t ls).machine.y x s').map Prod.fst := by
  rw [C125_values hf hm hg hS h, C125_values hf hm hg hS h', he]

/-- C125: an edit of the points reaches all of them without an exception, whatever was read before; the points are the
edited ones; what the highest accumulator announces is the same as what the lowest announces. -/
theorem C125_edit (hf : Follows m t g) (hm : 0 < m) (hg : NeverRaises g) (hS : ∀ S ∈ ls, 0 < S.minStep)
    {s : TowerState ls} (h : TowerUsed t m i u ls s) {op : Op ℚ} {r : Reads} (hl : op.Legal)
    (he : lateError (op.run ((tower t ls).src s) r).err = false) (ht : Truthful (op.run ((tower t ls).src s) r).st)
    (hfit : TowerFit m u ls (op.run ((tower t ls).src s) r).st.points) :
    ((tower t ls).edit op r s).2.2 = none ∧
      (tower t ls).src ((tower t ls).edit op r s).1 = (op.run ((tower t ls).src s) r).st ∧
      ToldFrom (towerKnots g ls ((tower t ls).src s).points)
        (towerKnots g ls (op.run ((tower t ls).src s) r).st.points) ((tower t ls).edit op r s).2.1 := by
  obtain ⟨s', ps, h1, h2, -, h4⟩ := edit_fine hg hS (tower_used hf hm hg hS h) hl he ht hfit
  rw [h1]
  exact ⟨rfl, h2, h4⟩

theorem tower_forwards (hf : Follows m t g) (hm : 0 < m) (hg : NeverRaises g) (ls : List Storey)
    (hS : ∀ S ∈ ls, 0 < S.minStep) (hw : Widening m ls) :
    Forwards (tower t ls).machine (TowerFine g m i u ls pts)
      (knotCurve (towerInterp i ls) (towerStep m ls) (towerKnots g ls pts)) := by
  induction ls with
  | nil => exact base_forwards hf hm hg
  | cons S ls ih =>
    have hS' : ∀ T ∈ ls, 0 < T.minStep := fun T hT => hS T (List.mem_cons_of_mem _ hT)
    exact Layer.forwards (p := S.tfm) (i := S.interp) (u := S.uniform)
      (size := fun s => ((tower t ls).src s).points.length) (tower_shown hf hm hg ls hS') (hS S (by simp))
      (tower_size hg) (storey_neverRaises S) (ih hS' hw.2) hw.1

/-- C126 for accumulators with steps that do not become smaller: the next position is that of the points.
Missing: an accumulator with a smaller step than the one below, see `C126_negation`. -/
theorem C126_next_partial (hf : Follows m t g) (hm : 0 < m) (hg : NeverRaises g) (hS : ∀ S ∈ ls, 0 < S.minStep)
    (hw : Widening m ls) {s : TowerState ls} (h : TowerUsed t m i u ls s) (x : Ext) (a l : Option Ext) :
    ((tower t ls).machine.xNext x a l s).map Prod.fst =
      some (.ok ((stepOf (towerStep m ls) a).bind (knotAfter ((tower t ls).src s).points x))) := by
  have := agrees_result ((tower_forwards hf hm hg ls hS hw).next x a l) (tower_used hf hm hg hS h)
  rw [this]
  simp only [knotCurve]
  congr 2
  cases stepOf (towerStep m ls) a with
  | none => rfl
  | some c => exact knotAfter_xs (towerKnots_xs hg ls _) x c

/-- C126: such accumulators give the samples that the curve through the knots gives. -/
theorem C126_sample_partial (hf : Follows m t g) (hm : 0 < m) (hg : NeverRaises g) (hS : ∀ S ∈ ls, 0 < S.minStep)
    (hw : Widening m ls) {s : TowerState ls} (h : TowerUsed t m i u ls s) (d : Option Iv) (a : Option Ext) (c : Option ℚ)
    (n : ℕ) :
    ((tower t ls).sample d a c n s).map Prod.fst =
      (knotCurve (towerInterp i ls) (towerStep m ls) (towerKnots g ls ((tower t ls).src s).points)).samplePoints d a c n := by
  have hF := tower_used hf hm hg hS h
  cases ls with
  | nil =>
    have := agrees_result (sample_agrees hf hm (tower_asc hF) d a c n) hF
    have hfold : ∀ (e : Iv) (r : Option (Except Err (List Crv.Sample))), ifFolded g ((tower t []).src s).points e r = r := by
      intro e r
      unfold ifFolded
      split
      · rfl
      · split
        · rename_i q _
          have := hg (upTo q ((tower t []).src s).points)
          rcases hr : runRule g [] [] (upTo q ((tower t []).src s).points) with ⟨_, _ | _⟩
          · rfl
          · rw [hr] at this; cases this
        · rfl
    rw [hfold, accumulatedCurve_folded hg (tower_asc hF)] at this
    exact this
  | cons S ls =>
    have hS' : ∀ T ∈ ls, 0 < T.minStep := fun T hT => hS T (List.mem_cons_of_mem _ hT)
    exact agrees_result (Layer.sample_knots (p := S.tfm) (i := S.interp) (u := S.uniform)
      (size := fun s => ((tower t ls).src s).points.length) (tower_shown hf hm hg ls hS') (hS S (by simp))
      (tower_size hg) (storey_neverRaises S) (tower_forwards hf hm hg (S :: ls) hS hw) d a c n) hF

/-! ### Bounds -/

theorem runRule_all {P : ℚ → Prop} (hk : ∀ knots out v, knots ≠ [] → (∀ p ∈ knots, ∀ w, p.2 = some w → P w) →
      (∀ p ∈ out, ∀ w, p.2 = some w → P w) → g knots out = .ok (some v) → P v) :
    ∀ (todo seen out : List (Pt ℚ)), (∀ p ∈ seen ++ todo, ∀ w, p.2 = some w → P w) →
      (∀ p ∈ out, ∀ w, p.2 = some w → P w) → ∀ p ∈ (runRule g seen out todo).1, ∀ w, p.2 = some w → P w := by
  intro todo
  induction todo with
  | nil => intro seen out _ h; exact h
  | cons q qs ih =>
    intro seen out hs ho
    simp only [runRule]
    cases hg : g (seen ++ [q]) out with
    | error e => exact ho
    | ok v =>
      refine ih (seen ++ [q]) (out ++ [(q.1, v)]) (by simpa using hs) ?_
      intro p hp w hw
      rcases List.mem_append.1 hp with hp | hp
      · exact ho p hp w hw
      · rw [List.mem_singleton.1 hp] at hw
        refine hk (seen ++ [q]) out w (by simp) (fun p hp => hs p ?_) ho (by rw [hg]; exact congrArg _ hw)
        rcases List.mem_append.1 hp with hp | hp
        · exact List.mem_append_left _ hp
        · rw [List.mem_singleton.1 hp]; simp

theorem lastOut_mem {P : ℚ → Prop} {out : List (Pt ℚ)} (h : ∀ p ∈ out, ∀ w, p.2 = some w → P w) (w : ℚ)
    (hw : lastOut out = some w) : P w := by
  unfold lastOut at hw
  cases hl : out.getLast? with
  | none => rw [hl] at hw; cases hw
  | some q => rw [hl] at hw; exact h q (List.mem_of_getLast? hl) w hw

theorem towerKnots_all {P : ℚ → Prop} (hk : ∀ knots out v, knots ≠ [] → (∀ p ∈ knots, ∀ w, p.2 = some w → P w) →
      (∀ p ∈ out, ∀ w, p.2 = some w → P w) → g knots out = .ok (some v) → P v)
    (hS : ∀ S ∈ ls, CScan.Keeps P S.tfm) (hp : ∀ p ∈ pts, ∀ w, p.2 = some w → P w) :
    ∀ p ∈ towerKnots g ls pts, ∀ w, p.2 = some w → P w := by
  induction ls with
  | nil => exact runRule_all hk pts [] [] hp (by simp)
  | cons S ls ih =>
    refine runRule_all ?_ _ [] [] (ih fun T hT => hS T (List.mem_cons_of_mem _ hT)) (by simp)
    intro knots out v hne h1 h2 hv
    unfold plainRule at hv
    cases hl : knots.getLast? with
    | none => exact absurd (List.getLast?_eq_none_iff.1 hl) hne
    | some p =>
      rw [hl] at hv
      exact hS S (by simp) p.1 p.2 (lastOut out) v (h1 p (List.mem_of_getLast? hl)) (lastOut_mem h2) hv

theorem valueAt_within {P : ℚ → Prop} (hP : CScan.Convex P) (j : Interp) (h : ∀ p ∈ pts, ∀ w, p.2 = some w → P w)
    (hasc : Ascending pts) {x v : ℚ} (hv : valueAt j pts x = some v) : P v := by
  induction pts with
  | nil => cases hv
  | cons p ps ih =>
    cases ps with
    | nil =>
      simp only [valueAt] at hv
      split at hv
      · exact h p (by simp) v hv
      · cases hv
    | cons q ps =>
      simp only [valueAt] at hv
      split_ifs at hv with h1 h2 h3
      · exact h p (by simp) v hv
      · cases j with
        | previous => exact h p (by simp) v hv
        | next => exact h q (by simp) v hv
        | linear =>
          cases hp : p.2 with
          | none => simp [between, hp] at hv
          | some a =>
            cases hq : q.2 with
            | none => simp [between, hp, hq] at hv
            | some b =>
              have hpq : p.1 < q.1 := (List.pairwise_cons.1 hasc).1 q (by simp)
              have hpx : p.1 ≤ x := not_lt.1 h1
              simp only [between, hp, hq, Option.some.injEq, Lerp.lerp] at hv
              rw [← hv]
              exact hP a b _ (h p (by simp) a hp) (h q (by simp) b hq) (div_nonneg (by linarith) (by linarith))
                ((div_le_one (by linarith)).2 (by linarith))
      · exact ih (fun r hr => h r (List.mem_cons_of_mem _ hr)) (List.pairwise_cons.1 hasc).2 hv

theorem stepRule_neverRaises (f : Option (Pt ℚ) → Option ℚ → Pt ℚ → Option ℚ) : NeverRaises (stepRule f) := by
  have : ∀ (todo seen out : List (Pt ℚ)), (runRule (stepRule f) seen out todo).2 = none := by
    intro todo
    induction todo with
    | nil => intros; rfl
    | cons p ps ih =>
      intro seen out
      have hg : ∃ v, stepRule f (seen ++ [p]) out = .ok v := ⟨_, by simp [stepRule]; rfl⟩
      obtain ⟨v, hg⟩ := hg
      simp only [runRule, hg]
      exact ih _ _
  exact fun pts => this pts [] []

/-- C125: averages of averages, of any number, stay within any bounds that the data keep to, between the points as well:
each is a moving average with a fraction between `0` and `1`, or any other accumulator that keeps to the bounds. -/
theorem C125_bounds {a : ℚ} (h0 : 0 ≤ a) (h1 : a ≤ 1) (hm : 0 < m) (hS : ∀ S ∈ ls, 0 < S.minStep) {P : ℚ → Prop}
    (hP : CScan.Convex P) (hk : ∀ S ∈ ls, CScan.Keeps P S.tfm) {s : TowerState ls}
    (h : TowerUsed (emaTfm (some a) none none m) m i u ls s)
    (hp : ∀ p ∈ ((tower (emaTfm (some a) none none m) ls).src s).points, ∀ w, p.2 = some w → P w) {x : Ext} {v : Num}
    (hv : ((tower (emaTfm (some a) none none m) ls).machine.y x s).map Prod.fst = some (.ok (some v))) :
    ∃ q : ℚ, v = .fin q ∧ P q := by
  have hf := ema_follows_alpha (m := m) a none m
  have hg := stepRule_neverRaises (emaStep (fun _ _ => a) none)
  rw [C125_values hf hm hg hS h] at hv
  have hasc := tower_asc (tower_used hf hm hg hS h)
  set pts := ((tower (emaTfm (some a) none none m) ls).src s).points
  have hall : ∀ p ∈ towerKnots (stepRule (emaStep (fun _ _ => a) none)) ls pts, ∀ w, p.2 = some w → P w := by
    refine towerKnots_all ?_ hk hp
    intro knots out v _ h2 h3 hv
    unfold stepRule at hv
    cases hl : knots.getLast? with
    | none => rw [hl] at hv; cases hv
    | some p =>
      rw [hl] at hv
      have hpv := h2 p (List.mem_of_getLast? hl)
      have hlo := lastOut_mem h3
      simp only [Except.ok.injEq] at hv
      generalize lastOut out = e at hv hlo
      generalize knots.dropLast.getLast? = prev at hv
      unfold emaStep at hv
      cases hy : p.2 with
      | none => rw [hy] at hv; exact hlo v hv
      | some y =>
        rw [hy] at hv
        cases e with
        | none => simp only [Option.some.injEq] at hv; rw [← hv]; exact hpv y hy
        | some e =>
          simp only [Option.some.injEq] at hv
          rw [← hv]
          cases prev with
          | none => simpa using hlo e rfl
          | some q =>
            rw [show e + a * (y - e) = (1 - a) * e + a * y by ring]
            exact hP e y a (hlo e rfl) (hpv y hy) h0 h1
  cases x with
  | ninf => simp [valueAtE] at hv
  | pinf => simp [valueAtE] at hv
  | fin x =>
    simp only [valueAtE, Option.some.injEq, Except.ok.injEq, Option.map_eq_some_iff] at hv
    obtain ⟨q, hq, rfl⟩ := hv
    exact ⟨q, rfl, valueAt_within hP _ hall (ascending_xs (towerKnots_xs hg ls pts) hasc) hq⟩

/-! ### Examples -/

/-- `.ema(3)`, with the fraction `1/2`. -/
def halfEma (m : ℚ) : Storey where
  f _ y e := match y, e with
    | none, e => e
    | some y, none => some y
    | some y, some e => some (e + 1/2 * (y - e))
  minStep := m
  interp := .linear
  uniform := true

theorem halfEma_tfm (m : ℚ) : (halfEma m).tfm = CScan.emaBy (1/2) := by
  funext x y e
  rcases y with _ | y <;> rcases e with _ | e <;> rfl

/-- The average of the average of `fivePts`. -/
def twice : TowerState [halfEma 1] := towerNew (Accum.new (loose fivePts) 1 .linear true) [halfEma 1]

theorem twice_used : TowerUsed (emaTfm (some (1/2)) none none 1) 1 .linear true [halfEma 1] twice :=
  .new five_honest ⟨five_fit, fun S hS => by rw [List.mem_singleton.1 hS]; exact five_fit⟩

theorem halfEma_pos (S : Storey) (h : S ∈ [halfEma 1]) : 0 < S.minStep := by
  rw [List.mem_singleton.1 h]; exact one_pos

example : ((tower (emaTfm (some (1/2)) none none 1) [halfEma 1]).machine.y (.fin (7/2)) twice).map Prod.fst =
    some (.ok (some (.fin (39/16)))) := by
  rw [C125_values (ema_follows_alpha (m := 1) (1/2) none 1) one_pos (stepRule_neverRaises _) halfEma_pos twice_used]
  decide +kernel


/-- The outer one was read, then the inner one, then the last point was replaced. -/
example : ∃ s s' : TowerState [halfEma 1],
    TowerMove (emaTfm (some (1/2)) none none 1) [halfEma 1] twice s ∧
    TowerMove (emaTfm (some (1/2)) none none 1) [halfEma 1] s s' ∧
    ((tower (emaTfm (some (1/2)) none none 1) [halfEma 1]).machine.y (.fin 5)
      ((tower (emaTfm (some (1/2)) none none 1) [halfEma 1]).edit (.replace (5, some 9) false) quiet s').1).map Prod.fst =
      some (.ok (some (.fin (79/16)))) := by
  have key : (((tower (emaTfm (some (1/2)) none none 1) [halfEma 1]).machine.y (.fin 5) twice).bind fun r =>
      ((Accum.machine (emaTfm (some (1/2)) none none 1)).y (.fin 4) r.2.2).bind fun q =>
      ((tower (emaTfm (some (1/2)) none none 1) [halfEma 1]).machine.y (.fin 5)
      ((tower (emaTfm (some (1/2)) none none 1) [halfEma 1]).edit (.replace (5, some 9) false) quiet
        ((r.2.1, q.2) : TowerState [halfEma 1])).1).map Prod.fst) = some (.ok (some (.fin (79/16)))) := by decide +kernel
  obtain ⟨⟨v, s⟩, hs, key⟩ := Option.bind_eq_some_iff.1 key
  obtain ⟨⟨w, q⟩, hq, key⟩ := Option.bind_eq_some_iff.1 key
  exact ⟨s, (s.1, q), .inl (.inl ⟨_, _, hs⟩), .inr ⟨rfl, .inl ⟨_, _, hq⟩⟩, key⟩

/-- Three averages over each other. -/
example : ((tower (emaTfm (some (1/2)) none none 1) [halfEma 1, halfEma 1]).machine.y (.fin 4)
    (towerNew (Accum.new (loose fivePts) 1 .linear true) [halfEma 1, halfEma 1])).map Prod.fst =
    some (.ok (some (.fin (37/16)))) := by
  rw [C125_values (ema_follows_alpha (m := 1) (1/2) none 1) one_pos (stepRule_neverRaises _)
    (by simp only [List.mem_cons, List.not_mem_nil, or_false, or_self]; rintro S rfl; exact one_pos)
    (.new five_honest ⟨five_fit, by
      simp only [List.mem_cons, List.not_mem_nil, or_false, or_self]; rintro S rfl; exact five_fit⟩)]
  decide +kernel

example : ((tower (emaTfm (some (1/2)) none none 1) [halfEma 1]).machine.xNext (.fin (3/2)) none none twice).map Prod.fst =
    some (.ok (some (.fin 3))) := by
  rw [C126_next_partial (ema_follows_alpha (m := 1) (1/2) none 1) one_pos (stepRule_neverRaises _) halfEma_pos
    ⟨le_rfl, trivial⟩ twice_used]
  decide +kernel

example : ((tower (emaTfm (some (1/2)) none none 1) [halfEma 1]).sample (some (Iv.closed 2 4)) none none 9 twice).map
    Prod.fst = some (.ok [(.fin 2, some (.fin (3/2))), (.fin 3, some (.fin (7/4))), (.fin 4, some (.fin (25/8)))]) := by
  rw [C126_sample_partial (ema_follows_alpha (m := 1) (1/2) none 1) one_pos (stepRule_neverRaises _) halfEma_pos
    ⟨le_rfl, trivial⟩ twice_used]
  decide +kernel

/-- The data are between `1` and `7`, so are the averages of the averages. -/
example {x : Ext} {v : Num}
    (hv : ((tower (emaTfm (some (1/2)) none none 1) [halfEma 1]).machine.y x twice).map Prod.fst = some (.ok (some v))) :
    ∃ q : ℚ, v = .fin q ∧ 1 ≤ q ∧ q ≤ 7 := by
  have hP : CScan.Convex (fun q : ℚ => 1 ≤ q ∧ q ≤ 7) := by
    rintro a b w ⟨h1, h2⟩ ⟨h3, h4⟩ h5 h6
    constructor <;> nlinarith
  refine C125_bounds (P := fun q => 1 ≤ q ∧ q ≤ 7) (by norm_num) (by norm_num) one_pos halfEma_pos hP ?_ twice_used ?_ hv
  · intro S hS
    rw [List.mem_singleton.1 hS, halfEma_tfm]
    exact CScan.keeps_ema hP (by norm_num) (by norm_num)
  · rw [show ((tower (emaTfm (some (1/2)) none none 1) [halfEma 1]).src twice).points = fivePts by decide +kernel]
    intro p hp w hw
    simp only [fivePts, List.mem_cons, List.not_mem_nil, or_false] at hp
    rcases hp with rfl | rfl | rfl | rfl | rfl <;> simp at hw <;> subst hw <;> norm_num

/-- C126: the next position is not determined by the points: an average with the step `1/100000` over one with the step `1`
is at `3` next after `3/2`, the step of the inner one being larger; once it was read the answer is `2`. -/
theorem C126_negation :
    ∃ (ls : List Storey) (s s' : TowerState ls),
      TowerUsed (emaTfm (some (1/2)) none none 1) 1 .linear true ls s ∧ (∀ S ∈ ls, 0 < S.minStep) ∧
      TowerMove (emaTfm (some (1/2)) none none 1) ls s s' ∧
      ((tower (emaTfm (some (1/2)) none none 1) ls).machine.xNext (.fin (3/2)) none none s).map Prod.fst =
        some (.ok (some (.fin 3))) ∧
      ((tower (emaTfm (some (1/2)) none none 1) ls).machine.xNext (.fin (3/2)) none none s').map Prod.fst =
        some (.ok (some (.fin 2))) := by
  have key : (((tower (emaTfm (some (1/2)) none none 1) [halfEma (1/100000)]).machine.y (.fin 5)
      (towerNew (Accum.new (loose fivePts) 1 .linear true) [halfEma (1/100000)])).bind fun r =>
      ((tower (emaTfm (some (1/2)) none none 1) [halfEma (1/100000)]).machine.xNext (.fin (3/2)) none none r.2).map Prod.fst) =
        some (.ok (some (.fin 2))) := by decide +kernel
  obtain ⟨⟨v, s'⟩, hs, key⟩ := Option.bind_eq_some_iff.1 key
  refine ⟨[halfEma (1/100000)], towerNew (Accum.new (loose fivePts) 1 .linear true) [halfEma (1/100000)], s',
    .new five_honest ⟨five_fit, ?_⟩, ?_, .inl (.inl ⟨_, _, hs⟩), by decide +kernel, key⟩
  · intro S hS
    rw [List.mem_singleton.1 hS]
    refine ⟨?_, five_fit.noFluke, five_fit.uniform⟩
    rw [show (loose fivePts).points = fivePts by decide +kernel]
    norm_num [Gapped, fivePts, halfEma]
  · intro S hS
    rw [List.mem_singleton.1 hS]
    norm_num [halfEma]

end Props
end Curvepy
