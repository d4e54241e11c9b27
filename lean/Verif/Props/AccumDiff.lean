import Verif.Props.Compose

/-!
# Property C124: differences of accumulating curves
-/

namespace Curvepy
namespace Accum
open Spec Crv Props

variable {t : Tfm} {g : Rule} {m : ℚ} {i : Interp} {u : Bool} {A : Accum} {pts : List (Pt ℚ)}

/-- Everything up to `x` was accumulated. -/
def Reached (g : Rule) (m : ℚ) (i : Interp) (u : Bool) (pts : List (Pt ℚ)) (x : ℚ) (A : Accum) : Prop :=
  A.src.points = pts ∧ ∃ seen todo, Sound g m i u A seen todo ∧ ∀ p ∈ todo, x < p.1

theorem after_upTo {x : ℚ} {todo rest : List (Pt ℚ)} (h : todo = upTo x todo ++ rest) (hasc : Ascending todo) :
    ∀ p ∈ rest, x < p.1 := by
  induction todo with
  | nil =>
    have : rest = [] := by simpa [upTo] using h.symm
    simp [this]
  | cons a l ih =>
    unfold upTo at h
    by_cases ha : a.1 < x
    · rw [if_pos ha, List.cons_append, List.cons.injEq] at h
      exact ih h.2 (List.pairwise_cons.1 hasc).2
    · rw [if_neg ha] at h
      simp only [List.cons_append, List.nil_append, List.cons.injEq, true_and] at h
      subst h
      intro p hp
      exact lt_of_le_of_lt (not_lt.1 ha) ((List.pairwise_cons.1 hasc).1 p hp)

theorem reached_of_query (hf : Follows m t g) (hm : 0 < m) (h : Steady g m i u pts A) {x : ℚ}
    (hx : (span pts).contains (.fin x) = true) {v : Option ℚ} (hv : accumulatedAt g i pts (.fin x) = .ok v) :
    ∃ o, A.query t (.fin x) = some o ∧ o.res = .ok v ∧ Reached g m i u pts x o.st := by
  obtain ⟨rfl, seen, todo, hs⟩ := h
  obtain ⟨o, h1, h2, h3, _⟩ := hs.query hf hm (.fin x)
  rw [hs.pts] at hx
  obtain ⟨o', g1, _, _, g4⟩ := hs.query_inside hf hm hx
  rw [h1] at g1
  cases g1
  refine ⟨o, h1, by rw [h3, hv], h2, ?_⟩
  rcases g4 with ⟨out, rest, _, r2, _, r4⟩ | ⟨out, e, _, _, _, r1, _⟩
  · refine ⟨_, rest, r4, ?_⟩
    have hasc := hs.asc
    have hta := (List.pairwise_append.1 hasc).2.1
    unfold need at r2
    split at r2
    · exact after_upTo r2 hta
    · rename_i hc
      rw [List.nil_append] at r2
      subst r2
      intro p hp
      cases hl : seen.getLast? with
      | none => simp [hl] at hc
      | some c =>
        simp only [hl, Option.map_some, Option.all_some, decide_eq_true_eq, not_lt] at hc
        exact lt_of_le_of_lt hc ((List.pairwise_append.1 hasc).2.2 c (List.mem_of_getLast? hl) p hp)
  · rw [h3, hv] at r1; cases r1

theorem reached_previous (hm : 0 < m) {x : ℚ} (h : Reached g m i u pts x A) (arg : Option Ext) :
    A.xPreviousBy (.fin x) arg = .ok ((stepOf m arg).bind (knotBefore pts (.fin x))) := by
  obtain ⟨rfl, seen, todo, hs, ht⟩ := h
  unfold xPreviousBy
  rw [hs.step]
  rcases resolve_pinf_or m arg with ⟨a, h1, h2⟩ | ⟨h1, h2⟩
  · rw [h1, h2]
    show A.xPrevious (.fin x) a = _
    rw [sound_previous hs x a (.inr fun p hp => by have := ht p hp; have := le_max_right a m; linarith), src_previous hs]
    rfl
  · rw [h1, h2]; rfl

variable {f : ℚ → ℚ}

/-- The accumulated curve with changed values. -/
abbrev viewedAt (f : ℚ → ℚ) (g : Rule) (i : Interp) (m : ℚ) (pts : List (Pt ℚ)) : Crv := viewedCurve f (accumulatedCurve g i m pts)

theorem viewed_forwards (hf : Follows m t g) (hm : 0 < m) :
    Forwards (viewed t f) (Steady g m i u pts) (viewedAt f g i m pts) where
  dom := (steady_forwards hf hm).dom
  minStep := (steady_forwards hf hm).minStep
  y x := .bind_pure ((steady_forwards hf hm).y x) _
  next := (steady_forwards hf hm).next

/-- The same accumulator, with the right answers of `x_previous`. -/
def mended (t : Tfm) (f : ℚ → ℚ) (c : Crv) : Machine Accum :=
  { viewed t f with xPrevious := fun x m l => Run.lift (c.xPrevious x m l) }

theorem mended_imitates (hf : Follows m t g) (hm : 0 < m) :
    Imitates (mended t f (viewedAt f g i m pts)) (Steady g m i u pts) (viewedAt f g i m pts) where
  dom := (viewed_forwards hf hm).dom
  minStep := (viewed_forwards hf hm).minStep
  y := (viewed_forwards hf hm).y
  next := (viewed_forwards hf hm).next
  prev _ _ _ := .lift _

theorem mended_dY (hm : 0 < m) {x : ℚ} (h : Reached g m i u pts x A) (minStep limit : Option Ext) :
    (viewed t f).dY (.fin x) false minStep limit A =
      (mended t f (viewedAt f g i m pts)).dY (.fin x) false minStep limit A := by
  have hp : ∀ a l, (viewed t f).xPrevious (.fin x) a l A =
      (mended t f (viewedAt f g i m pts)).xPrevious (.fin x) a l A := fun a l => by
    show some (A.xPreviousBy (.fin x) a, A) = some (_, A)
    rw [reached_previous hm h]
    rfl
  unfold Machine.dY
  rw [run_bind, run_bind]
  show Option.bind (some (Except.ok (some (Ext.fin A.minStep)), A)) _ = Option.bind (some (Except.ok (some (Ext.fin A.minStep)), A)) _
  simp only [Option.bind_some, Bool.false_eq_true, if_false]
  rw [run_bind, run_bind, hp]
  rfl

/-- After a read at `x`, the slope there is right, also looking back. -/
theorem slope_after (hf : Follows m t g) (hm : 0 < m) {x : ℚ} (h : Reached g m i u pts x A) (forward : Bool)
    (minStep limit : Option Ext) : ∃ B, (viewed t f).dY (.fin x) forward minStep limit A =
      some ((viewedAt f g i m pts).dY (.fin x) forward minStep limit, B) ∧ Steady g m i u pts B := by
  have hs : Steady g m i u pts A := by
    obtain ⟨h1, seen, todo, h2, _⟩ := h
    exact ⟨h1, seen, todo, h2⟩
  have H := mended_imitates (f := f) (i := i) (u := u) (pts := pts) hf hm
  cases forward with
  | false =>
    rw [mended_dY hm h]
    exact ((H.toForwards.dY (.fin x) false (fun _ => H) minStep limit) A hs).2 _ rfl
  | true => exact (((viewed_forwards hf hm).dY (.fin x) true nofun minStep limit) A hs).2 _ rfl

theorem differential_agrees (hf : Follows m t g) (hm : 0 < m) (forward : Bool) {x : ℚ}
    (hx : (span pts).contains (.fin x) = true) :
    Agrees (Steady g m i u pts) ((Machine.differential (viewed t f) (some (.fin m)) forward).y (.fin x))
      (some ((((viewedAt f g i m pts).differential forward).toOption.getD .empty).y (.fin x))) := by
  intro A hA
  refine ⟨nofun, fun v hv => ?_⟩
  cases hv
  have F := (viewed_forwards (f := f) (i := i) (u := u) (pts := pts) hf hm).y (.fin x)
  show ∃ s', ((viewed t f).y (.fin x) >>= fun _ => (viewed t f).dY (.fin x) forward) A = _ ∧ _
  rw [run_bind]
  cases hv : accumulatedAt g i pts (.fin x) with
  | error e =>
    have hy : (viewedAt f g i m pts).y (.fin x) = .error e := by
      show Except.map _ (Except.map _ _) = _; rw [hv]; rfl
    rw [hy] at F
    obtain ⟨B, hB, hS⟩ := (F A hA).2 _ rfl
    refine ⟨B, ?_, hS⟩
    rw [hB]
    show some (Except.error e, B) = some ((viewedAt f g i m pts).y (.fin x) >>= _, B)
    rw [hy]; rfl
  | ok w =>
    obtain ⟨o, h1, h2, h3⟩ := reached_of_query hf hm hA hx hv
    obtain ⟨B, hB, hS⟩ := slope_after hf hm h3 forward (some MIN_STEP) none
    refine ⟨B, ?_, hS⟩
    have hy : (viewed t f).y (.fin x) A = some (.ok ((w.map .fin).map (Num.onFin f)), o.st) := by
      show (_ >>= _ : Run _ _) A = _
      rw [run_bind]
      show Option.bind ((A.query t (.fin x)).map _) _ = _
      rw [h1, Option.map_some, h2]; rfl
    have hc : (viewedAt f g i m pts).y (.fin x) = .ok ((w.map .fin).map (Num.onFin f)) := by
      show Except.map _ (Except.map _ _) = _; rw [hv]; rfl
    rw [hy]
    show (viewed t f).dY (.fin x) forward (some MIN_STEP) none o.st =
      some ((viewedAt f g i m pts).y (.fin x) >>= _, B)
    rw [hB, hc]
    simp only [bind, Except.bind, Bool.and_false, Bool.false_eq_true, if_false]

end Accum

namespace Props
open Spec Crv Accum

variable {t : Tfm} {g : Rule} {m : ℚ} {i : Interp} {u : Bool} {A : Accum} {f : ℚ → ℚ}

/-- The slope of what is accumulated, between neighbouring knots. -/
def knotSlope (p q : ℚ × ℚ) : ℚ := (q.2 - p.2) / (q.1 - p.1)

/-- C124: after any history, the difference curve of an accumulating curve is that of what is accumulated, also looking back. -/
theorem C124_differential (hf : Follows m t g) (hm : 0 < m) (h : Used t m i u A) (forward : Bool) {x : ℚ}
    (hx : (span A.src.points).contains (.fin x) = true) :
    ((Machine.differential (viewed t f) (some (.fin m)) forward).y (.fin x) A).map Prod.fst =
      some ((((viewedAt f g i m A.src.points).differential forward).toOption.getD .empty).y (.fin x)) :=
  agrees_result (differential_agrees hf hm forward hx) (used_steady hf hm h)

/-- C124: and so is the slope at a position that was just read. -/
theorem C124_slope (hf : Follows m t g) (hm : 0 < m) (h : Used t m i u A) {x : ℚ}
    (hx : (span A.src.points).contains (.fin x) = true) {o : Out (Option ℚ)} (ho : A.query t (.fin x) = some o) {v : Option ℚ}
    (hv : o.res = .ok v) (forward : Bool) (minStep limit : Option Ext) :
    ((viewed t f).dY (.fin x) forward minStep limit o.st).map Prod.fst =
      some ((viewedAt f g i m A.src.points).dY (.fin x) forward minStep limit) := by
  have hs := used_steady hf hm h
  obtain ⟨o', h1, h2, h3⟩ := C46_fold_partial hf hm h (.fin x)
  rw [ho] at h1
  cases h1
  rw [hv] at h2
  obtain ⟨o', g1, _, g3⟩ := reached_of_query hf hm hs hx h2.symm
  rw [ho] at g1
  cases g1
  obtain ⟨B, hB, _⟩ := slope_after hf hm g3 forward minStep limit
  rw [hB]; rfl

theorem lastUpTo_previous {a : ℚ} {pts pre rest : List (Pt ℚ)} {p q : Pt ℚ} (ha : 0 < a) (hg : Gapped a pts)
    (hasc : Ascending pts) (h : pts = pre ++ p :: q :: rest) : lastUpTo pts (q.1 - a) = some p.1 := by
  have hgap : p.1 + a ≤ q.1 := by
    rw [h] at hg
    exact (List.isChain_cons_cons.1 (List.isChain_append.1 hg).2.1).1
  rcases lastUpTo_greatest hasc (q.1 - a) with ⟨z, h1, ⟨r, hr, hrz, hz⟩, hl⟩ | ⟨_, h2⟩
  · rw [h1]
    congr 1
    refine le_antisymm ?_ (hl ⟨p, by rw [h]; simp, rfl, by linarith⟩)
    rw [h] at hr hasc
    have hlt : r.1 < q.1 := by linarith
    obtain ⟨_, h2, h3⟩ := List.pairwise_append.1 hasc
    rw [← hrz]
    simp only [List.mem_append, List.mem_cons] at hr
    rcases hr with hr | rfl | rfl | hr
    · exact (h3 r hr p (by simp)).le
    · exact le_rfl
    · exact absurd hlt (lt_irrefl _)
    · have := (List.pairwise_cons.1 (List.pairwise_cons.1 h2).2).1 r hr
      linarith
  · have := h2 p (by rw [h]; simp)
    linarith

theorem lastUpTo_first {a : ℚ} {rest : List (Pt ℚ)} {q : Pt ℚ} (ha : 0 < a) (hasc : Ascending (q :: rest)) :
    lastUpTo (q :: rest) (q.1 - a) = none := by
  refine Pts.lastUpTo_eq_none fun p hp => ?_
  rcases List.mem_cons.1 hp with rfl | hp
  · linarith
  · have := (List.pairwise_cons.1 hasc).1 p hp
    linarith

theorem differential_y (c : Crv) (forward : Bool) (x : Ext) : ((c.differential forward).toOption.getD .empty).y x =
    (c.y x >>= fun _ => c.dY x forward) := by
  show (c.y x >>= fun v => _) = _
  simp only [Bool.and_false, Bool.false_eq_true, if_false]

theorem dY_between {c : Crv} {forward : Bool} {x x1 : ℚ} {m : Option Ext} {v w : Option ℚ}
    (hm : resolve c.minStep (some MIN_STEP) = m)
    (h1 : (if forward then c.xNext (.fin x) m none else c.xPrevious (.fin x) m none) = .ok (some (.fin x1)))
    (hv : c.y (.fin x1) = .ok (v.map .fin)) (hw : c.y (.fin x) = .ok (w.map .fin)) (hne : x1 ≠ x) :
    c.dY (.fin x) forward = .ok (v.bind fun a => w.map fun b => .fin ((a - b) / (x1 - x))) := by
  unfold Crv.dY
  rw [hm]
  have hne' : x1 - x ≠ 0 := sub_ne_zero.2 hne
  cases forward <;> simp only [Bool.false_eq_true, if_false, if_true] at h1 ⊢ <;>
    simp only [bind, Except.bind, h1, hv, hw] <;> rcases v with _ | v <;> rcases w with _ | w <;>
    simp [pure, Except.pure, hne, Num.div, Num.sub, Num.add, Num.neg, Num.ofExt, ← sub_eq_add_neg, hne']

/-- C124: at neighbouring knots it is the slope of the chord between what is accumulated there, `None` if one of them is;
at the first knot there is nothing to look back to. -/
theorem C124_knots (hf : Follows m t g) (hm : minStepQ ≤ m) (h : Used t m i u A) :
    (∀ pre p q rest v w, A.src.points = pre ++ p :: q :: rest → accumulatedAt g i A.src.points (.fin p.1) = .ok v →
      accumulatedAt g i A.src.points (.fin q.1) = .ok w →
      ((Machine.differential (viewed t f) (some (.fin m)) false).y (.fin q.1) A).map Prod.fst =
        some (.ok (v.bind fun a => w.map fun b => .fin (knotSlope (p.1, f a) (q.1, f b)))) ∧
      ((Machine.differential (viewed t f) (some (.fin m)) true).y (.fin p.1) A).map Prod.fst =
        some (.ok (v.bind fun a => w.map fun b => .fin (knotSlope (p.1, f a) (q.1, f b))))) ∧
    (∀ q rest w, A.src.points = q :: rest → accumulatedAt g i A.src.points (.fin q.1) = .ok w →
      ((Machine.differential (viewed t f) (some (.fin m)) false).y (.fin q.1) A).map Prod.fst = some (.ok none)) := by
  have h0 : (0 : ℚ) < minStepQ := by norm_num [minStepQ]
  have hm0 : 0 < m := h0.trans_le hm
  obtain ⟨_, seen, todo, hs⟩ := used_steady hf hm0 h
  have hasc := hs.src.wf.asc
  have hgap := hs.fit.gapped
  have hres : resolve (some (.fin m)) (some MIN_STEP) = some (.fin m) := by
    have : ¬ (m : ℚ) < 1 / 100000 := by simpa [minStepQ] using hm
    simp only [resolve, MIN_STEP, Ext.fin_lt_fin]
    split
    · rfl
    · have : m = 1 / 100000 := by simp only [minStepQ] at hm; linarith
      rw [this]
  have hown : (viewedAt f g i m A.src.points).minStep = some (.fin m) := rfl
  have hstep : stepOf m (some (.fin m)) = some m := stepOf_self le_rfl
  have hy : ∀ x v, accumulatedAt g i A.src.points (.fin x) = .ok v →
      (viewedAt f g i m A.src.points).y (.fin x) = .ok ((v.map f).map .fin) := fun x v hv => by
    show Except.map _ (Except.map _ _) = _
    rw [hv]
    cases v <;> rfl
  have hin : ∀ p ∈ A.src.points, (span A.src.points).contains (.fin p.1) = true := fun p hp => knot_in_span hasc hp
  constructor
  · intro pre p q rest v w hpts hv hw
    have hpq : p.1 < q.1 := by
      have := hasc
      rw [hpts] at this
      exact (List.pairwise_cons.1 (List.pairwise_append.1 this).2.1).1 q (by simp)
    constructor
    · rw [C124_differential hf hm0 h false (hin q (by rw [hpts]; simp)), differential_y, hy _ _ hw]
      have hp : (viewedAt f g i m A.src.points).xPrevious (.fin q.1) (some (.fin m)) none = .ok (some (.fin p.1)) := by
        show Except.ok ((stepOf m (some (.fin m))).bind (knotBefore A.src.points (.fin q.1))) = _
        rw [hstep]
        show Except.ok ((lastUpTo A.src.points (q.1 - m)).map Ext.fin) = _
        rw [lastUpTo_previous hm0 hgap hasc hpts]; rfl
      show some ((viewedAt f g i m A.src.points).dY (Ext.fin q.1) false) = _
      rw [dY_between (forward := false) (m := some (.fin m)) hres hp (hy _ _ hv) (hy _ _ hw) hpq.ne]
      rcases v with _ | v <;> rcases w with _ | w <;> simp [knotSlope]
      rw [← neg_sub (f w), ← neg_sub q.1, neg_div_neg_eq]
    · rw [C124_differential hf hm0 h true (hin p (by rw [hpts]; simp)), differential_y, hy _ _ hv]
      have hp : (viewedAt f g i m A.src.points).xNext (.fin p.1) (some (.fin m)) none = .ok (some (.fin q.1)) := by
        show Except.ok ((stepOf m (some (.fin m))).bind (knotAfter A.src.points (.fin p.1))) = _
        rw [hstep]
        show Except.ok ((firstFrom A.src.points (p.1 + m)).map Ext.fin) = _
        rw [next_knot hm0 hgap hasc hpts]; rfl
      show some ((viewedAt f g i m A.src.points).dY (Ext.fin p.1) true) = _
      rw [dY_between (forward := true) (m := some (.fin m)) hres hp (hy _ _ hw) (hy _ _ hv) hpq.ne']
      rcases v with _ | v <;> rcases w with _ | w <;> simp [knotSlope]
  · intro q rest w hpts hw
    rw [C124_differential hf hm0 h false (hin q (by rw [hpts]; simp)), differential_y, hy _ _ hw]
    have hp : (viewedAt f g i m A.src.points).xPrevious (.fin q.1) (some (.fin m)) none = .ok none := by
      show Except.ok ((stepOf m (some (.fin m))).bind (knotBefore A.src.points (.fin q.1))) = _
      rw [hstep]
      show Except.ok ((lastUpTo A.src.points (q.1 - m)).map Ext.fin) = _
      rw [hpts] at hasc ⊢
      rw [lastUpTo_first hm0 hasc]; rfl
    unfold Crv.dY
    rw [hown, hres]
    simp only [bind, Except.bind, Bool.false_eq_true, if_false, hp]
    rfl

/-- An accumulator as it is read. -/
theorem viewed_id (t : Tfm) : viewed t (fun q => q) = machine t := by
  have : Num.onFin (fun q => q) = id := by funext v; cases v <;> rfl
  unfold viewed
  rw [this]
  simp [Option.map_id_fun]

/-- The height that the interpolation gives the segment between two points, on average. -/
def segmentMean (mode : Interp) (y0 y1 : ℚ) : ℚ :=
  match mode with
  | .linear => (y0 + y1) / 2
  | .previous => y0
  | .next => y1

/-- C124: the difference curve of an integral gives back the curve: at each knot but the first it is the mean height of the
segment before it, whatever the constant and the history. -/
theorem C124_integral (hm : minStepQ ≤ m) (mode : Interp) (const : ℚ) (h : Used (integralTfm mode) m i u A)
    {pre rest : List (ℚ × ℚ)} {p q : ℚ × ℚ} (hl : A.src.points = defined (pre ++ p :: q :: rest)) :
    ((Machine.differential (viewed (integralTfm mode) (· + const)) (some (.fin m)) false).y (.fin q.1) A).map Prod.fst =
      some (.ok (some (.fin (segmentMean mode p.2 q.2)))) ∧
    ((Machine.differential (viewed (integralTfm mode) (· + const)) (some (.fin m)) true).y (.fin p.1) A).map Prod.fst =
      some (.ok (some (.fin (segmentMean mode p.2 q.2)))) := by
  have h0 : (0 : ℚ) < minStepQ := by norm_num [minStepQ]
  have hf := integral_follows hm mode
  have hasc := Used.asc hf (h0.trans_le hm) h
  have hpq : p.1 < q.1 := by
    have := hasc
    rw [hl] at this
    simp only [defined, List.map_append, List.map_cons] at this
    exact (List.pairwise_cons.1 (List.pairwise_append.1 this).2.1).1 (q.1, some q.2) (by simp)
  have hp : accumulatedAt (stepRule (areaStep mode)) i A.src.points (.fin p.1) = .ok (some (totalArea mode (pre ++ [p]))) := by
    have hk : A.src.points[pre.length]? = some (p.1, some p.2) := by simp [hl, defined]
    rw [accumulatedAt_step _ i hasc hk]
    have : A.src.points.take (pre.length + 1) = defined (pre ++ [p]) := by
      rw [hl, defined, ← List.map_take, List.take_append]; simp [defined]
    rw [this, stepFold_area mode _ (by simp)]
  have hq : accumulatedAt (stepRule (areaStep mode)) i A.src.points (.fin q.1) =
      .ok (some (totalArea mode (pre ++ [p, q]))) := by
    have hk : A.src.points[pre.length + 1]? = some (q.1, some q.2) := by simp [hl, defined]
    rw [accumulatedAt_step _ i hasc hk]
    have : A.src.points.take (pre.length + 1 + 1) = defined (pre ++ [p, q]) := by
      have e : pre ++ p :: q :: rest = (pre ++ [p, q]) ++ rest := by simp
      have hlen : pre.length + 1 + 1 = (pre ++ [p, q]).length := by simp
      rw [hl, defined, ← List.map_take, e, hlen, List.take_left]; rfl
    rw [this, stepFold_area mode _ (by simp)]
  have key : knotSlope (p.1, totalArea mode (pre ++ [p]) + const) (q.1, totalArea mode (pre ++ [p, q]) + const) =
      segmentMean mode p.2 q.2 := by
    have hne : q.1 - p.1 ≠ 0 := sub_ne_zero.2 hpq.ne'
    rw [knotSlope, totalArea_snoc]
    cases mode <;> simp only [areaBetween, segmentMean] <;> field_simp <;> ring
  have := (C124_knots (f := (· + const)) hf hm h).1 (defined pre) (p.1, some p.2) (q.1, some q.2) (defined rest) _ _
    (by rw [hl]; simp [defined]) hp hq
  simpa only [Option.bind_some, Option.map_some, key] using this

example : ((Machine.differential (viewed (integralTfm .linear) (· + 10)) (some (.fin 1)) false).y (.fin 4)
      (Accum.new (loose fivePts) 1)).map Prod.fst = some (.ok (some (.fin (9/2)))) ∧
    Used (integralTfm .linear) 1 .linear true (Accum.new (loose fivePts) 1) ∧
    fivePts = defined [(1, 1), (2, 3), (3, 2), (4, 7), (5, 1)] ∧ segmentMean .linear 2 7 = 9/2 := by
  refine ⟨by decide +kernel, .new five_honest five_fit, by decide +kernel, by norm_num [segmentMean]⟩

/-- The slope of an average at 5 of C117, now through `differential()`: the same before and after other reads. -/
example : ((Machine.differential (machine (emaTfm (some (1/2)) none none 1)) (some (.fin 1)) false).y (.fin 5)
      (Accum.new (loose fivePts) 1)).map Prod.fst = some (.ok (some (.fin (-7/4)))) ∧
    ((queries (emaTfm (some (1/2)) none none 1) (Accum.new (loose fivePts) 1) [.fin 2]).bind fun r =>
      ((Machine.differential (machine (emaTfm (some (1/2)) none none 1)) (some (.fin 1)) false).y (.fin 5) r.1).map Prod.fst) =
      some (.ok (some (.fin (-7/4)))) := by
  constructor <;> decide +kernel
/-! ## An instance of each theorem -/

theorem five_averaged : Used (emaTfm (some (1/2)) none none 1) 1 .linear true (Accum.new (loose fivePts) 1) :=
  .new five_honest five_fit

example (forward : Bool) :
    ((Machine.differential (viewed (emaTfm (some (1/2)) none none 1) (· * 3)) (some (.fin 1)) forward).y (.fin (7/2))
      (Accum.new (loose fivePts) 1)).map Prod.fst =
      some ((((viewedAt (· * 3) (stepRule (emaStep (fun _ _ => 1/2) none)) .linear 1
        (Accum.new (loose fivePts) 1).src.points).differential forward).toOption.getD .empty).y (.fin (7/2))) :=
  C124_differential (ema_follows_alpha (1/2) none 1) (by norm_num) five_averaged forward (by decide +kernel)

example :
    ((Machine.differential (viewed (integralTfm .linear) (· + 10)) (some (.fin 1)) false).y (.fin 4)
      (Accum.new (loose fivePts) 1)).map Prod.fst = some (.ok (some (.fin (segmentMean .linear 2 7)))) ∧
    ((Machine.differential (viewed (integralTfm .linear) (· + 10)) (some (.fin 1)) true).y (.fin 3)
      (Accum.new (loose fivePts) 1)).map Prod.fst = some (.ok (some (.fin (segmentMean .linear 2 7)))) :=
  C124_integral (i := .linear) (u := true) (by decide +kernel) .linear 10 (.new five_honest five_fit)
    (pre := [(1, 1), (2, 3)]) (p := (3, 2)) (q := (4, 7)) (rest := [(5, 1)]) (by decide +kernel)

end Props
end Curvepy
