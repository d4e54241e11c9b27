import Verif.Props.Accumulator

/-!
# Properties C47, C48, C50: EMA, integral, trailing minimum and maximum

The accumulator `A` is in any state reached by queries, edits of its source and reads.
-/

namespace Curvepy
namespace Props
open Spec Pts Accum

variable {m : ℚ} {i : Interp} {u : Bool} {A : Accum}

theorem Used.asc {t : Tfm} {g : Rule} (hf : Follows m t g) (hm : 0 < m) (h : Used t m i u A) :
    Ascending A.src.points := by
  obtain ⟨_, _, hs⟩ := Used.sound hf hm h
  exact hs.src.wf.asc

/-! ## C47 -/

/-- C47: with a fraction `a` the value at each knot is the recurrence `emaStep` over the knots up to it. -/
theorem C47_alpha_partial (hm : 0 < m) (a : ℚ) (init : Option (ℚ → Option ℚ))
    (h : Used (emaTfm (some a) none init m) m i u A) {k : ℕ} {p : Pt ℚ}
    (hk : A.src.points[k]? = some p) :
    (A.query (emaTfm (some a) none init m) (.fin p.1)).map Out.res =
      some (.ok (stepFold (emaStep (fun _ _ => a) init) none none (A.src.points.take (k + 1)))) := by
  have hf := ema_follows_alpha (m := m) a init m
  obtain ⟨o, h1, h2, _⟩ := C46_fold_partial hf hm h (.fin p.1)
  rw [h1, Option.map_some, h2, accumulatedAt_step _ i (Used.asc hf hm h) hk]

/-- C47: with a period the fraction is the gap before the knot over the period. -/
theorem C47_period_partial (hm : 0 < m) {per : ℚ} (hp : per ≠ 0) (init : Option (ℚ → Option ℚ))
    (h : Used (emaTfm none (some per) init m) m i u A) {k : ℕ} {p : Pt ℚ}
    (hk : A.src.points[k]? = some p) :
    (A.query (emaTfm none (some per) init m) (.fin p.1)).map Out.res =
      some (.ok (stepFold (emaStep (fun x0 x => (x - x0) / |per|) init) none none
        (A.src.points.take (k + 1)))) := by
  have hf := ema_follows_period hm hp init
  obtain ⟨o, h1, h2, _⟩ := C46_fold_partial hf hm h (.fin p.1)
  rw [h1, Option.map_some, h2, accumulatedAt_step _ i (Used.asc hf hm h) hk]

example : (loose [(0, some 0), (1, some 8), (3, none), (4, some 6)]).points =
    [(0, some 0), (1, some 8), (3, none), (4, some 6)] ∧
    answerAfter (emaTfm none (some 4) none 1) (Accum.new
      (loose [(0, some 0), (1, some 8), (3, none), (4, some 6)]) 1 .linear false) [.fin 3] (.fin 4) =
      some (.ok (some 3)) ∧
    stepFold (emaStep (fun x0 x => (x - x0) / |4|) none) none none
      [(0, some 0), (1, some 8), (3, none), (4, some 6)] = some 3 := by
  refine ⟨?_, ?_, ?_⟩ <;> decide +kernel
example : stepFold (emaStep (fun _ _ => 1/2) (some fun x => some (x + 7))) none none
    [(0, none), (1, some 100), (2, some 0)] = some 4 := by decide +kernel

/-- The recurrence stays within bounds of the values, if the fractions are between 0 and 1. -/
theorem stepFold_ema_bounds {fr : ℚ → ℚ → ℚ} {lo hi : ℚ} {l : List (Pt ℚ)}
    (hfr : l.IsChain (fun p q => 0 ≤ fr p.1 q.1 ∧ fr p.1 q.1 ≤ 1))
    (hl : ∀ q ∈ l, ∀ y, q.2 = some y → lo ≤ y ∧ y ≤ hi) {e : ℚ}
    (he : stepFold (emaStep fr none) none none l = some e) : lo ≤ e ∧ e ≤ hi := by
  induction l using List.reverseRecOn generalizing e with
  | nil => simp [stepFold] at he
  | append_singleton l p ih =>
    have hl' : ∀ q ∈ l, ∀ y, q.2 = some y → lo ≤ y ∧ y ≤ hi := fun q hq => hl q (by simp [hq])
    have ih := fun e => @ih (List.IsChain.left_of_append hfr) hl' e
    rw [stepFold_snoc] at he
    cases hy : p.2 with
    | none =>
      simp only [emaStep, hy] at he
      exact ih _ he
    | some y =>
      have hyb := hl p (by simp) y hy
      cases hprev : stepFold (emaStep fr none) none none l with
      | none =>
        simp only [emaStep, hy, hprev, Option.some.injEq] at he
        rw [← he]; exact hyb
      | some e0 =>
        obtain ⟨h1, h2⟩ := ih _ hprev
        simp only [emaStep, hy, hprev, Option.some.injEq] at he
        cases hl0 : l.getLast? with
        | none =>
          rw [List.getLast?_eq_none_iff.1 hl0] at hprev
          simp [stepFold] at hprev
        | some q =>
          rw [hl0] at he
          simp only at he
          obtain ⟨pre, rfl⟩ := List.getLast?_eq_some_iff.1 hl0
          have hc : (q :: [p]).IsChain (fun p q : Pt ℚ => 0 ≤ fr p.1 q.1 ∧ fr p.1 q.1 ≤ 1) := by
            have h' : (pre ++ (q :: [p])).IsChain
                (fun p q : Pt ℚ => 0 ≤ fr p.1 q.1 ∧ fr p.1 q.1 ≤ 1) := by simpa using hfr
            exact List.IsChain.right_of_append h'
          obtain ⟨h3, h4⟩ := (List.isChain_cons_cons.1 hc).1
          rw [← he]
          constructor <;> nlinarith

theorem stepFold_ema_isSome {fr : ℚ → ℚ → ℚ} {l : List (Pt ℚ)} (h : ∃ q ∈ l, q.2 ≠ none) :
    ∃ e, stepFold (emaStep fr none) none none l = some e := by
  induction l using List.reverseRecOn with
  | nil => simp at h
  | append_singleton l p ih =>
    rw [stepFold_snoc]
    cases hy : p.2 with
    | none =>
      have : ∃ q ∈ l, q.2 ≠ none := by
        obtain ⟨q, hq, hne⟩ := h
        rcases List.mem_append.1 hq with hq | hq
        · exact ⟨q, hq, hne⟩
        · rw [List.mem_singleton.1 hq] at hne; exact absurd hy hne
      simpa [emaStep, hy] using ih this
    | some y =>
      cases stepFold (emaStep fr none) none none l with
      | none => simp [emaStep, hy]
      | some e => simp [emaStep, hy]

/-- C47: for `0 ≤ a ≤ 1` the EMA at a knot is within any bounds of the values so far; it is defined as soon
as there is a value. -/
theorem C47_alpha_bounds_partial (hm : 0 < m) {a : ℚ} (ha0 : 0 ≤ a) (ha1 : a ≤ 1)
    (h : Used (emaTfm (some a) none none m) m i u A) {k : ℕ} {p : Pt ℚ}
    (hk : A.src.points[k]? = some p) (hy : ∃ q ∈ A.src.points.take (k + 1), q.2 ≠ none) :
    ∃ e, (A.query (emaTfm (some a) none none m) (.fin p.1)).map Out.res = some (.ok (some e)) ∧
      ∀ lo hi, (∀ q ∈ A.src.points.take (k + 1), ∀ y, q.2 = some y → lo ≤ y ∧ y ≤ hi) →
        lo ≤ e ∧ e ≤ hi := by
  obtain ⟨e, he⟩ := stepFold_ema_isSome (fr := fun _ _ => a) hy
  refine ⟨e, by rw [C47_alpha_partial hm a none h hk, he], fun lo hi hb => ?_⟩
  refine stepFold_ema_bounds (fr := fun _ _ => a) ?_ hb he
  exact List.IsChain.imp (R := fun p q : Pt ℚ => p.1 < q.1) (fun _ _ _ => ⟨ha0, ha1⟩)
    (List.Pairwise.isChain (List.Pairwise.sublist (List.take_sublist _ _)
      (Used.asc (ema_follows_alpha a none m) hm h)))

/-- C47: likewise with a period that is not shorter than a gap. -/
theorem C47_period_bounds_partial (hm : 0 < m) {per : ℚ} (hp : per ≠ 0)
    (h : Used (emaTfm none (some per) none m) m i u A) {k : ℕ} {p : Pt ℚ}
    (hk : A.src.points[k]? = some p) (hy : ∃ q ∈ A.src.points.take (k + 1), q.2 ≠ none)
    (hgap : (A.src.points.take (k + 1)).IsChain (fun p q => q.1 - p.1 ≤ |per|)) :
    ∃ e, (A.query (emaTfm none (some per) none m) (.fin p.1)).map Out.res = some (.ok (some e)) ∧
      ∀ lo hi, (∀ q ∈ A.src.points.take (k + 1), ∀ y, q.2 = some y → lo ≤ y ∧ y ≤ hi) →
        lo ≤ e ∧ e ≤ hi := by
  obtain ⟨e, he⟩ := stepFold_ema_isSome (fr := fun x0 x => (x - x0) / |per|) hy
  refine ⟨e, by rw [C47_period_partial hm hp none h hk, he], fun lo hi hb => ?_⟩
  refine stepFold_ema_bounds (fr := fun x0 x => (x - x0) / |per|) ?_ hb he
  have hpos : 0 < |per| := abs_pos.2 hp
  have hasc : (A.src.points.take (k + 1)).IsChain (fun p q => p.1 < q.1) :=
    List.Pairwise.isChain (List.Pairwise.sublist (List.take_sublist _ _)
      (Used.asc (ema_follows_period hm hp none) hm h))
  rw [List.isChain_iff_getElem] at hasc hgap ⊢
  intro j hj
  exact ⟨div_nonneg (by linarith [hasc j hj]) hpos.le, (div_le_one hpos).2 (hgap j hj)⟩

/-- C47: the EMA of constant data is the constant. -/
theorem C47_constant_partial (hm : 0 < m) {a : ℚ} (ha0 : 0 ≤ a) (ha1 : a ≤ 1)
    (h : Used (emaTfm (some a) none none m) m i u A) {k : ℕ} {p : Pt ℚ}
    (hk : A.src.points[k]? = some p) {c : ℚ} (hc : ∀ q ∈ A.src.points, q.2 = some c) :
    (A.query (emaTfm (some a) none none m) (.fin p.1)).map Out.res = some (.ok (some c)) := by
  have hp : p ∈ A.src.points.take (k + 1) := by
    rw [take_succ_of_getElem? hk]; simp
  obtain ⟨e, h1, h2⟩ := C47_alpha_bounds_partial hm ha0 ha1 h hk
    ⟨p, hp, by rw [hc p (List.mem_of_getElem? hk)]; simp⟩
  obtain ⟨h3, h4⟩ := h2 c c (fun q hq y hy => by
    rw [hc q (List.mem_of_mem_take hq)] at hy; cases hy; exact ⟨le_rfl, le_rfl⟩)
  rw [h1, le_antisymm h4 h3]

/-- A period shorter than a gap overshoots: the bound is needed. -/
example : answerAfter (emaTfm none (some 1) none 1) (Accum.new (even .linear) 1) [] (.fin 2) =
    some (.ok (some 9)) := by decide +kernel
example : answerAfter (emaTfm (some (1/4)) none none 1) (Accum.new (even .linear) 1) [.fin 4] (.fin 2) =
    some (.ok (some 2)) ∧ (even .linear).points[1]? = some (2, some 5) := by
  constructor <;> decide +kernel
example : answerAfter (emaTfm (some (1/4)) none none 1)
    (Accum.new (loose [(0, some 3), (1, some 3), (5, some 3)]) 1 .linear false) [.fin 1] (.fin 5) =
    some (.ok (some 3)) := by decide +kernel

/-! ## C48 -/

/-- C48: the integral at each knot is the constant plus the running area over the knots up to it
(`None` before the first value). -/
theorem C48_area_partial (hm : minStepQ ≤ m) (mode : Interp) (const : ℚ)
    (h : Used (integralTfm mode) m i u A) {k : ℕ} {p : Pt ℚ} (hk : A.src.points[k]? = some p) :
    (integralQuery mode const A (.fin p.1)).map Out.res =
      some (.ok ((stepFold (areaStep mode) none none (A.src.points.take (k + 1))).map (· + const))) := by
  have h0 : (0 : ℚ) < minStepQ := by norm_num [minStepQ]
  have hf := integral_follows hm mode
  obtain ⟨o, h1, h2, _⟩ := C46_fold_partial hf (h0.trans_le hm) h (.fin p.1)
  simp only [integralQuery, h1, Option.map_some, h2,
    accumulatedAt_step _ i (Used.asc hf (h0.trans_le hm) h) hk, Except.map]

theorem totalArea_snoc (mode : Interp) (l : List (ℚ × ℚ)) (q p : ℚ × ℚ) :
    totalArea mode (l ++ [q, p]) =
      totalArea mode (l ++ [q]) + areaBetween mode q.1 q.2 p.1 p.2 := by
  induction l with
  | nil => simp [totalArea]
  | cons a as ih =>
    cases as with
    | nil => simp [totalArea]
    | cons b bs =>
      simp only [List.cons_append, totalArea] at ih ⊢
      rw [ih]; ring

theorem stepFold_area (mode : Interp) (l : List (ℚ × ℚ)) (hl : l ≠ []) :
    stepFold (areaStep mode) none none (defined l) = some (totalArea mode l) := by
  induction l using List.reverseRecOn with
  | nil => exact absurd rfl hl
  | append_singleton l p ih =>
    simp only [defined, List.map_append, List.map_cons, List.map_nil] at ih ⊢
    rw [stepFold_snoc]
    rcases List.eq_nil_or_concat l with rfl | ⟨l', q, rfl⟩
    · simp [stepFold, areaStep, totalArea]
    · rw [ih (by simp)]
      simp only [List.concat_eq_append, List.map_append, List.map_cons, List.map_nil,
        List.getLast?_append, List.getLast?_singleton, Option.some_or, areaStep, Option.getD_some,
        List.append_assoc, List.singleton_append]
      rw [totalArea_snoc]

/-- C48: for data without missing values, the integral at knot `k` is the constant plus the sum of
the areas of the first `k` segments. -/
theorem C48_sum_partial (hm : minStepQ ≤ m) (mode : Interp) (const : ℚ)
    (h : Used (integralTfm mode) m i u A) {l : List (ℚ × ℚ)} (hl : A.src.points = defined l) {k : ℕ}
    {p : ℚ × ℚ} (hk : l[k]? = some p) :
    (integralQuery mode const A (.fin p.1)).map Out.res =
      some (.ok (some (totalArea mode (l.take (k + 1)) + const))) := by
  have hk' : A.src.points[k]? = some (p.1, some p.2) := by simp [hl, defined, hk]
  rw [C48_area_partial hm mode const h hk', hl]
  have : (defined l).take (k + 1) = defined (l.take (k + 1)) := by simp [defined, List.map_take]
  rw [this, stepFold_area mode _ (by
    intro h0; rw [take_succ_of_getElem? hk] at h0; simp at h0)]
  rfl

/-- C48: of non-negative data it does not decrease from knot to knot. -/
theorem C48_monotone (mode : Interp) {l : List (ℚ × ℚ)} (hasc : l.Pairwise (fun p q => p.1 < q.1))
    (hl : ∀ p ∈ l, 0 ≤ p.2) {j k : ℕ} (hjk : j ≤ k) :
    totalArea mode (l.take j) ≤ totalArea mode (l.take k) := by
  induction hjk with
  | refl => exact le_rfl
  | @step k hjk ih =>
    refine ih.trans ?_
    cases hk : l[k]? with
    | none =>
      rw [List.getElem?_eq_none_iff] at hk
      rw [List.take_of_length_le hk, List.take_of_length_le (by omega)]
    | some p =>
      rw [take_succ_of_getElem? hk]
      rcases List.eq_nil_or_concat (l.take k) with h0 | ⟨l', q, h0⟩
      · rw [h0]; simp [totalArea]
      · rw [h0, List.concat_eq_append, List.append_assoc, List.singleton_append, totalArea_snoc]
        have hq : q ∈ l := List.mem_of_mem_take (i := k) (by rw [h0]; simp)
        have hp : p ∈ l := List.mem_of_getElem? hk
        have hqp : q.1 < p.1 := by
          have : (l.take (k + 1)).Pairwise (fun p q => p.1 < q.1) :=
            List.Pairwise.sublist (List.take_sublist _ _) hasc
          rw [take_succ_of_getElem? hk, h0] at this
          exact (List.pairwise_append.1 this).2.2 q (by simp) p (by simp)
        have h1 := hl q hq
        have h2 := hl p hp
        have h3 : 0 ≤ p.1 - q.1 := by linarith
        have : 0 ≤ areaBetween mode q.1 q.2 p.1 p.2 := by
          cases mode <;> simp only [areaBetween] <;> positivity
        linarith

/-- C48: the area is linear in the data. -/
theorem C48_linear (mode : Interp) (a b : ℚ) (l : List (ℚ × ℚ × ℚ)) :
    totalArea mode (l.map fun p => (p.1, a * p.2.1 + b * p.2.2)) =
      a * totalArea mode (l.map fun p => (p.1, p.2.1)) +
      b * totalArea mode (l.map fun p => (p.1, p.2.2)) := by
  induction l with
  | nil => simp [totalArea]
  | cons p ps ih =>
    cases ps with
    | nil => simp [totalArea]
    | cons q qs =>
      simp only [List.map_cons, totalArea] at ih ⊢
      rw [ih]
      cases mode <;> simp only [areaBetween] <;> ring

example : ((integralQuery .linear 10 (Accum.new (even .linear) 1) (.fin 4)).map Out.res) =
    some (.ok (some (10 + 6 + 9))) ∧
    totalArea .linear [(0, 1), (2, 5), (4, 4)] = 6 + 9 ∧
    (even .linear).points = defined [(0, 1), (2, 5), (4, 4)] := by
  refine ⟨?_, ?_, ?_⟩ <;> decide +kernel
example : ((integralQuery .previous 0 (Accum.new (even .linear) 1) (.fin 4)).map Out.res) =
    some (.ok (some (2 * 1 + 2 * 5))) ∧
    ((integralQuery .next 0 (Accum.new (even .linear) 1) (.fin 4)).map Out.res) =
    some (.ok (some (2 * 5 + 2 * 4))) := by
  constructor <;> decide +kernel
example : totalArea .linear ([(0, 1), (2, 5), (4, 4)].take 2) = 6 := by decide +kernel
example : minStepQ ≤ 1 := by norm_num [minStepQ]

/-- C47 and C48 do not hold for points that are closer than the step: the second point does not count, neither for the average nor for the
area. -/
theorem C48_negation : Honest (loose closePts) ∧ (loose closePts).points = closePts ∧
    answerAfter (emaTfm (some (1/2)) none none minStepQ) (Accum.new (loose closePts) minStepQ .linear false) [] (.fin 1) =
      some (.ok (some 2)) ∧
    stepFold (emaStep (fun _ _ => 1/2) none) none none closePts = some (9/2) ∧
    (integralQuery .linear 0 (Accum.new (loose closePts) minStepQ .linear false) (.fin 1)).map Out.res = some (.ok (some 2)) ∧
    totalArea .linear [(0, 0), (1/1000000, 10), (1, 4)] = 3499999/500000 :=
  ⟨close_honest, by decide +kernel, by decide +kernel, by decide +kernel, by decide +kernel, by decide +kernel⟩

/-! ## C50 -/

theorem Used.window {sel : Pt ℚ → List (Pt ℚ) → List (Option ℚ)}
    {f : List (Option ℚ) → Except Err (Option ℚ)} {t : Tfm} (hf : Follows m t (windowRule sel f))
    (hm : 0 < m) (h : Used t m i u A) {k : ℕ} {p : Pt ℚ} (hk : A.src.points[k]? = some p)
    (hok : ∀ b q c, A.src.points.take (k + 1) = b ++ q :: c → ∃ v, f (q.2 :: sel q b.reverse) = .ok v) :
    ∃ v, (A.query t (.fin p.1)).map Out.res = some (.ok v) ∧
      f (p.2 :: sel p (A.src.points.take k).reverse) = .ok v := by
  obtain ⟨out, h1, h2⟩ := runRule_window hok
  obtain ⟨o, h3, h4, _⟩ := C46_fold_partial hf hm h (.fin p.1)
  refine ⟨lastOut out, ?_, h2 _ _ (take_succ_of_getElem? hk)⟩
  rw [h3, Option.map_some, h4, accumulatedAt_knot i (Used.asc hf hm h) hk h1]

/-- The values among the last `n` knots up to knot `k`. -/
def lastValues (pts : List (Pt ℚ)) (n k : ℕ) : Set ℚ :=
  {y | ∃ j q, pts[j]? = some q ∧ j ≤ k ∧ k < j + n ∧ q.2 = some y}

/-- The values at the knots in `[x - per, x]`. -/
def recentValues (pts : List (Pt ℚ)) (per x : ℚ) : Set ℚ :=
  {y | ∃ q ∈ pts, x - per ≤ q.1 ∧ q.1 ≤ x ∧ q.2 = some y}

theorem takeWhile_somes (l : List ℚ) : (l.map some).takeWhile Option.isSome = l.map some := by
  induction l with
  | nil => rfl
  | cons a as ih => simpa using ih

theorem defined_take (l : List (ℚ × ℚ)) (k : ℕ) : (defined l).take k = defined (l.take k) := by
  simp [defined, List.map_take]

theorem lastFew_defined (n : ℕ) (p : Pt ℚ) (l : List (ℚ × ℚ)) :
    lastFew n p (defined l).reverse = ((l.reverse.take (n - 1)).map Prod.snd).map some := by
  unfold lastFew defined
  rw [← takeWhile_somes, ← List.map_reverse, ← List.map_take, List.map_map, List.map_map]
  rfl

theorem recent_defined (per : ℚ) (p : Pt ℚ) (l : List (ℚ × ℚ)) :
    recent per p (defined l).reverse =
      ((l.reverse.filter fun q => decide (p.1 - per ≤ q.1)).map Prod.snd).map some := by
  unfold recent defined
  rw [← List.map_reverse, List.filter_map, List.map_map, List.map_map]
  rfl

theorem split_defined {l : List (ℚ × ℚ)} {b c : List (Pt ℚ)} {q : Pt ℚ}
    (h : defined l = b ++ q :: c) :
    ∃ b' q' c', l = b' ++ q' :: c' ∧ b = defined b' ∧ q = (q'.1, some q'.2) := by
  obtain ⟨b', l2, rfl, h1, h2⟩ := List.map_eq_append_iff.1 h
  obtain ⟨q', c', rfl, h3, h4⟩ := List.map_eq_cons_iff.1 h2
  exact ⟨b', q', c', rfl, h1.symm, h3.symm⟩

theorem lastValues_eq {l : List (ℚ × ℚ)} {n k : ℕ} (hn : 1 ≤ n) {p : ℚ × ℚ} (hk : l[k]? = some p) :
    lastValues (defined l) n k =
      {y | y ∈ p.2 :: ((l.take k).reverse.take (n - 1)).map Prod.snd} := by
  have hlen : k < l.length := by
    by_contra hc
    rw [List.getElem?_eq_none (by omega)] at hk
    cases hk
  ext y
  simp only [lastValues, Set.mem_ofPred_eq, List.mem_cons, List.mem_map]
  constructor
  · rintro ⟨j, q, h1, h2, h3, h4⟩
    simp only [defined, List.getElem?_map, Option.map_eq_some_iff] at h1
    obtain ⟨q', h1, rfl⟩ := h1
    cases h4
    rcases h2.eq_or_lt with rfl | h2
    · left; rw [hk] at h1; cases h1; rfl
    · right
      refine ⟨q', ?_, rfl⟩
      rw [List.mem_iff_getElem?]
      refine ⟨k - 1 - j, ?_⟩
      rw [List.getElem?_take_of_lt (by omega), List.getElem?_reverse (by simp; omega)]
      simp only [List.length_take]
      rw [List.getElem?_take_of_lt (by omega)]
      rw [show min k l.length - 1 - (k - 1 - j) = j by omega, h1]
  · rintro (rfl | ⟨q, h1, rfl⟩)
    · exact ⟨k, (p.1, some p.2), by simp [defined, hk], le_rfl, by omega, rfl⟩
    · rw [List.mem_iff_getElem?] at h1
      obtain ⟨r, h1⟩ := h1
      have hr : r < n - 1 := by
        by_contra hc
        rw [List.getElem?_eq_none (by simp; omega)] at h1
        cases h1
      rw [List.getElem?_take_of_lt hr] at h1
      have hr2 : r < (l.take k).length := by
        by_contra hc
        rw [List.getElem?_eq_none (by simp only [List.length_reverse]; omega)] at h1
        cases h1
      rw [List.getElem?_reverse hr2] at h1
      simp only [List.length_take] at h1 hr2
      rw [List.getElem?_take_of_lt (by omega)] at h1
      exact ⟨min k l.length - 1 - r, (q.1, some q.2), by simp [defined, h1], by omega, by omega, rfl⟩

theorem recentValues_eq {l : List (ℚ × ℚ)} (hasc : Ascending (defined l)) {per : ℚ} (hper : 0 ≤ per)
    {k : ℕ} {p : ℚ × ℚ} (hk : l[k]? = some p) :
    recentValues (defined l) per p.1 =
      {y | y ∈ p.2 :: ((l.take k).reverse.filter fun q => decide (p.1 - per ≤ q.1)).map Prod.snd} := by
  have hsplit : l = l.take k ++ p :: l.drop (k + 1) := by
    conv_lhs => rw [← List.take_append_drop (k + 1) l, take_succ_of_getElem? hk]
    simp
  rw [hsplit] at hasc
  simp only [defined, List.map_append, List.map_cons] at hasc
  obtain ⟨ha1, ha2, ha3⟩ := List.pairwise_append.1 hasc
  ext y
  simp only [recentValues, Set.mem_ofPred_eq, List.mem_cons, List.mem_map, List.mem_filter,
    List.mem_reverse, decide_eq_true_eq]
  constructor
  · rintro ⟨q, h1, h2, h3, h4⟩
    rw [hsplit] at h1
    simp only [defined, List.map_append, List.map_cons] at h1
    rcases List.mem_append.1 h1 with h1 | h1
    · obtain ⟨q', h5, rfl⟩ := List.mem_map.1 h1
      cases h4
      exact Or.inr ⟨q', ⟨h5, h2⟩, rfl⟩
    · rcases List.mem_cons.1 h1 with rfl | h1
      · cases h4; exact Or.inl rfl
      · have := (List.pairwise_cons.1 ha2).1 q h1
        simp only at this
        linarith
  · rintro (rfl | ⟨q, ⟨h1, h2⟩, rfl⟩)
    · exact ⟨(p.1, some p.2), List.mem_map.2 ⟨p, List.mem_of_getElem? hk, rfl⟩, by simpa using hper,
        le_rfl, rfl⟩
    · refine ⟨(q.1, some q.2), List.mem_map.2 ⟨q, List.mem_of_mem_take h1, rfl⟩, h2, ?_, rfl⟩
      exact (ha3 (q.1, some q.2) (List.mem_map.2 ⟨q, h1, rfl⟩) (p.1, some p.2) (by simp)).le

/-- C50: of data without missing values, `trailing_min(n)` at a knot is the least of the last `n` values
ending there. -/
theorem C50_trailing_min_partial (hm : 0 < m) {n : ℕ} (hn : 1 ≤ n)
    (h : Used (mapTfm pyMin (some n) none m) m i u A) {l : List (ℚ × ℚ)}
    (hl : A.src.points = defined l) {k : ℕ} {p : ℚ × ℚ} (hk : l[k]? = some p) :
    ∃ v, (A.query (mapTfm pyMin (some n) none m) (.fin p.1)).map Out.res = some (.ok (some v)) ∧
      IsLeast (lastValues A.src.points n k) v := by
  have hk' : A.src.points[k]? = some (p.1, some p.2) := by simp [hl, defined, hk]
  obtain ⟨v, h1, h2⟩ := Used.window (map_follows_degree hm pyMin n none) hm h hk' (by
    intro b q c hb
    rw [hl, defined_take] at hb
    obtain ⟨b', q', c', _, rfl, rfl⟩ := split_defined hb
    rw [lastFew_defined]
    obtain ⟨v, hv, _⟩ := pyMin_somes q'.2 ((b'.reverse.take (n - 1)).map Prod.snd)
    exact ⟨some v, hv⟩)
  rw [hl, defined_take, lastFew_defined] at h2
  obtain ⟨w, h3, h4⟩ := pyMin_somes p.2 (((l.take k).reverse.take (n - 1)).map Prod.snd)
  have h5 := h3.symm.trans h2
  cases h5
  exact ⟨w, h1, by rw [hl, lastValues_eq hn hk]; exact h4⟩

/-- C50: likewise `trailing_max(n)` is the greatest. -/
theorem C50_trailing_max_partial (hm : 0 < m) {n : ℕ} (hn : 1 ≤ n)
    (h : Used (mapTfm pyMax (some n) none m) m i u A) {l : List (ℚ × ℚ)}
    (hl : A.src.points = defined l) {k : ℕ} {p : ℚ × ℚ} (hk : l[k]? = some p) :
    ∃ v, (A.query (mapTfm pyMax (some n) none m) (.fin p.1)).map Out.res = some (.ok (some v)) ∧
      IsGreatest (lastValues A.src.points n k) v := by
  have hk' : A.src.points[k]? = some (p.1, some p.2) := by simp [hl, defined, hk]
  obtain ⟨v, h1, h2⟩ := Used.window (map_follows_degree hm pyMax n none) hm h hk' (by
    intro b q c hb
    rw [hl, defined_take] at hb
    obtain ⟨b', q', c', _, rfl, rfl⟩ := split_defined hb
    rw [lastFew_defined]
    obtain ⟨v, hv, _⟩ := pyMax_somes q'.2 ((b'.reverse.take (n - 1)).map Prod.snd)
    exact ⟨some v, hv⟩)
  rw [hl, defined_take, lastFew_defined] at h2
  obtain ⟨w, h3, h4⟩ := pyMax_somes p.2 (((l.take k).reverse.take (n - 1)).map Prod.snd)
  have h5 := h3.symm.trans h2
  cases h5
  exact ⟨w, h1, by rw [hl, lastValues_eq hn hk]; exact h4⟩

/-- C50: with a period, the least of the values at most that far back. -/
theorem C50_trailing_min_period_partial (hm : 0 < m) {per : ℚ} (hper : 0 ≤ per)
    (h : Used (mapTfm pyMin none (some per) m) m i u A) {l : List (ℚ × ℚ)}
    (hl : A.src.points = defined l) {k : ℕ} {p : ℚ × ℚ} (hk : l[k]? = some p) :
    ∃ v, (A.query (mapTfm pyMin none (some per) m) (.fin p.1)).map Out.res = some (.ok (some v)) ∧
      IsLeast (recentValues A.src.points per p.1) v := by
  have hk' : A.src.points[k]? = some (p.1, some p.2) := by simp [hl, defined, hk]
  have hasc := Used.asc (map_follows_period (m := m) pyMin per) hm h
  obtain ⟨v, h1, h2⟩ := Used.window (map_follows_period pyMin per) hm h hk' (by
    intro b q c hb
    rw [hl, defined_take] at hb
    obtain ⟨b', q', c', _, rfl, rfl⟩ := split_defined hb
    rw [recent_defined]
    obtain ⟨v, hv, _⟩ := pyMin_somes q'.2
      ((b'.reverse.filter fun r => decide (q'.1 - per ≤ r.1)).map Prod.snd)
    exact ⟨some v, hv⟩)
  rw [hl, defined_take, recent_defined] at h2
  obtain ⟨w, h3, h4⟩ := pyMin_somes p.2
    (((l.take k).reverse.filter fun r => decide (p.1 - per ≤ r.1)).map Prod.snd)
  have h5 := h3.symm.trans h2
  cases h5
  exact ⟨w, h1, by rw [hl, recentValues_eq (hl ▸ hasc) hper hk]; exact h4⟩

/-- C50: with a period, the greatest of the values at most that far back. -/
theorem C50_trailing_max_period_partial (hm : 0 < m) {per : ℚ} (hper : 0 ≤ per)
    (h : Used (mapTfm pyMax none (some per) m) m i u A) {l : List (ℚ × ℚ)}
    (hl : A.src.points = defined l) {k : ℕ} {p : ℚ × ℚ} (hk : l[k]? = some p) :
    ∃ v, (A.query (mapTfm pyMax none (some per) m) (.fin p.1)).map Out.res = some (.ok (some v)) ∧
      IsGreatest (recentValues A.src.points per p.1) v := by
  have hk' : A.src.points[k]? = some (p.1, some p.2) := by simp [hl, defined, hk]
  have hasc := Used.asc (map_follows_period (m := m) pyMax per) hm h
  obtain ⟨v, h1, h2⟩ := Used.window (map_follows_period pyMax per) hm h hk' (by
    intro b q c hb
    rw [hl, defined_take] at hb
    obtain ⟨b', q', c', _, rfl, rfl⟩ := split_defined hb
    rw [recent_defined]
    obtain ⟨v, hv, _⟩ := pyMax_somes q'.2
      ((b'.reverse.filter fun r => decide (q'.1 - per ≤ r.1)).map Prod.snd)
    exact ⟨some v, hv⟩)
  rw [hl, defined_take, recent_defined] at h2
  obtain ⟨w, h3, h4⟩ := pyMax_somes p.2
    (((l.take k).reverse.filter fun r => decide (p.1 - per ≤ r.1)).map Prod.snd)
  have h5 := h3.symm.trans h2
  cases h5
  exact ⟨w, h1, by rw [hl, recentValues_eq (hl ▸ hasc) hper hk]; exact h4⟩

/-- C50 does not hold where a value is missing: at the knot after it, `trailing_min` raises a
`TypeError`, because `None` is compared, or does not look past it. -/
theorem C50_negation :
    answerAfter (mapTfm pyMin (some 2) none 1) (Accum.new (demo .linear) 1 .linear false) [] (.fin 3) =
      some (.error .type) ∧
    answerAfter (mapTfm pyMin (some 2) none 1) (Accum.new (demo .linear) 1 .linear false) [] (.fin 4) =
      some (.error .type) ∧
    lastValues (demo .linear).points 2 3 = {2} := by
  refine ⟨by decide +kernel, by decide +kernel, ?_⟩
  rw [demo_points]
  ext y
  simp only [lastValues, demoPts, Set.mem_ofPred_eq, Set.mem_singleton_iff]
  constructor
  · rintro ⟨j, q, h1, h2, h3, h4⟩
    obtain rfl | rfl : j = 2 ∨ j = 3 := by omega
    · simp at h1; subst h1; simp at h4
    · simp at h1; subst h1; simpa using h4.symm
  · rintro rfl
    exact ⟨3, (4, some 2), rfl, le_rfl, by omega, rfl⟩

example : answerAfter (mapTfm pyMin (some 2) none 1) (Accum.new (even .linear) 1) [.fin 3] (.fin 4) =
    some (.ok (some 4)) ∧
    answerAfter (mapTfm pyMax (some 2) none 1) (Accum.new (even .linear) 1) [] (.fin 4) =
    some (.ok (some 5)) ∧
    answerAfter (mapTfm pyMin (some 3) none 1) (Accum.new (even .linear) 1) [] (.fin 4) =
    some (.ok (some 1)) ∧
    answerAfter (mapTfm pyMin none (some 3) 1) (Accum.new (even .linear) 1) [] (.fin 4) =
    some (.ok (some 4)) ∧
    answerAfter (mapTfm pyMax none (some 2) 1) (Accum.new (even .linear) 1) [] (.fin 4) =
    some (.ok (some 5)) := by
  refine ⟨?_, ?_, ?_, ?_, ?_⟩ <;> decide +kernel

end Props
end Curvepy
