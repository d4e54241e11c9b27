import Verif.Model.RoundedAverages
import Verif.Lemmas.Rounding
import Verif.Props.Float
import Verif.Props.Averages

/-!
# The exponential moving average with rounded arithmetic

`C150`: the EMA when every operation rounds.
-/

namespace Curvepy
namespace Props
open Spec Pts Accum

variable {m : ℚ} {i : Interp} {b : Bool} {A : Accum} {fl : ℚ → ℚ} {u : ℚ}

theorem emaTfmR_id (alpha period : Option ℚ) (init : Option (ℚ → Option ℚ)) (n : ℚ) :
    emaTfmR id alpha period init n = emaTfm alpha period init n := by
  funext src acc x y e
  unfold emaTfmR emaTfm
  cases y with
  | none => rfl
  | some y =>
    cases e with
    | none => cases init <;> rfl
    | some e =>
      cases period with
      | some p =>
        simp only [id]
        cases src.xPrevious (.fin x) (some n) with
        | error er => rfl
        | ok x0 =>
          cases x0 with
          | none => rfl
          | some x0 => cases x0 <;> rfl
      | none => cases alpha <;> rfl

/-- The recurrence with rounding. -/
def emaStepR (fl : ℚ → ℚ) (fraction : ℚ → ℚ → ℚ) (prev : Option (Pt ℚ)) (e : Option ℚ) (p : Pt ℚ) : Option ℚ :=
  match p.2, e with
  | none, e => e
  | some y, none => some y
  | some y, some e =>
    some (fl (e + fl ((match prev with | some q => fraction q.1 p.1 | none => 0) * fl (y - e))))

theorem emaR_follows_alpha (fl : ℚ → ℚ) (a n : ℚ) :
    Follows m (emaTfmR fl (some a) none none n) (stepRule (emaStepR fl (fun _ _ => a))) := by
  intro src acc seen rest p _ _ hs hx _
  simp only [stepRule, List.getLast?_append, List.getLast?_singleton, Option.some_or, List.dropLast_concat, emaTfmR,
    emaStepR]
  cases hy : p.2 with
  | none => rfl
  | some y =>
    cases he : lastOut acc.points with
    | none => rfl
    | some e =>
      obtain ⟨q, hq⟩ := lastOut_none hx he
      simp [hq]

theorem emaR_follows_period (fl : ℚ → ℚ) (hm : 0 < m) {per : ℚ} (hp : per ≠ 0) :
    Follows m (emaTfmR fl none (some per) none m) (stepRule (emaStepR fl (fun x0 x => |fl (fl (x - x0) / per)|))) := by
  intro src acc seen rest p h1 _ hs hx hg
  simp only [stepRule, List.getLast?_append, List.getLast?_singleton, Option.some_or, List.dropLast_concat, emaTfmR,
    emaStepR]
  cases hy : p.2 with
  | none => rfl
  | some y =>
    cases he : lastOut acc.points with
    | none => rfl
    | some e =>
      obtain ⟨q, hq⟩ := lastOut_none hx he
      rw [xPrevious_knot h1 hm le_rfl hs hg, hq]
      simp only [Option.map_some, if_neg hp]

/-! ## One step -/

/-- A fraction of the way from a number to another, rounded, is between them. -/
theorem ema_between (R : Rounding fl u) {a e y : ℚ} (ha0 : 0 ≤ a) (ha : a * (1 + u) ^ 2 ≤ 1) (he : Machine fl e)
    (hy : Machine fl y) :
    min e y ≤ fl (e + fl (a * fl (y - e))) ∧ fl (e + fl (a * fl (y - e))) ≤ max e y := by
  have hu := R.nonneg
  have key : ∀ d : ℚ, 0 ≤ d → 0 ≤ fl (a * fl d) ∧ fl (a * fl d) ≤ d := by
    intro d hd
    have h1 := R.nonneg_of hd
    have h2 := (R.bounds hd).2
    have h3 : 0 ≤ a * fl d := mul_nonneg ha0 h1
    refine ⟨R.nonneg_of h3, (R.bounds h3).2.trans ?_⟩
    calc (1 + u) * (a * fl d) ≤ (1 + u) * (a * ((1 + u) * d)) := by gcongr
      _ = a * (1 + u) ^ 2 * d := by ring
      _ ≤ 1 * d := by gcongr
      _ = d := one_mul d
  rcases le_total e y with h | h
  · obtain ⟨k1, k2⟩ := key (y - e) (by linarith)
    rw [min_eq_left h, max_eq_right h]
    exact ⟨R.ge_of he (by linarith), R.le_of hy (by linarith)⟩
  · obtain ⟨k1, k2⟩ := key (e - y) (by linarith)
    have e1 : fl (a * fl (y - e)) = - fl (a * fl (e - y)) := by
      rw [← R.odd, ← neg_sub e y, R.odd]
      congr 1
      ring
    rw [min_eq_right h, max_eq_left h, e1]
    exact ⟨R.ge_of hy (by linarith), R.le_of he (by linarith)⟩

/-- How far one rounded step is from an exact one. -/
theorem ema_step_error (R : Rounding fl u) {a e y M : ℚ} (ha0 : 0 ≤ a) (ha : a * (1 + u) ^ 2 ≤ 1) (he : |e| ≤ M)
    (hy : |y| ≤ M) : |fl (e + fl (a * fl (y - e))) - (e + a * (y - e))| ≤ u * M * (1 + 6 * a) := by
  have hu := R.nonneg
  have hs := R.small
  have hM : 0 ≤ M := le_trans (abs_nonneg _) he
  have ha1 : a ≤ 1 := by nlinarith [mul_nonneg ha0 hu, mul_nonneg ha0 (mul_nonneg hu hu)]
  have hd : |y - e| ≤ 2 * M := by
    have := abs_sub y e
    linarith
  have h1 : |a * fl (y - e) - a * (y - e)| ≤ a * (u * (2 * M)) := by
    rw [← mul_sub, abs_mul, abs_of_nonneg ha0]
    have := R.err (y - e)
    have : u * |y - e| ≤ u * (2 * M) := mul_le_mul_of_nonneg_left hd hu
    gcongr
    linarith
  have h2 := R.product h1
  have h3 : |a * (y - e)| ≤ a * (2 * M) := by
    rw [abs_mul, abs_of_nonneg ha0]
    gcongr
  have huM : 0 ≤ u * M := mul_nonneg hu hM
  have haM : 0 ≤ a * M := mul_nonneg ha0 hM
  have hauM : 0 ≤ a * (u * M) := mul_nonneg ha0 huM
  have q1 : u * (a * (u * M)) ≤ 1 / 64 * (a * (u * M)) := mul_le_mul_of_nonneg_right hs hauM
  have h4 : |fl (a * fl (y - e)) - a * (y - e)| ≤ 5 * (a * (u * M)) := by
    have : u * (|a * (y - e)| + a * (u * (2 * M))) ≤ u * (a * (2 * M) + a * (u * (2 * M))) :=
      mul_le_mul_of_nonneg_left (by linarith) hu
    nlinarith
  have h5 : |e + fl (a * fl (y - e)) - (e + a * (y - e))| ≤ 5 * (a * (u * M)) := by
    have : e + fl (a * fl (y - e)) - (e + a * (y - e)) = fl (a * fl (y - e)) - a * (y - e) := by ring
    rw [this]
    exact h4
  have h6 := R.product h5
  have h7 : |e + a * (y - e)| ≤ M := by
    have e1 : e + a * (y - e) = (1 - a) * e + a * y := by ring
    rw [e1]
    have := abs_add_le ((1 - a) * e) (a * y)
    rw [abs_mul, abs_mul, abs_of_nonneg ha0, abs_of_nonneg (by linarith : 0 ≤ 1 - a)] at this
    have t1 : (1 - a) * |e| ≤ (1 - a) * M := mul_le_mul_of_nonneg_left he (by linarith)
    have t2 : a * |y| ≤ a * M := mul_le_mul_of_nonneg_left hy ha0
    linarith
  have h8 : u * (|e + a * (y - e)| + 5 * (a * (u * M))) ≤ u * (M + 5 * (a * (u * M))) :=
    mul_le_mul_of_nonneg_left (by linarith) hu
  nlinarith

/-! ## All steps -/

/-- Values that need no rounding. -/
def MachineValues (fl : ℚ → ℚ) (l : List (Pt ℚ)) : Prop := ∀ q ∈ l, ∀ y, q.2 = some y → Machine fl y

theorem emaR_machine (R : Rounding fl u) {fr : ℚ → ℚ → ℚ} {l : List (Pt ℚ)} (hl : MachineValues fl l) {e : ℚ}
    (he : stepFold (emaStepR fl fr) none none l = some e) : Machine fl e := by
  induction l using List.reverseRecOn generalizing e with
  | nil => simp [stepFold] at he
  | append_singleton l p ih =>
    have hl' : MachineValues fl l := fun q hq => hl q (by simp [hq])
    rw [stepFold_snoc] at he
    cases hy : p.2 with
    | none =>
      simp only [emaStepR, hy] at he
      exact ih hl' he
    | some y =>
      cases hprev : stepFold (emaStepR fl fr) none none l with
      | none =>
        simp only [emaStepR, hy, hprev, Option.some.injEq] at he
        rw [← he]
        exact hl p (by simp) y hy
      | some e0 =>
        simp only [emaStepR, hy, hprev, Option.some.injEq] at he
        rw [← he]
        exact R.machine _

theorem emaR_isSome {fr : ℚ → ℚ → ℚ} {l : List (Pt ℚ)} (h : ∃ q ∈ l, q.2 ≠ none) :
    ∃ e, stepFold (emaStepR fl fr) none none l = some e := by
  induction l using List.reverseRecOn with
  | nil => simp at h
  | append_singleton l p ih =>
    rw [stepFold_snoc]
    cases hy : p.2 with
    | none =>
      have : ∃ q ∈ l, q.2 ≠ none := by
        obtain ⟨q, hq, hne⟩ := h
        rcases List.mem_append.1 hq with hq | hq
        · exact ⟨q, hq, hne⟩
        · rw [List.mem_singleton.1 hq] at hne; exact absurd hy hne
      simpa [emaStepR, hy] using ih this
    | some y =>
      cases stepFold (emaStepR fl fr) none none l with
      | none => simp [emaStepR, hy]
      | some e => simp [emaStepR, hy]

theorem chain_last {r : Pt ℚ → Pt ℚ → Prop} {l : List (Pt ℚ)} {p q : Pt ℚ} (h : (l ++ [p]).IsChain r)
    (hq : l.getLast? = some q) : r q p := by
  obtain ⟨pre, rfl⟩ := List.getLast?_eq_some_iff.1 hq
  have h' : (pre ++ (q :: [p])).IsChain r := by simpa using h
  exact (List.isChain_cons_cons.1 (List.IsChain.right_of_append h')).1

/-- The recurrence stays within bounds of the values. -/
theorem emaR_bounds (R : Rounding fl u) {fr : ℚ → ℚ → ℚ} {lo hi : ℚ} {l : List (Pt ℚ)}
    (hfr : l.IsChain (fun p q => 0 ≤ fr p.1 q.1 ∧ fr p.1 q.1 * (1 + u) ^ 2 ≤ 1)) (hmv : MachineValues fl l)
    (hl : ∀ q ∈ l, ∀ y, q.2 = some y → lo ≤ y ∧ y ≤ hi) {e : ℚ}
    (he : stepFold (emaStepR fl fr) none none l = some e) : lo ≤ e ∧ e ≤ hi := by
  induction l using List.reverseRecOn generalizing e with
  | nil => simp [stepFold] at he
  | append_singleton l p ih =>
    have hl' : ∀ q ∈ l, ∀ y, q.2 = some y → lo ≤ y ∧ y ≤ hi := fun q hq => hl q (by simp [hq])
    have hm' : MachineValues fl l := fun q hq => hmv q (by simp [hq])
    have ih := fun e => @ih (List.IsChain.left_of_append hfr) hm' hl' e
    rw [stepFold_snoc] at he
    cases hy : p.2 with
    | none =>
      simp only [emaStepR, hy] at he
      exact ih _ he
    | some y =>
      have hyb := hl p (by simp) y hy
      cases hprev : stepFold (emaStepR fl fr) none none l with
      | none =>
        simp only [emaStepR, hy, hprev, Option.some.injEq] at he
        rw [← he]; exact hyb
      | some e0 =>
        obtain ⟨h1, h2⟩ := ih _ hprev
        simp only [emaStepR, hy, hprev, Option.some.injEq] at he
        cases hl0 : l.getLast? with
        | none =>
          rw [List.getLast?_eq_none_iff.1 hl0] at hprev
          simp [stepFold] at hprev
        | some q =>
          rw [hl0] at he
          simp only at he
          obtain ⟨h3, h4⟩ := chain_last hfr hl0
          obtain ⟨k1, k2⟩ := ema_between R h3 h4 (emaR_machine R hm' hprev) (hmv p (by simp) y hy)
          rw [← he]
          exact ⟨le_trans (le_min h1 hyb.1) k1, le_trans k2 (max_le h2 hyb.2)⟩

theorem alpha_chain {a : ℚ} (ha0 : 0 ≤ a) (ha : a * (1 + u) ^ 2 ≤ 1) (l : List (Pt ℚ)) :
    l.IsChain (fun _ _ : Pt ℚ => 0 ≤ a ∧ a * (1 + u) ^ 2 ≤ 1) := by
  induction l with
  | nil => simp
  | cons p l ih =>
    rw [List.isChain_cons]
    exact ⟨fun _ _ => ⟨ha0, ha⟩, ih⟩

/-- The rounded recurrence stays near the exact one, no matter how many values there are. -/
theorem emaR_error (R : Rounding fl u) {a M : ℚ} (ha0 : 0 < a) (ha : a * (1 + u) ^ 2 ≤ 1) {l : List (Pt ℚ)}
    (hmv : MachineValues fl l) (hl : ∀ q ∈ l, ∀ y, q.2 = some y → |y| ≤ M) :
    (stepFold (emaStepR fl fun _ _ => a) none none l = none ∧ stepFold (emaStep (fun _ _ => a) none) none none l = none)
    ∨ ∃ v w, stepFold (emaStepR fl fun _ _ => a) none none l = some v
        ∧ stepFold (emaStep (fun _ _ => a) none) none none l = some w ∧ |v - w| ≤ u * M * (1 / a + 6) := by
  have hu := R.nonneg
  have ha1 : a ≤ 1 := by nlinarith [mul_nonneg ha0.le hu, mul_nonneg ha0.le (mul_nonneg hu hu)]
  induction l using List.reverseRecOn with
  | nil => exact .inl ⟨rfl, rfl⟩
  | append_singleton l p ih =>
    have hl' : ∀ q ∈ l, ∀ y, q.2 = some y → |y| ≤ M := fun q hq => hl q (by simp [hq])
    have hm' : MachineValues fl l := fun q hq => hmv q (by simp [hq])
    have ih := ih hm' hl'
    rw [stepFold_snoc, stepFold_snoc]
    cases hy : p.2 with
    | none =>
      simp only [emaStepR, emaStep, hy]
      exact ih
    | some y =>
      have hyM := hl p (by simp) y hy
      have hM : 0 ≤ M := le_trans (abs_nonneg _) hyM
      rcases ih with ⟨h1, h2⟩ | ⟨v, w, h1, h2, h3⟩
      · refine .inr ⟨y, y, ?_, ?_, ?_⟩
        · simp only [emaStepR, hy, h1]
        · simp only [emaStep, hy, h2]
        · rw [sub_self, abs_zero]
          positivity
      · cases hl0 : l.getLast? with
        | none =>
          rw [List.getLast?_eq_none_iff.1 hl0] at h1
          simp [stepFold] at h1
        | some q =>
          refine .inr ⟨fl (v + fl (a * fl (y - v))), w + a * (y - w), ?_, ?_, ?_⟩
          · simp only [emaStepR, hy, h1]
          · simp only [emaStep, hy, h2]
          · obtain ⟨b1, b2⟩ := emaR_bounds R (fr := fun _ _ => a) (lo := -M) (hi := M) (alpha_chain ha0.le ha l) hm'
              (fun q hq y hy => abs_le.1 (hl' q hq y hy)) h1
            have k := ema_step_error R ha0.le ha (abs_le.2 ⟨b1, b2⟩) hyM
            have t := abs_add_le (fl (v + fl (a * fl (y - v))) - (v + a * (y - v))) ((1 - a) * (v - w))
            have e1 : fl (v + fl (a * fl (y - v))) - (v + a * (y - v)) + (1 - a) * (v - w)
                = fl (v + fl (a * fl (y - v))) - (w + a * (y - w)) := by ring
            rw [e1, abs_mul, abs_of_nonneg (by linarith : 0 ≤ 1 - a)] at t
            have t2 : (1 - a) * |v - w| ≤ (1 - a) * (u * M * (1 / a + 6)) :=
              mul_le_mul_of_nonneg_left h3 (by linarith)
            have e2 : (1 - a) * (u * M * (1 / a + 6)) + u * M * (1 + 6 * a) = u * M * (1 / a + 6) := by
              field_simp
              ring
            linarith

/-! ## The accumulator -/

theorem emaR_answer (hm : 0 < m) (a : ℚ) (h : Used (emaTfmR fl (some a) none none m) m i b A) {k : ℕ} {p : Pt ℚ}
    (hk : A.src.points[k]? = some p) :
    (A.query (emaTfmR fl (some a) none none m) (.fin p.1)).map Out.res =
      some (.ok (stepFold (emaStepR fl (fun _ _ => a)) none none (A.src.points.take (k + 1)))) := by
  have hf := emaR_follows_alpha (m := m) fl a m
  obtain ⟨o, h1, h2, _⟩ := C46_fold_partial hf hm h (.fin p.1)
  rw [h1, Option.map_some, h2, accumulatedAt_step _ i (Used.asc hf hm h) hk]

theorem emaR_answer_period (hm : 0 < m) {per : ℚ} (hp : per ≠ 0)
    (h : Used (emaTfmR fl none (some per) none m) m i b A) {k : ℕ} {p : Pt ℚ} (hk : A.src.points[k]? = some p) :
    (A.query (emaTfmR fl none (some per) none m) (.fin p.1)).map Out.res =
      some (.ok (stepFold (emaStepR fl (fun x0 x => |fl (fl (x - x0) / per)|)) none none
        (A.src.points.take (k + 1)))) := by
  have hf := emaR_follows_period fl hm hp
  obtain ⟨o, h1, h2, _⟩ := C46_fold_partial hf hm h (.fin p.1)
  rw [h1, Option.map_some, h2, accumulatedAt_step _ i (Used.asc hf hm h) hk]

/-- **Within the values**: if `a` is below `1` by the last digits at least, the rounded EMA at a point is within all bounds
of the values up to there, exactly. -/
theorem C150_bounds (R : Rounding fl u) (hm : 0 < m) {a : ℚ} (ha0 : 0 ≤ a) (ha : a * (1 + u) ^ 2 ≤ 1)
    (h : Used (emaTfmR fl (some a) none none m) m i b A) {k : ℕ} {p : Pt ℚ} (hk : A.src.points[k]? = some p)
    (hy : ∃ q ∈ A.src.points.take (k + 1), q.2 ≠ none) (hmv : MachineValues fl (A.src.points.take (k + 1))) :
    ∃ e, (A.query (emaTfmR fl (some a) none none m) (.fin p.1)).map Out.res = some (.ok (some e)) ∧
      ∀ lo hi, (∀ q ∈ A.src.points.take (k + 1), ∀ y, q.2 = some y → lo ≤ y ∧ y ≤ hi) → lo ≤ e ∧ e ≤ hi := by
  obtain ⟨e, he⟩ := emaR_isSome (fl := fl) (fr := fun _ _ => a) hy
  refine ⟨e, by rw [emaR_answer hm a h hk, he], fun lo hi hb => ?_⟩
  exact emaR_bounds R (fr := fun _ _ => a) (alpha_chain ha0 ha _) hmv hb he

/-- **Within the values, with a period** that is longer than the distances of the points by the last digits at least. -/
theorem C150_period (R : Rounding fl u) (hm : 0 < m) {per : ℚ} (hp : 0 < per)
    (h : Used (emaTfmR fl none (some per) none m) m i b A) {k : ℕ} {p : Pt ℚ} (hk : A.src.points[k]? = some p)
    (hy : ∃ q ∈ A.src.points.take (k + 1), q.2 ≠ none) (hmv : MachineValues fl (A.src.points.take (k + 1)))
    (hgap : (A.src.points.take (k + 1)).IsChain (fun p q => (q.1 - p.1) * (1 + u) ^ 4 ≤ per)) :
    ∃ e, (A.query (emaTfmR fl none (some per) none m) (.fin p.1)).map Out.res = some (.ok (some e)) ∧
      ∀ lo hi, (∀ q ∈ A.src.points.take (k + 1), ∀ y, q.2 = some y → lo ≤ y ∧ y ≤ hi) → lo ≤ e ∧ e ≤ hi := by
  obtain ⟨e, he⟩ := emaR_isSome (fl := fl) (fr := fun x0 x => |fl (fl (x - x0) / per)|) hy
  refine ⟨e, by rw [emaR_answer_period hm hp.ne' h hk, he], fun lo hi hb => ?_⟩
  refine emaR_bounds R (fr := fun x0 x => |fl (fl (x - x0) / per)|) ?_ hmv hb he
  have hu := R.nonneg
  have hasc : (A.src.points.take (k + 1)).IsChain (fun p q => p.1 < q.1) :=
    List.Pairwise.isChain (List.Pairwise.sublist (List.take_sublist _ _)
      (Used.asc (emaR_follows_period fl hm hp.ne') hm h))
  rw [List.isChain_iff_getElem] at hasc hgap ⊢
  intro j hj
  have h1 := hasc j hj
  have h2 := hgap j hj
  refine ⟨abs_nonneg _, ?_⟩
  set d := (A.src.points.take (k + 1))[j + 1].1 - (A.src.points.take (k + 1))[j].1 with hd
  have d0 : 0 ≤ d := by linarith
  have f0 := R.nonneg_of d0
  have f1 := (R.bounds d0).2
  have g0 : 0 ≤ fl d / per := div_nonneg f0 hp.le
  have g1 := (R.bounds g0).2
  rw [abs_of_nonneg (R.nonneg_of g0)]
  calc fl (fl d / per) * (1 + u) ^ 2 ≤ ((1 + u) * (fl d / per)) * (1 + u) ^ 2 := by gcongr
    _ ≤ ((1 + u) * (((1 + u) * d) / per)) * (1 + u) ^ 2 := by gcongr
    _ = (d * (1 + u) ^ 4) / per := by ring
    _ ≤ 1 := by rw [div_le_one hp]; exact h2

/-- **Constant values** are kept exactly, with any fraction. -/
theorem C150_constant (R : Rounding fl u) (hm : 0 < m) {a : ℚ} (h : Used (emaTfmR fl (some a) none none m) m i b A)
    {k : ℕ} {p : Pt ℚ} (hk : A.src.points[k]? = some p) {c : ℚ} (hmc : Machine fl c)
    (hc : ∀ q ∈ A.src.points, q.2 = some c) :
    (A.query (emaTfmR fl (some a) none none m) (.fin p.1)).map Out.res = some (.ok (some c)) := by
  rw [emaR_answer hm a h hk]
  have hc' : ∀ q ∈ A.src.points.take (k + 1), q.2 = some c := fun q hq => hc q (List.mem_of_mem_take hq)
  have hne : A.src.points.take (k + 1) ≠ [] := by
    rw [take_succ_of_getElem? hk]
    simp
  generalize A.src.points.take (k + 1) = l at hc' hne
  have : stepFold (emaStepR fl fun _ _ => a) none none l = some c := by
    induction l using List.reverseRecOn with
    | nil => exact absurd rfl hne
    | append_singleton l p ih =>
      rw [stepFold_snoc]
      have hp := hc' p (by simp)
      by_cases hl : l = []
      · subst hl
        simp [stepFold, emaStepR, hp]
      · have := ih (fun q hq => hc' q (by simp [hq])) hl
        simp only [emaStepR, hp, this, sub_self, R.zero, mul_zero, add_zero, Option.some.injEq]
        exact hmc
  rw [this]

/-- **The rounding errors do not pile up**: the rounded EMA is within `u M (1 / a + 6)` of the exact one, where `M` bounds
the values, however many there are. -/
theorem C150_error (R : Rounding fl u) (hm : 0 < m) {a M : ℚ} (ha0 : 0 < a) (ha : a * (1 + u) ^ 2 ≤ 1)
    (h : Used (emaTfmR fl (some a) none none m) m i b A) {k : ℕ} {p : Pt ℚ} (hk : A.src.points[k]? = some p)
    (hmv : MachineValues fl (A.src.points.take (k + 1)))
    (hl : ∀ q ∈ A.src.points.take (k + 1), ∀ y, q.2 = some y → |y| ≤ M) {w : ℚ}
    (hw : stepFold (emaStep (fun _ _ => a) none) none none (A.src.points.take (k + 1)) = some w) :
    ∃ v, (A.query (emaTfmR fl (some a) none none m) (.fin p.1)).map Out.res = some (.ok (some v))
      ∧ |v - w| ≤ u * M * (1 / a + 6) := by
  rcases emaR_error R ha0 ha hmv hl with ⟨_, h2⟩ | ⟨v, w', h1, h2, h3⟩
  · rw [h2] at hw
    cases hw
  · rw [h2] at hw
    cases hw
    exact ⟨v, by rw [emaR_answer hm a h hk, h1], h3⟩

/-! ## Examples -/

/-- The hypotheses hold; here the EMA needs no rounding. -/
example : Used (emaTfmR fl64 (some (1 / 2)) none none 1) 1 .linear true (Accum.new (even .linear) 1)
    ∧ MachineValues fl64 (even .linear).points ∧ (1 / 2 : ℚ) * (1 + 1 / 2 ^ 53) ^ 2 ≤ 1
    ∧ answerAfter (emaTfmR fl64 (some (1 / 2)) none none 1) (Accum.new (even .linear) 1) [] (.fin 4)
      = some (.ok (some (7 / 2))) := by
  refine ⟨.new (even_honest .linear) (even_fit _ _) , ?_, by norm_num, by decide +kernel⟩
  rw [even_points]
  intro q hq y hy
  simp [evenPts] at hq
  rcases hq with rfl | rfl | rfl <;> (cases hy; show fl64 _ = _; decide +kernel)

/-- With a third: the last digit is not that of the exact EMA. -/
example : answerAfter (emaTfmR fl64 (some (fl64 (1 / 3))) none none 1) (Accum.new (even .linear) 1) [] (.fin 2)
      = some (.ok (some (fl64 (7 / 3) - 1 / 2 ^ 51))) := by
  decide +kernel

/-- **A fraction of `1` leaves the values**: from `1` to `2⁻⁶⁰` the EMA becomes `0`, though both values are positive and it
should be the last one. -/
theorem C150_negation :
    answerAfter (emaTfmR fl64 (some 1) none none 1) (Accum.new (loose [(0, some 1), (1, some (1 / 2 ^ 60))]) 1 .linear false)
      [] (.fin 1) = some (.ok (some 0)) := by
  decide +kernel
/-! ## An instance of each theorem -/

theorem even_emaR (a : ℚ) : Used (emaTfmR fl64 (some a) none none 1) 1 .linear true (Accum.new (even .linear) 1) :=
  .new (even_honest .linear) (even_fit _ _)

theorem even_machine : MachineValues fl64 (even .linear).points := by
  rw [even_points]
  intro q hq y hy
  simp [evenPts] at hq
  rcases hq with rfl | rfl | rfl <;> (cases hy; show fl64 _ = _; decide +kernel)

theorem even_three : (Accum.new (even .linear) 1).src.points[2]? = some (4, some 4) := by
  show (even .linear).points[2]? = _
  rw [even_points]; rfl

theorem even_all : (Accum.new (even .linear) 1).src.points.take (2 + 1) = (even .linear).points := by
  show (even .linear).points.take 3 = _
  rw [even_points]; rfl

/-- With a third, which is no machine number: within the values `1` to `5`. -/
example : ∃ e, ((Accum.new (even .linear) 1).query (emaTfmR fl64 (some (1 / 3)) none none 1) (.fin 4)).map Out.res =
    some (.ok (some e)) ∧ 1 ≤ e ∧ e ≤ 5 := by
  obtain ⟨e, h1, h2⟩ := C150_bounds fl64_rounding (by norm_num) (by norm_num) (by norm_num) (even_emaR (1 / 3)) even_three
    (by rw [even_all, even_points]; exact ⟨(0, some 1), by simp [evenPts], by simp⟩) (by rw [even_all]; exact even_machine)
  refine ⟨e, h1, h2 1 5 ?_⟩
  rw [even_all, even_points]
  intro q hq y hy
  simp [evenPts] at hq
  rcases hq with rfl | rfl | rfl <;> (cases hy; norm_num)

/-- It is off by at most `45` parts in `2 ^ 53`. -/
example : ∃ v, ((Accum.new (even .linear) 1).query (emaTfmR fl64 (some (1 / 3)) none none 1) (.fin 4)).map Out.res =
    some (.ok (some v)) ∧ |v - 26 / 9| ≤ 45 / 2 ^ 53 := by
  obtain ⟨v, h1, h2⟩ := C150_error (M := 5) (w := 26 / 9) fl64_rounding (by norm_num) (by norm_num) (by norm_num) (even_emaR (1 / 3))
    even_three (by rw [even_all]; exact even_machine)
    (by
      rw [even_all, even_points]
      intro q hq y hy
      simp [evenPts] at hq
      rcases hq with rfl | rfl | rfl <;> (cases hy; norm_num [abs_le]))
    (by rw [even_all, even_points]; decide +kernel)
  exact ⟨v, h1, h2.trans (by norm_num)⟩

/-- With a period of `5`, over steps of `2`. -/
example : ∃ e, ((Accum.new (even .linear) 1).query (emaTfmR fl64 none (some 5) none 1) (.fin 4)).map Out.res =
    some (.ok (some e)) ∧ 1 ≤ e ∧ e ≤ 5 := by
  obtain ⟨e, h1, h2⟩ := C150_period fl64_rounding (by norm_num) (per := 5) (by norm_num)
    (show Used (emaTfmR fl64 none (some 5) none 1) 1 .linear true (Accum.new (even .linear) 1) from
      .new (even_honest .linear) (even_fit _ _)) even_three
    (by rw [even_all, even_points]; exact ⟨(0, some 1), by simp [evenPts], by simp⟩) (by rw [even_all]; exact even_machine)
    (by rw [even_all, even_points]; simp [evenPts]; norm_num)
  refine ⟨e, h1, h2 1 5 ?_⟩
  rw [even_all, even_points]
  intro q hq y hy
  simp [evenPts] at hq
  rcases hq with rfl | rfl | rfl <;> (cases hy; norm_num)

end Props
end Curvepy
