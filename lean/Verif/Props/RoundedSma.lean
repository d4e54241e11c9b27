import Verif.Lemmas.RoundedSma
import Verif.Props.Sma

/-!
# Simple moving averages with rounded arithmetic

`C170`: the SMA when every operation on values rounds.  `AveragingR fl w m u A`: an average with window `w` after any
history of queries, edits of its source and reads.
-/

namespace Curvepy
namespace Props
open Spec Pts Accum Sma

variable {fl : ℚ → ℚ} {ε : ℚ} {m : ℚ} {u : Bool} {w : Window} {A : Accum} {l : List (ℚ × ℚ)}

/-! ## Rounded areas -/

/-- A running area needs no rounding. -/
theorem areaR_machine (R : Rounding fl ε) (mode : Interp) {l : List (Pt ℚ)} {v : ℚ}
    (h : stepFold (areaStepR fl mode) none none l = some v) : Machine fl v := by
  induction l using List.reverseRecOn generalizing v with
  | nil => simp [stepFold] at h
  | append_singleton l p ih =>
    have hs : ∀ s : Option ℚ, stepFold (areaStepR fl mode) none none l = s → Machine fl (s.getD 0) := by
      intro s hs
      cases s with
      | none => exact R.zero
      | some s => exact ih hs
    rw [stepFold_snoc] at h
    unfold areaStepR at h
    split at h
    · exact ih h
    · split at h
      · simp only [Option.some.injEq] at h
        rw [← h]
        exact R.machine _
      · simp only [Option.some.injEq] at h
        rw [← h]
        exact hs _ rfl

theorem Tame.part {l l' : List (Pt ℚ)} {X M δ : ℚ} (h : Tame fl l X M δ) (hl : l' <:+: l) : Tame fl l' X M δ :=
  ⟨fun q hq => h.near q (hl.subset hq), fun q hq => h.values q (hl.subset hq), fun q hq => h.machine q (hl.subset hq),
    h.gaps.infix hl⟩

/-- The rounded area of a stretch of points is off by what can be lost in `k` steps. -/
theorem stretch_error (R : Rounding fl ε) {X M δ : ℚ} (hM : 0 ≤ M) (hX : 0 ≤ X) (hδ : 0 < δ) {k s : ℕ}
    (ht : Tame fl (defined (l.take (k + 1))) X M δ) (hN : (2 * ((k : ℚ) + 1) + 1) * ε ≤ 1) {j : ℕ} (hsj : s ≤ j)
    (hjk : j ≤ k) (hk : k < l.length) :
    ∃ v, stepFold (areaStepR fl .linear) none none (defined ((l.take (j + 1)).drop s)) = some v ∧ Machine fl v
      ∧ |v - totalArea .linear ((l.take (j + 1)).drop s)|
        ≤ 2 * ((k : ℚ) + 1) * (98 * ε * M * X ^ 2 / δ + ε * (2 * M * X)) := by
  have hu := R.nonneg
  have hne : (l.take (j + 1)).drop s ≠ [] := by
    intro h0
    have := congrArg List.length h0
    simp only [List.length_drop, List.length_take, List.length_nil] at this
    omega
  have hin : defined ((l.take (j + 1)).drop s) <:+: defined (l.take (k + 1)) := by
    have h1 : l.take (j + 1) <+: l.take (k + 1) := List.take_prefix_take_left (by omega)
    have h2 : (l.take (j + 1)).drop s <:+: l.take (k + 1) := (List.drop_suffix _ _).isInfix.trans h1.isInfix
    exact h2.map _
  have hlen : (((defined ((l.take (j + 1)).drop s)).length : ℕ) : ℚ) ≤ (k : ℚ) + 1 := by
    have : (defined ((l.take (j + 1)).drop s)).length ≤ k + 1 := by
      simp only [defined, List.length_map, List.length_drop, List.length_take]
      omega
    exact_mod_cast this
  rcases areaR_error R .linear hM hX hδ (ht.part hin) (by nlinarith) with ⟨_, h2⟩ | ⟨v, a, h1, h2, h3, _⟩
  · rw [stepFold_area _ _ hne] at h2
    cases h2
  · rw [stepFold_area _ _ hne] at h2
    cases h2
    refine ⟨v, h1, areaR_machine R _ h1, h3.trans ?_⟩
    gcongr

/-! ## At the knots -/

/-- Two values of the integral, one after the other: both are areas from the same knot on. -/
theorem slopeR_spec (hm : minStepQ ≤ m) (hw : Fits m w) {P : List (Pt ℚ)} (hp : defined l <+: P) (h : OkR fl w m u P A)
    {j k : ℕ} (hjk : j ≤ k) {p q : ℚ × ℚ} (hj : l[j]? = some p) (hk : l[k]? = some q) :
    ∃ o1 o2 s, s ≤ j ∧ superYR fl w A p.1 = some o1
      ∧ o1.res = .ok ((stepFold (areaStepR fl .linear) none none (defined ((l.take (j + 1)).drop s))).map fl)
      ∧ superYR fl w o1.st q.1 = some o2
      ∧ o2.res = .ok ((stepFold (areaStepR fl .linear) none none (defined ((l.take (k + 1)).drop s))).map fl)
      ∧ OkR fl w m u P o2.st := by
  have hm0 : (0 : ℚ) < m := lt_of_lt_of_le (by norm_num [minStepQ]) hm
  obtain ⟨hP, skip, seen, todo, s0⟩ := h
  have hlj := (List.getElem?_eq_some_iff.1 hj).1
  have hlk := (List.getElem?_eq_some_iff.1 hk).1
  have hj' : A.src.points[j]? = some (p.1, some p.2) := by rw [hP]; exact prefix_get hp hj
  obtain ⟨o1, skip1, seen1, todo1, a, qa, r1, r2, r3, r4, r5, r6, r7, r8, r9, _⟩ := superYR_spec hm hw s0 hj'
  have hP1 : o1.st.src.points = P := r2.trans hP
  have hk' : o1.st.src.points[k]? = some (q.1, some q.2) := by rw [hP1]; exact prefix_get hp hk
  obtain ⟨o2, skip2, seen2, todo2, b, qb, t1, t2, t3, t4, t5, t6, t7, t8, t9, t10⟩ := superYR_spec hm hw r3 hk'
  have hab : a ≤ b := by
    have hst : smaStart o1.st.src w m p.1 = .ok (some (.fin qa.1)) := by
      rw [← r6]
      cases w with
      | period per => simp only [smaStart, honest_next s0.src, honest_next r3.src, r2]
      | degree n => simp only [smaStart, stepBack_congr r3.src s0.src r2]
    have h1 := start_mono r3.src hm0 r3.gapped (show o1.st.src.points[j]? = some (p.1, some p.2) by
      rw [hP1]; exact prefix_get hp hj) hk' hjk hst t6
    by_contra hc
    have h2 := r3.src.wf.asc.lt t4 (by rw [r2]; exact r4) (by omega)
    linarith
  have hskip : skip2 = skip1 := t10 r7 (by omega)
  rw [hP, prefix_window hp hlj] at r9
  rw [hP1, hskip, prefix_window hp hlk] at t9
  exact ⟨o1, o2, skip1.length, by omega, r1, r9, t1, t9, t2.trans hP1, _, _, _, t3⟩

/-- The answer at a knot, if the window found is the right one. -/
theorem smaYR_knot (R : Rounding fl ε) (hm : minStepQ ≤ m) (hw : Fits m w) {P : List (Pt ℚ)} (hpre : defined l <+: P)
    (h : OkR fl w m u P A) {X M δ : ℚ} (hδ : 0 < δ) {j k : ℕ} (hjk : j ≤ k) {p q : ℚ × ℚ} (hj : l[j]? = some p)
    (hk : l[k]? = some q) (ht : Tame fl (defined (l.take (k + 1))) X M δ) (hN : (2 * ((k : ℚ) + 1) + 1) * ε ≤ 1)
    (hd : ∃ d, smaDomain A.src w m = .ok d ∧ d.contains (.fin q.1) = true)
    (hs : ∀ s, Honest s → s.points = P → smaStart s w m q.1 = .ok (some (.fin p.1)))
    (he : ∀ s, Honest s → s.points = P → smaEnd s w m p.1 = .ok (some (.fin q.1))) (fuel : ℕ) :
    ∃ o v, smaYR fl w (fuel + 1) A (.fin q.1) = some o ∧ OkR fl w m u P o.st ∧ o.res = .ok (some v)
      ∧ |v - meanHeight ((l.take (k + 1)).drop j)| ≤ 5 * ε * M
        + 6 * ((k : ℚ) + 1) * (98 * ε * M * X ^ 2 / δ + 2 * ε * M * X) / (q.1 - p.1)
      ∧ (j = k → v = q.2) := by
  have hu := R.nonneg
  have hsm := R.small
  have hlk := (List.getElem?_eq_some_iff.1 hk).1
  have hqm : (q.1, some q.2) ∈ defined (l.take (k + 1)) := by
    rw [take_succ_of_getElem? hk]
    simp [defined]
  have hM : 0 ≤ M := le_trans (abs_nonneg _) (ht.values _ hqm q.2 rfl)
  have hX : 0 ≤ X := le_trans (abs_nonneg _) (ht.near _ hqm)
  obtain ⟨hP, skip, seen, todo, s0⟩ := h
  obtain ⟨B, d, hB, hdB, hBp, sB⟩ := smaTouchR_spec s0
  obtain ⟨d', hd', hcon⟩ := hd
  rw [hdB] at hd'
  cases hd'
  have hBP : B.src.points = P := hBp.trans hP
  have okB : OkR fl w m u P B := ⟨hBP, _, _, _, sB⟩
  unfold smaYR
  simp only [hB, hcon, Bool.not_true, Bool.false_eq_true, if_false, sB.step, hs _ sB.src hBP, finPart, he _ sB.src hBP]
  have hasc : Ascending P := by rw [← hBP]; exact sB.src.wf.asc
  rcases hjk.eq_or_lt with rfl | hlt
  · rw [hj] at hk
    cases hk
    simp only [decide_true, Bool.true_or, if_true]
    refine ⟨_, p.2, rfl, okB, ?_, ?_, fun _ => rfl⟩
    · show B.src.y _ = _
      rw [Props.C01_stored_value sB.src (p := (p.1, some p.2)) (by
        rw [hBP]; exact List.mem_of_getElem? (prefix_get hpre hj))]
    · have : (l.take (j + 1)).drop j = [p] := by
        rw [take_succ_of_getElem? hj, List.drop_append_of_le_length (by rw [List.length_take]; omega)]
        simp
      rw [this]
      show |p.2 - p.2| ≤ _
      rw [sub_self, sub_self, abs_zero, div_zero, add_zero]
      positivity
  · have hpq : p.1 < q.1 := hasc.lt (prefix_get hpre hj) (prefix_get hpre hk) hlt
    obtain ⟨o1, o2, s, hsj, r1, r2, r3, r4, r5⟩ := slopeR_spec hm hw hpre okB hjk hj hk
    obtain ⟨v0, a1, a2, a3⟩ := stretch_error R hM hX hδ ht hN hsj hjk hlk
    obtain ⟨v1, b1, b2, b3⟩ := stretch_error R hM hX hδ ht hN (hsj.trans hjk) le_rfl hlk
    rw [a1, Option.map_some, show fl v0 = v0 from a2] at r2
    rw [b1, Option.map_some, show fl v1 = v1 from b2] at r4
    have hne1 : (p.1 = q.1) = False := by simp [hpq.ne]
    have hne2 : (q.1 = p.1) = False := by simp [hpq.ne']
    simp only [Option.some.injEq, hne1, hne2, decide_false, Bool.or_false, Bool.false_eq_true, if_false, r1, whenSome, r2,
      r3, r4, answer, if_true, Option.map_some]
    refine ⟨_, _, rfl, r5, rfl, ?_, fun h0 => absurd h0 hlt.ne⟩
    have hL : 0 < q.1 - p.1 := by linarith
    have key := C151_mean R hL a3 b3
    have hcut := totalArea_cut .linear hsj hjk hj
    have e1 : totalArea .linear ((l.take (k + 1)).drop s) - totalArea .linear ((l.take (j + 1)).drop s)
        = totalArea .linear ((l.take (k + 1)).drop j) := by rw [hcut]; ring
    rw [e1, ← meanHeight_window hlt hj hk] at key
    refine key.trans ?_
    obtain ⟨E, hE⟩ : ∃ E, E = ((k : ℚ) + 1) * (98 * ε * M * X ^ 2 / δ + ε * (2 * M * X)) := ⟨_, rfl⟩
    have hE0 : 0 ≤ E := by rw [hE]; positivity
    have hE2 : 2 * ((k : ℚ) + 1) * (98 * ε * M * X ^ 2 / δ + ε * (2 * M * X)) = 2 * E := by rw [hE]; ring
    have hE6 : 6 * ((k : ℚ) + 1) * (98 * ε * M * X ^ 2 / δ + 2 * ε * M * X) = 6 * E := by rw [hE]; ring
    rw [hE2, hE6]
    have hwin : ∀ r ∈ (l.take (k + 1)).drop j, -M ≤ r.2 ∧ r.2 ≤ M := by
      intro r hr
      have hr' : (r.1, some r.2) ∈ defined (l.take (k + 1)) := by
        simp only [defined, List.mem_map]
        exact ⟨r, List.mem_of_mem_drop hr, rfl⟩
      exact abs_le.1 (ht.values _ hr' r.2 rfl)
    have hasc' : ((l.take (k + 1)).drop j).Pairwise (fun p q => p.1 < q.1) := by
      have h1 : Ascending (defined l) := hasc.sublist hpre.sublist
      unfold Ascending defined at h1
      rw [List.pairwise_map] at h1
      exact (h1.sublist (List.take_sublist _ _)).sublist (List.drop_sublist _ _)
    obtain ⟨c1, c2⟩ := area_bounds _ hasc' hwin
    rw [width_window hjk hj hk] at c1 c2
    have c3 : |totalArea .linear ((l.take (k + 1)).drop j)| ≤ M * (q.1 - p.1) := abs_le.2 ⟨by linarith, c2⟩
    have c4 : 5 * ε * |totalArea .linear ((l.take (k + 1)).drop j)| ≤ 5 * ε * (M * (q.1 - p.1)) := by gcongr
    have c5 : ε * E ≤ 1 / 64 * E := mul_le_mul_of_nonneg_right hsm hE0
    have e2 : 5 * ε * M + 6 * E / (q.1 - p.1) = (5 * ε * (M * (q.1 - p.1)) + 6 * E) / (q.1 - p.1) := by
      field_simp
    rw [e2]
    refine div_le_div_of_nonneg_right ?_ hL.le
    linarith

/-- A rounded average over `n` points at a knot. -/
theorem degreeR_knot (R : Rounding fl ε) (hm : minStepQ ≤ m) {n : ℕ} (hn : 1 ≤ n) {P : List (Pt ℚ)}
    (hpre : defined l <+: P) (h : OkR fl (.degree n) m u P A) {X M δ : ℚ} (hδ : 0 < δ) {k : ℕ} {q : ℚ × ℚ}
    (hk : l[k]? = some q) (hnk : n ≤ k + 1) (ht : Tame fl (defined (l.take (k + 1))) X M δ)
    (hN : (2 * ((k : ℚ) + 1) + 1) * ε ≤ 1) (fuel : ℕ) :
    ∃ o v, smaYR fl (.degree n) (fuel + 1) A (.fin q.1) = some o ∧ OkR fl (.degree n) m u P o.st ∧ o.res = .ok (some v)
      ∧ |v - meanHeight (windowAt l n k)| ≤ 5 * ε * M
        + 6 * ((k : ℚ) + 1) * (98 * ε * M * X ^ 2 / δ + 2 * ε * M * X) / width (windowAt l n k)
      ∧ (n = 1 → v = q.2) := by
  have hm0 : (0 : ℚ) < m := lt_of_lt_of_le (by norm_num [minStepQ]) hm
  have hlk := (List.getElem?_eq_some_iff.1 hk).1
  have hj : l[k + 1 - n]? = some l[k + 1 - n] := List.getElem?_eq_getElem _
  obtain ⟨hP, skip, seen, todo, s0⟩ := id h
  have hg : Gapped m P := by rw [← hP]; exact s0.gapped
  have hdom : ∃ d, smaDomain A.src (.degree n) m = .ok d ∧ d.contains (.fin q.1) = true := by
    obtain ⟨d, h1, h2⟩ := degree_domain s0.src hm0 s0.gapped n q.1
    refine ⟨d, h1, h2.2 ?_⟩
    have hlen := hpre.length_le
    rw [show (defined l).length = l.length by simp [defined], ← hP] at hlen
    have ha : l[n - 1]? = some l[n - 1] := List.getElem?_eq_getElem _
    have hb : A.src.points[A.src.points.length - 1]? = some A.src.points[A.src.points.length - 1] := List.getElem?_eq_getElem _
    have ha' : A.src.points[n - 1]? = some (l[n - 1].1, some l[n - 1].2) := by rw [hP]; exact prefix_get hpre ha
    have hk' : A.src.points[k]? = some (q.1, some q.2) := by rw [hP]; exact prefix_get hpre hk
    exact ⟨_, _, ha', hb, s0.src.wf.asc.le ha' hk' (by omega), s0.src.wf.asc.le hk' hb (by omega)⟩
  obtain ⟨o, v, h1, h2, h3, h4, h5⟩ := smaYR_knot R hm (show Fits m (.degree n) from hn) hpre h hδ (by omega) hj hk ht hN hdom
    (degree_start hm0 hpre hg (by omega) hj hk) (degree_end hm0 hpre hg (by omega) hj hk) fuel
  refine ⟨o, v, h1, h2, h3, ?_, fun h0 => h5 (by omega)⟩
  rw [windowAt, width_window (by omega) hj hk]
  exact h4

/-- **Near the mean**: at a knot after `k` others, the rounded average over `n` points is within the mean height of the
line through the last `n` points and what rounding can lose in all areas that have been added up, also those of points that
are not among the last `n` (see `C170_negation`): values are up to `M`, positions up to `X` and distances at least `δ`. -/
theorem C170_error (R : Rounding fl ε) (hm : minStepQ ≤ m) {n : ℕ} (hn : 1 ≤ n) (h : AveragingR fl (.degree n) m u A)
    (hl : defined l <+: A.src.points) {X M δ : ℚ} (hδ : 0 < δ) {k : ℕ} {q : ℚ × ℚ} (hk : l[k]? = some q) (hnk : n ≤ k + 1)
    (ht : Tame fl (defined (l.take (k + 1))) X M δ) (hN : (2 * ((k : ℚ) + 1) + 1) * ε ≤ 1) (fuel : ℕ) :
    ∃ v, (smaYR fl (.degree n) (fuel + 1) A (.fin q.1)).map Out.res = some (.ok (some v))
      ∧ |v - meanHeight (windowAt l n k)| ≤ 5 * ε * M
        + 6 * ((k : ℚ) + 1) * (98 * ε * M * X ^ 2 / δ + 2 * ε * M * X) / width (windowAt l n k) := by
  have hok := averagingR_ok hm (show Fits m (.degree n) from hn) h
  obtain ⟨o, v, h1, _, h3, h4, _⟩ := degreeR_knot R hm hn hl hok hδ hk hnk ht hN fuel
  exact ⟨v, by rw [h1, Option.map_some, h3], h4⟩

/-- **Of one point** it is the value there, exactly. -/
theorem C170_one (R : Rounding fl ε) (hm : minStepQ ≤ m) (h : AveragingR fl (.degree 1) m u A)
    (hl : defined l <+: A.src.points) {X M δ : ℚ} (hδ : 0 < δ) {k : ℕ} {q : ℚ × ℚ} (hk : l[k]? = some q)
    (ht : Tame fl (defined (l.take (k + 1))) X M δ) (hN : (2 * ((k : ℚ) + 1) + 1) * ε ≤ 1) (fuel : ℕ) :
    (smaYR fl (.degree 1) (fuel + 1) A (.fin q.1)).map Out.res = some (.ok (some q.2)) := by
  have hok := averagingR_ok hm (show Fits m (.degree 1) from le_rfl) h
  obtain ⟨o, v, h1, _, h3, _, h5⟩ := degreeR_knot R hm le_rfl hl hok hδ hk (by omega) ht hN fuel
  rw [h1, Option.map_some, h3, h5 rfl]

/-- **Whatever was asked before**: two averages over the same points, after different histories, differ by at most twice
that much.  Without rounding they are equal (`C49`). -/
theorem C170_history (R : Rounding fl ε) (hm : minStepQ ≤ m) {n : ℕ} (hn : 1 ≤ n) (h : AveragingR fl (.degree n) m u A)
    {B : Accum} (h' : AveragingR fl (.degree n) m u B) (hl : defined l <+: A.src.points) (hl' : defined l <+: B.src.points)
    {X M δ : ℚ} (hδ : 0 < δ) {k : ℕ} {q : ℚ × ℚ} (hk : l[k]? = some q) (hnk : n ≤ k + 1)
    (ht : Tame fl (defined (l.take (k + 1))) X M δ) (hN : (2 * ((k : ℚ) + 1) + 1) * ε ≤ 1) (fuel fuel' : ℕ) :
    ∃ v v', (smaYR fl (.degree n) (fuel + 1) A (.fin q.1)).map Out.res = some (.ok (some v))
      ∧ (smaYR fl (.degree n) (fuel' + 1) B (.fin q.1)).map Out.res = some (.ok (some v'))
      ∧ |v - v'| ≤ 2 * (5 * ε * M
        + 6 * ((k : ℚ) + 1) * (98 * ε * M * X ^ 2 / δ + 2 * ε * M * X) / width (windowAt l n k)) := by
  obtain ⟨v, h1, h2⟩ := C170_error R hm hn h hl hδ hk hnk ht hN fuel
  obtain ⟨v', h3, h4⟩ := C170_error R hm hn h' hl' hδ hk hnk ht hN fuel'
  refine ⟨v, v', h1, h3, ?_⟩
  have := abs_sub_le v (meanHeight (windowAt l n k)) v'
  rw [abs_sub_comm (meanHeight (windowAt l n k)) v'] at this
  linarith

/-- **Over a length of time** that `n` equally spaced points span. -/
theorem C170_period (R : Rounding fl ε) (hm : minStepQ ≤ m) {per a d : ℚ} {n : ℕ} (hn : 1 ≤ n) (hd : 0 < d)
    (hlo : (n - 1) * d + m ≤ per) (hhi : per < n * d + m) (h : AveragingR fl (.period per) m u A)
    (hl : A.src.points = defined l) (he : Spaced a d l) {X M δ : ℚ} (hδ : 0 < δ) {k : ℕ} {q : ℚ × ℚ} (hk : l[k]? = some q)
    (hnk : n ≤ k + 1) (ht : Tame fl (defined (l.take (k + 1))) X M δ) (hN : (2 * ((k : ℚ) + 1) + 1) * ε ≤ 1) (fuel : ℕ) :
    ∃ v, (smaYR fl (.period per) (fuel + 1) A (.fin q.1)).map Out.res = some (.ok (some v))
      ∧ |v - meanHeight (windowAt l n k)| ≤ 5 * ε * M
        + 6 * ((k : ℚ) + 1) * (98 * ε * M * X ^ 2 / δ + 2 * ε * M * X) / width (windowAt l n k) := by
  have hn1 : (1 : ℚ) ≤ n := by exact_mod_cast hn
  have hm0 : (0 : ℚ) < m := lt_of_lt_of_le (by norm_num [minStepQ]) hm
  have hfit : Fits m (.period per) := by
    show m ≤ per
    nlinarith
  have hok := averagingR_ok hm hfit h
  rw [hl] at hok
  obtain ⟨hP, skip, seen, todo, s0⟩ := id hok
  have hasc : Ascending (defined l) := by rw [← hP]; exact s0.src.wf.asc
  have hlk := (List.getElem?_eq_some_iff.1 hk).1
  have hj : l[k + 1 - n]? = some l[k + 1 - n] := List.getElem?_eq_getElem _
  have hget : ∀ {i : ℕ} {z : ℚ × ℚ}, l[i]? = some z → (defined l)[i]? = some (z.1, some z.2) := by
    intro i z hz; simp [defined, hz]
  set p := l[k + 1 - n] with hp
  have hpx := he _ _ hj
  have hqx := he _ _ hk
  have hcast : ((k + 1 - n : ℕ) : ℚ) = k + 1 - n := by
    rw [Nat.cast_sub hnk]; push_cast; ring
  rw [hcast] at hpx
  have hs : ∀ s, Honest s → s.points = defined l → smaStart s (.period per) m q.1 = .ok (some (.fin p.1)) := by
    intro s hs hsp
    simp only [smaStart]
    rw [honest_next hs, hsp, firstFrom_eq_some hasc (hget hj) (by show q.1 - per + m ≤ p.1; rw [hpx, hqx]; nlinarith)]
    · rfl
    · intro i z hi hz
      rw [spaced_get he hz, hqx]
      have : (i : ℚ) ≤ k - n := by
        have : i + n ≤ k := by omega
        have : ((i + n : ℕ) : ℚ) ≤ k := by exact_mod_cast this
        push_cast at this
        linarith
      nlinarith
  have hen : ∀ s, Honest s → s.points = defined l → smaEnd s (.period per) m p.1 = .ok (some (.fin q.1)) := by
    intro s hs hsp
    simp only [smaEnd]
    rw [honest_prev hs, hsp, lastUpTo_eq_some hasc (hget hk) (by show q.1 ≤ p.1 + per - m; rw [hpx, hqx]; nlinarith)]
    · rfl
    · intro i z hi hz
      rw [spaced_get he hz, hpx]
      have : (k : ℚ) + 1 ≤ i := by exact_mod_cast hi
      nlinarith
  have hdom : ∃ dm, smaDomain A.src (.period per) m = .ok dm ∧ dm.contains (.fin q.1) = true := by
    obtain ⟨x, z, h1, h2, h3⟩ := period_domain s0.src hn hd hlo hhi hl he (by omega)
    refine ⟨_, h3, ?_⟩
    have := hasc.le (hget h1) (hget hk) (by omega)
    have := hasc.le (hget hk) (hget h2) (by omega)
    simp_all [Iv.contains_closed]
  obtain ⟨o, v, h1, _, h3, h4, _⟩ := smaYR_knot R hm hfit List.prefix_rfl hok hδ (by omega) hj hk ht hN hdom hs hen fuel
  refine ⟨v, by rw [h1, Option.map_some, h3], ?_⟩
  rw [windowAt, width_window (by omega) hj hk]
  exact h4

/-! ## Witnesses -/

/-- What is answered after other queries. -/
def smaAfterR (fl : ℚ → ℚ) (w : Window) (A : Accum) : List ℚ → ℚ → Option (Except Err (Option ℚ))
  | [], x => (smaYR fl w 5 A (.fin x)).map Out.res
  | z :: zs, x => (smaYR fl w 5 A (.fin z)).bind fun o => smaAfterR fl w o.st zs x

/-- A large value, then ones. -/
def spikePts : List (Pt ℚ) := [(0, some (2 ^ 60)), (1, some 1), (2, some 1), (3, some 1), (4, some 1), (5, some 1)]

theorem spike_averaging (hw : w.valid = true) : AveragingR fl w 1 true (smaOver spikePts 1) := by
  have hp : (loose spikePts).points = spikePts := by decide +kernel
  have he : EquallySpaced spikePts := ⟨1, by norm_num [spikePts]⟩
  refine .new (s := loose spikePts) (loose_honest (by norm_num [Ascending, spikePts]) he (by decide +kernel))
    (by rw [hp]; exact allFit_of_spaced (by norm_num [Gapped, spikePts]) he) ?_
  rw [Sma.new, if_pos hw, smaOver]

/-- **Values that have left the window stay in the average**: after a `2⁶⁰`, the average of the values `1` and `1` is `0`. -/
theorem C170_negation : AveragingR fl64 (.degree 2) 1 true (smaOver spikePts 1)
    ∧ (∀ p ∈ spikePts, Machine fl64 p.1 ∧ ∀ y, p.2 = some y → Machine fl64 y)
    ∧ smaAfterR fl64 (.degree 2) (smaOver spikePts 1) [] 2 = some (.ok (some 0))
    ∧ smaAfterR id (.degree 2) (smaOver spikePts 1) [] 2 = some (.ok (some 1)) := by
  refine ⟨spike_averaging rfl, ?_, by decide +kernel, by decide +kernel⟩
  intro p hp
  simp only [spikePts, List.mem_cons, List.not_mem_nil, or_false] at hp
  rcases hp with rfl | rfl | rfl | rfl | rfl | rfl <;>
    exact ⟨by show fl64 _ = _; decide +kernel, fun y hy => by cases hy; show fl64 _ = _; decide +kernel⟩

/-- **The answer depends on what was asked before**: of the five ones, the average at the last is `1`, but `0` if before it
was asked for at `1`, where the large value is in the window. -/
theorem C170_negation_history : AveragingR fl64 (.degree 2) 1 true (smaOver spikePts 1)
    ∧ smaAfterR fl64 (.degree 2) (smaOver spikePts 1) [] 5 = some (.ok (some 1))
    ∧ smaAfterR fl64 (.degree 2) (smaOver spikePts 1) [1] 5 = some (.ok (some 0)) := by
  refine ⟨spike_averaging rfl, ?_, ?_⟩ <;> decide +kernel

/-! ## Examples -/

theorem stepR_averaging (hw : w.valid = true) : AveragingR fl w 1 true (smaOver stepPts 1) := by
  have hp : (loose stepPts).points = stepPts := by decide +kernel
  have he : EquallySpaced stepPts := ⟨1, by norm_num [stepPts]⟩
  refine .new (s := loose stepPts) (loose_honest (by norm_num [Ascending, stepPts]) he (by decide +kernel))
    (by rw [hp]; exact allFit_of_spaced (by norm_num [Gapped, stepPts]) he) ?_
  rw [Sma.new, if_pos hw, smaOver]

theorem step_tame : Tame fl64 (defined (stepList.take 4)) 3 9 1 := by
  refine ⟨?_, ?_, ?_, ?_⟩
  · intro q hq
    simp [defined, stepList] at hq
    rcases hq with rfl | rfl | rfl | rfl <;> norm_num [abs_le]
  · intro q hq y hy
    simp [defined, stepList] at hq
    rcases hq with rfl | rfl | rfl | rfl <;> (cases hy; norm_num [abs_le])
  · intro q hq y hy
    simp [defined, stepList] at hq
    rcases hq with rfl | rfl | rfl | rfl <;> (cases hy; show fl64 _ = _; decide +kernel)
  · simp [defined, stepList]
    norm_num

/-- The hypotheses hold; here nothing is lost. -/
example : (∃ v, (smaYR fl64 (.degree 3) 1 (smaOver stepPts 1) (.fin 3)).map Out.res = some (.ok (some v))
      ∧ |v - 15 / 4| ≤ 1 / 1000000000)
    ∧ smaAfterR fl64 (.degree 3) (smaOver stepPts 1) [] 3 = some (.ok (some (15 / 4))) := by
  refine ⟨?_, by decide +kernel⟩
  obtain ⟨v, h1, h2⟩ := C170_error fl64_rounding (by norm_num [minStepQ]) (n := 3) (by norm_num) (stepR_averaging rfl)
    step_points_prefix (by norm_num) (k := 3) (q := (3, 9)) rfl (by norm_num) step_tame (by norm_num) 0
  refine ⟨v, h1, ?_⟩
  have e1 : meanHeight (windowAt stepList 3 3) = 15 / 4 := by
    norm_num [windowAt, stepList, meanHeight, totalArea, areaBetween, width]
  have e2 : width (windowAt stepList 3 3) = 2 := by norm_num [windowAt, stepList, width]
  rw [e1, e2] at h2
  exact h2.trans (by norm_num)

example : (smaYR fl64 (.degree 1) 1 (smaOver stepPts 1) (.fin 3)).map Out.res = some (.ok (some 9)) :=
  C170_one fl64_rounding (by norm_num [minStepQ]) (stepR_averaging rfl) step_points_prefix (by norm_num) (k := 3) (q := (3, 9))
    rfl step_tame (by norm_num) 0

example : ∃ v, (smaYR fl64 (.period (5 / 2)) 1 (smaOver stepPts 1) (.fin 3)).map Out.res = some (.ok (some v))
      ∧ |v - 6| ≤ 1 / 1000000000 := by
  obtain ⟨v, h1, h2⟩ := C170_period fl64_rounding (by norm_num [minStepQ]) (n := 2) (a := 0) (d := 1) (by norm_num)
    (by norm_num) (by norm_num) (by norm_num) (stepR_averaging (w := .period (5 / 2)) (by norm_num [Window.valid])) step_points (by
      intro k q hk
      simp only [stepList] at hk
      match k with
      | 0 => cases hk; norm_num
      | 1 => cases hk; norm_num
      | 2 => cases hk; norm_num
      | 3 => cases hk; norm_num
      | k + 4 => simp at hk) (by norm_num) (k := 3) (q := (3, 9)) rfl (by norm_num) step_tame (by norm_num) 0
  refine ⟨v, h1, ?_⟩
  have e1 : meanHeight (windowAt stepList 2 3) = 6 := by
    norm_num [windowAt, stepList, meanHeight, totalArea, areaBetween, width]
  have e2 : width (windowAt stepList 2 3) = 1 := by norm_num [windowAt, stepList, width]
  rw [e1, e2] at h2
  exact h2.trans (by norm_num)

/-- With thirds the last digit is lost, and after a query and an edit as well. -/
example : smaAfterR fl64 (.degree 2) (smaOver [(0, some (fl64 (1 / 3))), (1, some (fl64 (1 / 3)))] 1) [] 1
      = some (.ok (some (fl64 (1 / 3))))
    ∧ smaAfterR fl64 (.degree 2) ((smaOver stepPts 1).edit (.append (4, some (fl64 (1 / 3)))) quiet).1 [2] 4
      ≠ smaAfterR id (.degree 2) ((smaOver stepPts 1).edit (.append (4, some (fl64 (1 / 3)))) quiet).1 [2] 4 := by
  refine ⟨?_, ?_⟩ <;> decide +kernel

end Props
end Curvepy
