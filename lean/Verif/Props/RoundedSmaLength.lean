import Verif.Props.SmaLengthBetween
import Verif.Props.RoundedSmaBetween

/-!
# Moving averages over a length of time with rounded arithmetic

`C170`, over points at any distances: how far `SMA(period=…)` is off at the points of its source when every operation on
values rounds.
-/

namespace Curvepy
namespace Props
open Spec Pts Accum Sma

variable {fl : ℚ → ℚ} {ε m per : ℚ} {u : Bool} {A : Accum} {l : List (ℚ × ℚ)}

/-- A mix of two numbers that are near the same one, with any share: what is lost grows with the share. -/
theorem mix_far (R : Rounding fl ε) {x p r a b c D K T : ℚ} (hpr : p < r) (hT : |(x - p) / (r - p)| ≤ T)
    (ha : |a - c| ≤ D) (hb : |b - c| ≤ D) (hK : |a| ≤ K) (hK' : |b| ≤ K) :
    |fl (fl (fl (fl (x - p) / fl (r - p)) * a) + fl (fl (1 - fl (fl (x - p) / fl (r - p))) * b)) - c|
      ≤ (1 + 2 * T) * D + 17 * ε * (1 + T) * K := by
  have hε := R.nonneg
  have hsm := R.small
  have hL : 0 < r - p := by linarith
  have hK0 : 0 ≤ K := (abs_nonneg _).trans hK
  have hD0 : 0 ≤ D := (abs_nonneg _).trans ha
  have h1 := R.ratio (x - p) hL
  generalize (x - p) / (r - p) = t at hT h1 ⊢
  generalize fl (fl (x - p) / fl (r - p)) = t' at h1 ⊢
  have hT0 : 0 ≤ T := (abs_nonneg _).trans hT
  obtain ⟨S, hS⟩ : ∃ S, S = 1 + T := ⟨_, rfl⟩
  have hS1 : 1 ≤ S := by linarith
  have hεS : 0 ≤ ε * S := mul_nonneg hε (by linarith)
  have hεS' : ε * S ≤ 1 / 64 * S := mul_le_mul_of_nonneg_right hsm (by linarith)
  have h2 : |t' - t| ≤ 5 * (ε * S) := by
    refine h1.trans ?_
    have : ε * |t| ≤ ε * S := by gcongr; linarith
    linarith
  have h3 := R.err (1 - t')
  generalize fl (1 - t') = s at h3 ⊢
  obtain ⟨c1, c2⟩ := abs_le.1 h2
  obtain ⟨g1, g2⟩ := abs_le.1 hT
  have h4 : |1 - t'| ≤ 2 * S := abs_le.2 ⟨by linarith, by linarith⟩
  have h5 : |s - (1 - t')| ≤ 2 * (ε * S) := by
    refine h3.trans ?_
    have : ε * |1 - t'| ≤ ε * (2 * S) := by gcongr
    linarith
  obtain ⟨c3, c4⟩ := abs_le.1 h5
  have h6 : |s - (1 - t)| ≤ 7 * (ε * S) := abs_le.2 ⟨by linarith, by linarith⟩
  have h7 : |1 - t| ≤ S := abs_le.2 ⟨by linarith, by linarith⟩
  have hta : |t' * a - t * c| ≤ 5 * (ε * S) * K + T * D := by
    have e : t' * a - t * c = (t' - t) * a + t * (a - c) := by ring
    rw [e]
    refine (abs_add_le _ _).trans ?_
    rw [abs_mul, abs_mul]
    gcongr
  have hsb : |s * b - (1 - t) * c| ≤ 7 * (ε * S) * K + S * D := by
    have e : s * b - (1 - t) * c = (s - (1 - t)) * b + (1 - t) * (b - c) := by ring
    rw [e]
    refine (abs_add_le _ _).trans ?_
    rw [abs_mul, abs_mul]
    gcongr
  have hab : |t' * a| + |s * b| ≤ (2 * S + 12 * (ε * S)) * K := by
    rw [abs_mul, abs_mul]
    have q1 : |t'| ≤ S + 5 * (ε * S) := abs_le.2 ⟨by linarith, by linarith⟩
    have q2 : |s| ≤ S + 7 * (ε * S) := by
      obtain ⟨d1, d2⟩ := abs_le.1 h6
      obtain ⟨d3, d4⟩ := abs_le.1 h7
      exact abs_le.2 ⟨by linarith, by linarith⟩
    have q3 : |t'| * |a| ≤ (S + 5 * (ε * S)) * K := by gcongr
    have q4 : |s| * |b| ≤ (S + 7 * (ε * S)) * K := by gcongr
    linarith
  have r1 := R.err (t' * a)
  have r2 := R.err (s * b)
  generalize fl (t' * a) = y at r1 ⊢
  generalize fl (s * b) = z at r2 ⊢
  have r3 := R.err (y + z)
  obtain ⟨Q, hQ⟩ : ∃ Q, Q = S * K := ⟨_, rfl⟩
  have hQ0 : 0 ≤ Q := by rw [hQ]; positivity
  have hab' : |t' * a| + |s * b| ≤ 35 / 16 * Q := by
    refine hab.trans ?_
    rw [hQ]
    have : (2 * S + 12 * (ε * S)) * K ≤ (35 / 16 * S) * K := by gcongr; linarith
    linarith
  have hεQ : ε * Q ≤ 1 / 64 * Q := mul_le_mul_of_nonneg_right hsm hQ0
  have k1 : ε * (|t' * a| + |s * b|) ≤ ε * (35 / 16 * Q) := by gcongr
  have hyz : |y + z| ≤ 37 / 16 * Q := by
    have a1 : |y| ≤ |t' * a| + |y - t' * a| := by
      have := abs_add_le (t' * a) (y - t' * a)
      rwa [add_sub_cancel] at this
    have a2 : |z| ≤ |s * b| + |z - s * b| := by
      have := abs_add_le (s * b) (z - s * b)
      rwa [add_sub_cancel] at this
    have := abs_add_le y z
    linarith
  have k3 : ε * |y + z| ≤ ε * (37 / 16 * Q) := by gcongr
  have tri : |fl (y + z) - c| ≤
      |fl (y + z) - (y + z)| + (|y - t' * a| + |z - s * b|) + (|t' * a - t * c| + |s * b - (1 - t) * c|) := by
    have e : fl (y + z) - c = (fl (y + z) - (y + z)) + ((y - t' * a) + (z - s * b)) +
        ((t' * a - t * c) + (s * b - (1 - t) * c)) := by ring
    rw [e]
    refine (abs_add_le _ _).trans (add_le_add ((abs_add_le _ _).trans (add_le_add le_rfl (abs_add_le _ _))) (abs_add_le _ _))
  have e1 : 5 * (ε * S) * K = 5 * (ε * Q) := by rw [hQ]; ring
  have e2 : 7 * (ε * S) * K = 7 * (ε * Q) := by rw [hQ]; ring
  have e3 : 17 * ε * (1 + T) * K = 17 * (ε * Q) := by rw [hQ, hS]; ring
  have e4 : (1 + 2 * T) * D = T * D + S * D := by rw [hS]; ring
  rw [e1] at hta
  rw [e2] at hsb
  rw [e3, e4]
  have hεQ0 : 0 ≤ ε * Q := mul_nonneg hε hQ0
  linarith

theorem OkR.asc {w : Window} {P : List (Pt ℚ)} (h : OkR fl w m u P A) : Ascending P := by
  obtain ⟨hP, _, _, _, s0⟩ := h
  rw [← hP]
  exact s0.src.wf.asc

/-- At a point that is the last but one of the window found. -/
theorem lengthR_next (R : Rounding fl ε) (hm : minStepQ ≤ m) (hw : m ≤ per) (h : OkR fl (.period per) m u (defined l) A)
    {X M δ : ℚ} (hδ : 0 < δ) {j k i : ℕ} (hjk : j < k) (hki : k < i) (hi1 : i = k + 1) {p q e : ℚ × ℚ}
    (hj : FirstAt l (q.1 - per + m) j p) (hk : l[k]? = some q) (hi : LastAt l (p.1 + per - m) i e)
    (ht : Tame fl (defined (l.take (i + 1))) X M δ) (hN : (2 * ((i : ℚ) + 1) + 1) * ε ≤ 1)
    (hd : ∃ d, smaDomain A.src (.period per) m = .ok d ∧ d.contains (.fin q.1) = true) (fuel : ℕ) :
    ∃ o v, smaYR fl (.period per) (fuel + 1) A (.fin q.1) = some o ∧ OkR fl (.period per) m u (defined l) o.st ∧
      o.res = .ok (some v) ∧ |v - meanHeight ((l.take (i + 1)).drop j)| ≤ 5 * ε * M
        + 6 * ((i : ℚ) + 1) * (98 * ε * M * X ^ 2 / δ + 2 * ε * M * X) / (e.1 - p.1) := by
  subst hi1
  have hm0 : (0 : ℚ) < m := lt_of_lt_of_le (by norm_num [minStepQ]) hm
  have hasc := OkR.asc h
  obtain ⟨hP, skip, seen, todo, s0⟩ := h
  obtain ⟨B, d, hB, hdB, hBp, sB⟩ := smaTouchR_spec s0
  obtain ⟨d', hd', hcon⟩ := hd
  rw [hdB] at hd'
  cases hd'
  have hBP : B.src.points = defined l := hBp.trans hP
  have okB : OkR fl (.period per) m u (defined l) B := ⟨hBP, _, _, _, sB⟩
  have hpq : p.1 < q.1 := hasc.lt (prefix_get List.prefix_rfl hj.get) (prefix_get List.prefix_rfl hk) hjk
  have hqe : q.1 < e.1 := hasc.lt (prefix_get List.prefix_rfl hk) (prefix_get List.prefix_rfl hi.get) hki
  obtain ⟨o1, o2, y0, y1, r1, r2, r3, r4, r5, r6⟩ := slopeR_error R hm (show Fits m (.period per) from hw) List.prefix_rfl okB
    hδ (show j < k + 1 by omega) hj.get hi.get ht hN
  obtain ⟨hP2, sk2, se2, to2, s2⟩ := id r5
  have hprev : o2.st.src.xPrevious (.fin e.1) (some m) = .ok (some (.fin q.1)) :=
    prev_knot s2.src hm0 s2.gapped (defined_get hP2 hk) (defined_get hP2 hi.get)
  have hst := start_first sB.src hBP hj
  have hen : smaEnd B.src (.period per) m p.1 = .ok (some (.fin e.1)) := end_last sB.src hBP hi
  have n1 : (p.1 = q.1) = False := by simp [hpq.ne]
  have n2 : (e.1 = p.1) = False := by simp [(hpq.trans hqe).ne']
  have n3 : (q.1 = e.1) = False := by simp [hqe.ne]
  have n4 : (e.1 < q.1) = False := by simp [hqe.le]
  unfold smaYR
  simp only [hB, hcon, Bool.not_true, Bool.false_eq_true, if_false, sB.step, hst, finPart, hen, n1, n2, n3, n4,
    Option.some.injEq, decide_false, Bool.or_false, r1, whenSome, r2, r3, r4, s2.step, hprev, answer, Option.map_some, if_true]
  exact ⟨_, _, rfl, r5, rfl, r6⟩

/-- The answer at a point, by numbers. -/
theorem lengthR_knot (R : Rounding fl ε) (hm : minStepQ ≤ m) (hw : m ≤ per) (h : OkR fl (.period per) m u (defined l) A)
    {X M δ D : ℚ} (hδ : 0 < δ) {j k i : ℕ} (hjk : j ≤ k) (hki : k ≤ i) {p q e : ℚ × ℚ}
    (hj : FirstAt l (q.1 - per + m) j p) (hk : l[k]? = some q) (hi : LastAt l (p.1 + per - m) i e)
    (ht : Tame fl (defined (l.take (i + 1))) X M δ) (hN : (2 * ((i : ℚ) + 1) + 1) * ε ≤ 1)
    (hD : D = 5 * ε * M + 6 * ((i : ℚ) + 1) * (98 * ε * M * X ^ 2 / δ + 2 * ε * M * X) / (e.1 - p.1))
    (hd : ∀ s, Honest s → s.points = defined l → ∃ z b, smaDomain s (.period per) m = .ok (Iv.closed z b) ∧ z ≤ q.1 ∧ e.1 ≤ b)
    (fuel : ℕ) : ∃ o v, smaYR fl (.period per) (fuel + 2) A (.fin q.1) = some o ∧ OkR fl (.period per) m u (defined l) o.st ∧
      o.res = .ok (some v) ∧ (j = k → v = q.2) ∧
      (j ≠ k → i ≤ k + 1 → |v - meanHeight ((l.take (i + 1)).drop j)| ≤ D) ∧
      (j ≠ k → |v - meanHeight ((l.take (i + 1)).drop j)| ≤ (1 + 2 * (per / δ)) * D + 17 * ε * (1 + per / δ) * (M + D)) := by
  have hm0 : (0 : ℚ) < m := lt_of_lt_of_le (by norm_num [minStepQ]) hm
  have hε := R.nonneg
  have hasc := OkR.asc h
  have hget : ∀ {i : ℕ} {z : ℚ × ℚ}, l[i]? = some z → (defined l)[i]? = some (z.1, some z.2) := by
    intro i z hz; simp [defined, hz]
  have hqe : q.1 ≤ e.1 := hasc.le (hget hk) (hget hi.get) hki
  have hpe : p.1 ≤ e.1 := hasc.le (hget hj.get) (hget hi.get) (by omega)
  have hem : (e.1, some e.2) ∈ defined (l.take (i + 1)) := by
    rw [take_succ_of_getElem? hi.get]
    simp [defined]
  have hM : 0 ≤ M := le_trans (abs_nonneg _) (ht.values _ hem e.2 rfl)
  have hX : 0 ≤ X := le_trans (abs_nonneg _) (ht.near _ hem)
  have hD0 : 0 ≤ D := by
    rw [hD]
    have : 0 ≤ e.1 - p.1 := by linarith
    positivity
  have hT : 0 ≤ per / δ := div_nonneg (by linarith) hδ.le
  have hmore : D ≤ (1 + 2 * (per / δ)) * D + 17 * ε * (1 + per / δ) * (M + D) := by
    have h1 : 0 ≤ (per / δ) * D := mul_nonneg hT hD0
    have h2 : 0 ≤ 17 * ε * (1 + per / δ) * (M + D) := by positivity
    linarith
  obtain ⟨hP, skip, seen, todo, s0⟩ := id h
  have dom : ∀ {B : Accum} {x : ℚ}, OkR fl (.period per) m u (defined l) B → q.1 ≤ x → x ≤ e.1 →
      ∃ d, smaDomain B.src (.period per) m = .ok d ∧ d.contains (.fin x) = true := by
    intro B x hB h1 h2
    obtain ⟨hBP, _, _, _, sB⟩ := id hB
    obtain ⟨z, b, h3, h4, h5⟩ := hd B.src sB.src hBP
    exact ⟨_, h3, by simp [Iv.contains_closed]; exact ⟨h4.trans h1, h2.trans h5⟩⟩
  rcases hjk.eq_or_lt with rfl | hjk
  · -- the window begins here
    have hpq : p = q := by
      have := hj.get
      rw [hk] at this
      exact (Option.some.inj this).symm
    subst hpq
    obtain ⟨B, d, hB, hdB, hBp, sB⟩ := smaTouchR_spec s0
    obtain ⟨d', hd', hcon⟩ := dom h le_rfl hqe
    rw [hdB] at hd'
    cases hd'
    have hBP : B.src.points = defined l := hBp.trans hP
    have hst := start_first sB.src hBP hj
    have hen : smaEnd B.src (.period per) m p.1 = .ok (some (.fin e.1)) := end_last sB.src hBP hi
    unfold smaYR
    simp only [hB, hcon, Bool.not_true, Bool.false_eq_true, if_false, sB.step, hst, finPart, hen, decide_true, Bool.true_or, if_true]
    refine ⟨_, p.2, rfl, ⟨hBP, _, _, _, sB⟩, ?_, fun _ => rfl, fun h0 => absurd rfl h0, fun h0 => absurd rfl h0⟩
    show B.src.y _ = _
    rw [Props.C01_stored_value sB.src (p := (p.1, some p.2)) (by rw [hBP]; exact List.mem_of_getElem? (hget hk))]
  · have hpq : p.1 < q.1 := hasc.lt (hget hj.get) (hget hk) hjk
    rcases hki.eq_or_lt with rfl | hki
    · -- it ends here
      have hqe' : e = q := by
        have := hi.get
        rw [hk] at this
        exact (Option.some.inj this).symm
      subst hqe'
      obtain ⟨o, v, h1, h2, h3, h4, _⟩ := smaYR_knot R hm (show Fits m (.period per) from hw) List.prefix_rfl h hδ hjk.le hj.get hk
        ht hN (dom h le_rfl le_rfl) (fun s hs hsp => start_first hs hsp hj) (fun s hs hsp => end_last hs hsp hi) (fuel + 1)
      rw [← hD] at h4
      exact ⟨o, v, h1, h2, h3, fun h0 => absurd h0 hjk.ne, fun _ _ => h4, fun _ => h4.trans hmore⟩
    · rcases (show i = k + 1 ∨ k + 1 < i by omega) with rfl | hfar
      · obtain ⟨o, v, h1, h2, h3, h4⟩ := lengthR_next R hm hw h hδ hjk hki rfl hj hk hi ht hN (dom h le_rfl hqe) (fuel + 1)
        rw [← hD] at h4
        exact ⟨o, v, h1, h2, h3, fun h0 => absurd h0 hjk.ne, fun _ _ => h4, fun _ => h4.trans hmore⟩
      · -- the point before the end has the same window
        have hil := (List.getElem?_eq_some_iff.1 hi.get).1
        have hr : l[i - 1]? = some l[i - 1] := List.getElem?_eq_getElem _
        set r := l[i - 1] with hrr
        have hqr : q.1 < r.1 := hasc.lt (hget hk) (hget hr) (by omega)
        have hre : r.1 < e.1 := hasc.lt (hget hr) (hget hi.get) (by omega)
        have hj' : FirstAt l (r.1 - per + m) j p := by
          refine ⟨hj.get, ?_, ?_⟩
          · have := hi.upto
            linarith
          · intro n z hn hz
            have := hj.least n z hn hz
            linarith
        obtain ⟨B, d, hB, hdB, hBp, sB⟩ := smaTouchR_spec s0
        obtain ⟨d', hd', hcon⟩ := dom h le_rfl hqe
        rw [hdB] at hd'
        cases hd'
        have hBP : B.src.points = defined l := hBp.trans hP
        have okB : OkR fl (.period per) m u (defined l) B := ⟨hBP, _, _, _, sB⟩
        obtain ⟨o1, o2, y0, y1, r1, r2, r3, r4, r5, r6⟩ := slopeR_error R hm (show Fits m (.period per) from hw) List.prefix_rfl okB
          hδ (show j < i by omega) hj.get hi.get ht hN
        rw [← hD] at r6
        obtain ⟨hP2, sk2, se2, to2, s2⟩ := id r5
        have hprev : o2.st.src.xPrevious (.fin e.1) (some m) = .ok (some (.fin r.1)) :=
          prev_knot s2.src hm0 s2.gapped (defined_get hP2 hr) (show o2.st.src.points[i - 1 + 1]? = some (e.1, some e.2) by
            rw [Nat.sub_add_cancel (by omega)]; exact defined_get hP2 hi.get)
        obtain ⟨o3, v3, t1, t2, t3, t4⟩ := lengthR_next R hm hw r5 hδ (show j < i - 1 by omega) (show i - 1 < i by omega) (by omega)
          hj' hr hi ht hN (dom r5 hqr.le hre.le) fuel
        rw [← hD] at t4
        have hst := start_first sB.src hBP hj
        have hen : smaEnd B.src (.period per) m p.1 = .ok (some (.fin e.1)) := end_last sB.src hBP hi
        have n1 : (p.1 = q.1) = False := by simp [hpq.ne]
        have n2 : (e.1 = p.1) = False := by simp [(hpq.trans (hqr.trans hre)).ne']
        have n3 : (q.1 = e.1) = False := by simp [(hqr.trans hre).ne]
        have n4 : (e.1 < q.1) = False := by simp [hqe]
        have n5 : (r.1 = q.1) = False := by simp [hqr.ne']
        have hgap : δ ≤ e.1 - r.1 := by
          have hg := List.isChain_iff_getElem.1 ht.gaps (i - 1) (by simp [defined]; omega)
          have g1 : (defined (l.take (i + 1)))[i - 1]? = some (r.1, some r.2) := by
            simp only [defined, List.getElem?_map, List.getElem?_take_of_lt (show i - 1 < i + 1 by omega), hr, Option.map_some]
          have g2 : (defined (l.take (i + 1)))[i - 1 + 1]? = some (e.1, some e.2) := by
            rw [Nat.sub_add_cancel (by omega)]
            simp only [defined, List.getElem?_map, List.getElem?_take_of_lt (show i < i + 1 by omega), hi.get, Option.map_some]
          rw [(List.getElem?_eq_some_iff.1 g1).2, (List.getElem?_eq_some_iff.1 g2).2] at hg
          linarith
        have hmean : |meanHeight ((l.take (i + 1)).drop j)| ≤ M := by
          have hasc' : l.Pairwise (fun p q => p.1 < q.1) := by
            have := hasc
            unfold Ascending defined at this
            rwa [List.pairwise_map] at this
          refine abs_le.2 (meanHeight_bounds ?_ ((hasc'.sublist (List.take_sublist _ _)).sublist (List.drop_sublist _ _)) ?_)
          · intro hc
            have := congrArg List.length hc
            simp at this
            omega
          · intro z hz
            have hz' : (z.1, some z.2) ∈ defined (l.take (i + 1)) := by
              simp only [defined, List.mem_map]
              exact ⟨z, List.mem_of_mem_drop hz, rfl⟩
            exact abs_le.1 (ht.values _ hz' z.2 rfl)
        have near : ∀ {y : ℚ}, |y - meanHeight ((l.take (i + 1)).drop j)| ≤ D → |y| ≤ M + D := by
          intro y hy
          have := abs_add_le (y - meanHeight ((l.take (i + 1)).drop j)) (meanHeight ((l.take (i + 1)).drop j))
          rw [sub_add_cancel] at this
          linarith
        have hshare : |(q.1 - r.1) / (e.1 - r.1)| ≤ per / δ := by
          rw [abs_div, abs_of_neg (show q.1 - r.1 < 0 by linarith), abs_of_pos (show 0 < e.1 - r.1 by linarith)]
          have := hi.upto
          exact div_le_div₀ (by linarith) (by linarith) hδ hgap
        have key := mix_far R hre hshare t4 r6 (near t4) (near r6)
        refine ⟨⟨o3.st, o1.calls ++ (o2.calls ++ (o3.calls ++ [])), _⟩, _, ?_, t2, rfl, fun h0 => absurd h0 hjk.ne,
          fun _ h0 => absurd h0 (by omega), fun _ => key⟩
        unfold smaYR
        simp only [hB, hcon, Bool.not_true, Bool.false_eq_true, if_false, sB.step, hst, finPart, hen, n1, n2, n3, n4, n5,
          Option.some.injEq, decide_false, Bool.or_false, r1, whenSome, r2, r3, r4, s2.step, hprev, t1, t3, answer,
          Option.map_some]

/-- What rounding can lose in all areas added up to the end of a window: `n` points, values up to `M`, positions up to `X`,
distances at least `δ`. -/
def areaLoss (ε X M δ : ℚ) (n : ℕ) (w : List (ℚ × ℚ)) : ℚ :=
  5 * ε * M + 6 * n * (98 * ε * M * X ^ 2 / δ + 2 * ε * M * X) / width w

theorem tame_take {X M δ : ℚ} {i n : ℕ} (h : Tame fl (defined (l.take n)) X M δ) (hi : i ≤ n) :
    Tame fl (defined (l.take i)) X M δ :=
  h.part ((List.take_prefix_take_left hi).isInfix.map _)

/-- **Near the mean**: at a point, the rounded average over the length `per` is near the exact one, whatever was asked
before: off by what can be lost in the areas of the first `n` points (the window is among them), times about twice the number
of least distances in the length.  If the point is the first of its window, nothing is lost. -/
theorem C170_length (R : Rounding fl ε) (hm : minStepQ ≤ m) (hw : m ≤ per) (h : AveragingR fl (.period per) m u A)
    (hl : A.src.points = defined l) {a : ℚ × ℚ} (h0 : l[0]? = some a) {k : ℕ} {q : ℚ × ℚ} (hk : l[k]? = some q)
    (hdom : ∀ r, l[k + 1]? = some r → a.1 + per - m < r.1) {X M δ D : ℚ} (hδ : 0 < δ) {n : ℕ} (hkn : k < n)
    (hn : ∀ z, l[n]? = some z → q.1 + per - m < z.1) (ht : Tame fl (defined (l.take n)) X M δ)
    (hN : (2 * (n : ℚ) + 1) * ε ≤ 1) (hD : D = areaLoss ε X M δ n (lengthWindow l per m q.1)) (fuel : ℕ) :
    ∃ v, (smaYR fl (.period per) (fuel + 2) A (.fin q.1)).map Out.res = some (.ok (some v))
      ∧ |v - lengthMean l per m q| ≤ (1 + 2 * (per / δ)) * D + 17 * ε * (1 + per / δ) * (M + D)
      ∧ ((lengthWindow l per m q.1).head? = some q → v = q.2)
      ∧ ((∀ p z, (lengthWindow l per m q.1).head? = some p → l[k + 2]? = some z → p.1 + per - m < z.1) →
        |v - lengthMean l per m q| ≤ D) := by
  have hm0 : (0 : ℚ) < m := lt_of_lt_of_le (by norm_num [minStepQ]) hm
  have hε := R.nonneg
  have hok := averagingR_ok hm (show Fits m (.period per) from hw) h
  rw [hl] at hok
  have hasc := OkR.asc hok
  have hget : ∀ {i : ℕ} {z : ℚ × ℚ}, l[i]? = some z → (defined l)[i]? = some (z.1, some z.2) := by
    intro i z hz; simp [defined, hz]
  obtain ⟨j, i, p, e, hjk, hki, hj, hi, hwin, hd⟩ := length_window hm0 hw hasc h0 hk hdom
  have hpq : p.1 ≤ q.1 := hasc.le (hget hj.get) (hget hk) hjk
  have hpe : p.1 ≤ e.1 := hasc.le (hget hj.get) (hget hi.get) (by omega)
  have hil := (List.getElem?_eq_some_iff.1 hi.get).1
  have hin : i + 1 ≤ n := by
    by_contra hc
    have hz : l[n]? = some l[n] := List.getElem?_eq_getElem _
    have h1 := hn _ hz
    have h2 : (l[n]).1 ≤ e.1 := hasc.le (hget hz) (hget hi.get) (by omega)
    have h3 := hi.upto
    linarith
  have hin' : (i : ℚ) + 1 ≤ n := by exact_mod_cast hin
  have hhead : ((l.take (i + 1)).drop j).head? = some p := by
    rw [List.head?_drop, List.getElem?_take_of_lt (by omega), hj.get]
  have hwid : width (lengthWindow l per m q.1) = e.1 - p.1 := by
    rw [hwin, width_window (by omega) hj.get hi.get]
  have ht' := tame_take ht hin
  have hqm : (q.1, some q.2) ∈ defined (l.take n) := by
    simp only [defined, List.mem_map]
    exact ⟨q, List.mem_of_getElem? (by rw [List.getElem?_take_of_lt hkn, hk]), rfl⟩
  have hM : 0 ≤ M := le_trans (abs_nonneg _) (ht.values _ hqm q.2 rfl)
  have hX : 0 ≤ X := le_trans (abs_nonneg _) (ht.near _ hqm)
  have hT : 0 ≤ per / δ := div_nonneg (by linarith) hδ.le
  have hw0 : 0 ≤ e.1 - p.1 := by linarith
  obtain ⟨D', hD'⟩ : ∃ D', D' = 5 * ε * M + 6 * ((i : ℚ) + 1) * (98 * ε * M * X ^ 2 / δ + 2 * ε * M * X) / (e.1 - p.1) := ⟨_, rfl⟩
  have hDD : D' ≤ D := by
    rw [hD, hD', areaLoss, hwid]
    gcongr
  have hD0 : 0 ≤ D' := by rw [hD']; positivity
  obtain ⟨o, v, h1, _, h2, h3, h4, h5⟩ := lengthR_knot R hm hw hok hδ hjk hki hj hk hi ht' (by nlinarith) hD' hd fuel
  have hmore : 0 ≤ (1 + 2 * (per / δ)) * D + 17 * ε * (1 + per / δ) * (M + D) := by
    have : 0 ≤ D := hD0.trans hDD
    positivity
  refine ⟨v, by rw [h1, Option.map_some, h2], ?_⟩
  unfold lengthMean
  rw [hwin, hhead]
  by_cases hc : j = k
  · subst hc
    have : p = q := by
      have := hj.get
      rw [hk] at this
      exact (Option.some.inj this).symm
    rw [if_pos (by rw [this]), h3 rfl, sub_self, abs_zero]
    exact ⟨hmore, fun _ => rfl, fun _ => hD0.trans hDD⟩
  · have hpq : p.1 < q.1 := hasc.lt (hget hj.get) (hget hk) (by omega)
    have hne : some p ≠ some q := by
      intro h3
      cases h3
      exact lt_irrefl _ hpq
    rw [if_neg hne]
    refine ⟨(h5 hc).trans ?_, fun h6 => absurd h6 hne, ?_⟩
    · gcongr
    · intro h6
      refine (h4 hc ?_).trans hDD
      by_contra hf
      have hz : l[k + 2]? = some l[k + 2] := List.getElem?_eq_getElem _
      have h7 := h6 p _ rfl hz
      have h8 : (l[k + 2]).1 ≤ e.1 := hasc.le (hget hz) (hget hi.get) (by omega)
      have h9 := hi.upto
      linarith

/-- **Whatever was asked before**: two averages over the same points, after different histories, differ by at most twice
that much. -/
theorem C170_length_history (R : Rounding fl ε) (hm : minStepQ ≤ m) (hw : m ≤ per) (h : AveragingR fl (.period per) m u A)
    {B : Accum} (h' : AveragingR fl (.period per) m u B) (hl : A.src.points = defined l) (hl' : B.src.points = defined l)
    {a : ℚ × ℚ} (h0 : l[0]? = some a) {k : ℕ} {q : ℚ × ℚ} (hk : l[k]? = some q)
    (hdom : ∀ r, l[k + 1]? = some r → a.1 + per - m < r.1) {X M δ D : ℚ} (hδ : 0 < δ) {n : ℕ} (hkn : k < n)
    (hn : ∀ z, l[n]? = some z → q.1 + per - m < z.1) (ht : Tame fl (defined (l.take n)) X M δ)
    (hN : (2 * (n : ℚ) + 1) * ε ≤ 1) (hD : D = areaLoss ε X M δ n (lengthWindow l per m q.1)) (fuel fuel' : ℕ) :
    ∃ v v', (smaYR fl (.period per) (fuel + 2) A (.fin q.1)).map Out.res = some (.ok (some v))
      ∧ (smaYR fl (.period per) (fuel' + 2) B (.fin q.1)).map Out.res = some (.ok (some v'))
      ∧ |v - v'| ≤ 2 * ((1 + 2 * (per / δ)) * D + 17 * ε * (1 + per / δ) * (M + D)) := by
  obtain ⟨v, h1, h2, -⟩ := C170_length R hm hw h hl h0 hk hdom hδ hkn hn ht hN hD fuel
  obtain ⟨v', h3, h4, -⟩ := C170_length R hm hw h' hl' h0 hk hdom hδ hkn hn ht hN hD fuel'
  refine ⟨v, v', h1, h3, ?_⟩
  have := abs_sub_le v (lengthMean l per m q) v'
  rw [abs_sub_comm (lengthMean l per m q) v'] at this
  linarith

/-! ## Witnesses -/

theorem unevenR_averaging {w : Window} (hw : w.valid = true) {pts : List (Pt ℚ)} (h1 : Ascending pts)
    (h2 : ((Pts.blank .linear false).set pts none Accum.quiet).err = none) (h3 : (loose pts).isUniform = false)
    (h4 : (loose pts).points = pts) (h5 : Gapped (1/100) pts) (h6 : ∀ l ∈ pts.tails, ∀ k ∈ l.inits, gapOk k = true) :
    AveragingR fl w (1/100) false (smaOver pts (1/100) false) := by
  refine .new (s := loose pts) ?_ (by rw [h4]; exact allFit_of_gaps h5 h6) (by rw [Sma.new, if_pos hw, smaOver])
  refine .new (pts := pts) (i := .linear) (u := false) h1 ?_ ?_
  · have h' : ((blank .linear false).set pts none ⟨false, false⟩).err = none := h2
    simp [Pts.new, h', loose, quiet]
  · intro hu
    simp [h3] at hu

/-- A constant `1/10`, as a float, and two points close to each other far ahead. -/
def crowdedPts : List (Pt ℚ) :=
  [(-6000, some (fl64 (1/10))), (0, some (fl64 (1/10))), (1, some (fl64 (1/10))), (5000, some (fl64 (1/10))),
    (5000 + 1/64, some (fl64 (1/10)))]

/-- **Points close to each other, ahead of the point, make the loss large**: the average of a constant `1/10` is off by more
than ten thousand units in the last place of a number below `1`; with exact arithmetic it is the constant. -/
theorem C170_length_negation : AveragingR fl64 (.period 5500) (1/100) false (smaOver crowdedPts (1/100) false)
    ∧ (∀ p ∈ crowdedPts, Machine fl64 p.1 ∧ p.2 = some (fl64 (1/10)))
    ∧ smaAfterR id (.period 5500) (smaOver crowdedPts (1/100) false) [] 1 = some (.ok (some (fl64 (1/10))))
    ∧ ∃ v, smaAfterR fl64 (.period 5500) (smaOver crowdedPts (1/100) false) [] 1 = some (.ok (some v))
      ∧ 10000 / 2 ^ 53 < fl64 (1/10) - v := by
  refine ⟨unevenR_averaging (by norm_num [Window.valid]) (by norm_num [Ascending, crowdedPts]) (by decide +kernel)
    (by decide +kernel) (by decide +kernel) (by norm_num [Gapped, crowdedPts]) (by decide +kernel), ?_, by decide +kernel,
    13743895347 / 137438953472, by decide +kernel, by decide +kernel⟩
  intro p hp
  simp only [crowdedPts, List.mem_cons, List.not_mem_nil, or_false] at hp
  rcases hp with rfl | rfl | rfl | rfl | rfl <;> exact ⟨by show fl64 _ = _; decide +kernel, rfl⟩

/-! ## Examples -/

theorem lateR_averaging {w : Window} (hw : w.valid = true) : AveragingR fl w (1/100) false (smaOver latePts (1/100) false) :=
  unevenR_averaging hw (by norm_num [Ascending, latePts]) (by decide +kernel) (by decide +kernel) (by decide +kernel)
    (by norm_num [Gapped, latePts]) (by decide +kernel)

theorem late_tame : Tame fl64 (defined (lateList.take 5)) 15 6 1 := by
  refine ⟨?_, ?_, ?_, ?_⟩
  · intro q hq
    simp [defined, lateList] at hq
    rcases hq with rfl | rfl | rfl | rfl | rfl <;> norm_num [abs_le]
  · intro q hq y hy
    simp [defined, lateList] at hq
    rcases hq with rfl | rfl | rfl | rfl | rfl <;> (cases hy; norm_num [abs_le])
  · intro q hq y hy
    simp [defined, lateList] at hq
    rcases hq with rfl | rfl | rfl | rfl | rfl <;> (cases hy; show fl64 _ = _; decide +kernel)
  · simp [defined, lateList]
    norm_num

/-- At `11` the window reaches to `25/2`: the average is near `6/5`, also after a query at `15`. -/
example : (∃ v, (smaYR fl64 (.period 3) 2 (smaOver latePts (1/100) false) (.fin 11)).map Out.res = some (.ok (some v))
      ∧ |v - 6 / 5| ≤ 1 / 10000000)
    ∧ smaAfterR fl64 (.period 3) (smaOver latePts (1/100) false) [15] 11 = some (.ok (some (fl64 (6 / 5)))) := by
  refine ⟨?_, by decide +kernel⟩
  obtain ⟨v, h1, h2, -⟩ := C170_length (per := 3) fl64_rounding (by norm_num [minStepQ]) (by norm_num) (lateR_averaging (by norm_num [Window.valid]))
    late_points rfl (k := 2) (q := (11, 0)) rfl (by intro r hr; cases hr; norm_num) (X := 15) (M := 6) (δ := 1) (by norm_num)
    (n := 5) (by norm_num) (by intro z hz; simp [lateList] at hz) late_tame (by norm_num) rfl 0
  refine ⟨v, h1, ?_⟩
  have e1 : lengthMean lateList 3 (1/100) (11, 0) = 6 / 5 := by decide +kernel
  have e2 : width (lengthWindow lateList 3 (1/100) 11) = 5 / 2 := by decide +kernel
  simp only [e1, areaLoss, e2] at h2
  exact h2.trans (by norm_num)

/-- At `10`, the first point of its window, nothing is lost. -/
example : (smaYR fl64 (.period 3) 2 (smaOver latePts (1/100) false) (.fin 10)).map Out.res = some (.ok (some 6)) := by
  obtain ⟨v, h1, -, h2, -⟩ := C170_length (per := 3) fl64_rounding (by norm_num [minStepQ]) (by norm_num) (lateR_averaging (by norm_num [Window.valid]))
    late_points rfl (k := 1) (q := (10, 6)) rfl (by intro r hr; cases hr; norm_num) (X := 15) (M := 6) (δ := 1) (by norm_num)
    (n := 5) (by norm_num) (by intro z hz; simp [lateList] at hz) late_tame (by norm_num) rfl 0
  rw [h1, h2 (by decide +kernel)]

/-- Two histories. -/
example : ∃ v v', (smaYR fl64 (.period 3) 2 (smaOver latePts (1/100) false) (.fin 15)).map Out.res = some (.ok (some v))
      ∧ (smaYR fl64 (.period 3) 3 (smaOver latePts (1/100) false) (.fin 15)).map Out.res = some (.ok (some v'))
      ∧ |v - v'| ≤ 1 / 1000000 := by
  obtain ⟨v, v', h1, h2, h3⟩ := C170_length_history (per := 3) fl64_rounding (by norm_num [minStepQ]) (by norm_num)
    (lateR_averaging (by norm_num [Window.valid])) (lateR_averaging (by norm_num [Window.valid])) late_points late_points
    rfl (k := 4) (q := (15, 3)) rfl (by intro r hr; simp [lateList] at hr) (X := 15) (M := 6) (δ := 1) (by norm_num)
    (n := 5) (by norm_num) (by intro z hz; simp [lateList] at hz) late_tame (by norm_num) rfl 0 1
  refine ⟨v, v', h1, h2, h3.trans ?_⟩
  have e2 : width (lengthWindow lateList 3 (1/100) 15) = 5 / 2 := by decide +kernel
  simp only [areaLoss, e2]
  norm_num

end Props
end Curvepy
