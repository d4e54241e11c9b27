import Verif.Props.RoundedSma

/-!
# Rounded simple moving averages between the knots

`C171`: what the SMA answers between two knots when every operation on values rounds.
-/

namespace Curvepy
namespace Props
open Spec Pts Accum Sma

variable {fl : ℚ → ℚ} {ε : ℚ} {m : ℚ} {u : Bool} {w : Window} {A : Accum} {l : List (ℚ × ℚ)}

/-- A rounded mix of two values that are off by up to `D` (`sma.py:98-99`, `107-108`). -/
theorem C171_mix (R : Rounding fl ε) {x p r a b a' b' D K : ℚ} (hpr : p < r) (hpx : p ≤ x) (hxr : x ≤ r)
    (ha : |a - a'| ≤ D) (hb : |b - b'| ≤ D) (hK : |a| ≤ K) (hK' : |b| ≤ K) :
    |fl (fl (fl (fl (x - p) / fl (r - p)) * a) + fl (fl (1 - fl (fl (x - p) / fl (r - p))) * b))
      - ((x - p) / (r - p) * a' + (1 - (x - p) / (r - p)) * b')| ≤ D + 16 * ε * K := by
  have hε := R.nonneg
  have hsm := R.small
  have hL : 0 < r - p := by linarith
  have hK0 : 0 ≤ K := (abs_nonneg _).trans hK
  have ht0 : 0 ≤ (x - p) / (r - p) := div_nonneg (by linarith) hL.le
  have ht1 : (x - p) / (r - p) ≤ 1 := (div_le_one hL).2 (by linarith)
  have h1 := R.ratio (x - p) hL
  generalize (x - p) / (r - p) = t at ht0 ht1 h1 ⊢
  generalize fl (fl (x - p) / fl (r - p)) = t' at h1 ⊢
  rw [abs_of_nonneg ht0] at h1
  have h2 : |t' - t| ≤ 5 * ε := h1.trans (by nlinarith)
  have h3 := R.err (1 - t')
  generalize fl (1 - t') = s at h3 ⊢
  obtain ⟨c1, c2⟩ := abs_le.1 h2
  have h4 : |1 - t'| ≤ 1 + 5 * ε := abs_le.2 ⟨by linarith, by linarith⟩
  have h5 : |s - (1 - t')| ≤ 2 * ε := h3.trans (by nlinarith)
  obtain ⟨c3, c4⟩ := abs_le.1 h5
  have h6 : |s - (1 - t)| ≤ 7 * ε := abs_le.2 ⟨by linarith, by linarith⟩
  have hta : |t' * a - t * a'| ≤ 5 * ε * K + t * D := by
    have e : t' * a - t * a' = (t' - t) * a + t * (a - a') := by ring
    rw [e]
    refine (abs_add_le _ _).trans ?_
    rw [abs_mul, abs_mul, abs_of_nonneg ht0]
    gcongr
  have hsb : |s * b - (1 - t) * b'| ≤ 7 * ε * K + (1 - t) * D := by
    have e : s * b - (1 - t) * b' = (s - (1 - t)) * b + (1 - t) * (b - b') := by ring
    rw [e]
    refine (abs_add_le _ _).trans ?_
    rw [abs_mul, abs_mul, abs_of_nonneg (show 0 ≤ 1 - t by linarith)]
    gcongr
  have hab : |t' * a| + |s * b| ≤ (1 + 12 * ε) * K := by
    rw [abs_mul, abs_mul]
    have q1 : |t'| ≤ t + 5 * ε := abs_le.2 ⟨by linarith, by linarith⟩
    have q2 : |s| ≤ (1 - t) + 7 * ε := by
      obtain ⟨d1, d2⟩ := abs_le.1 h6
      exact abs_le.2 ⟨by linarith, by linarith⟩
    have q3 : |t'| * |a| ≤ (t + 5 * ε) * K := by gcongr
    have q4 : |s| * |b| ≤ ((1 - t) + 7 * ε) * K := by gcongr
    linarith
  have r1 := R.err (t' * a)
  have r2 := R.err (s * b)
  generalize fl (t' * a) = y at r1 ⊢
  generalize fl (s * b) = z at r2 ⊢
  have r3 := R.err (y + z)
  have hεK : 0 ≤ ε * K := mul_nonneg hε hK0
  have k1 : ε * (|t' * a| + |s * b|) ≤ ε * ((1 + 12 * ε) * K) := by gcongr
  have k2 : ε * ((1 + 12 * ε) * K) ≤ 19 / 16 * (ε * K) := by nlinarith
  have hyz : |y + z| ≤ 5 / 4 * K := by
    have a1 : |y| ≤ |t' * a| + |y - t' * a| := by
      have := abs_add_le (t' * a) (y - t' * a)
      rwa [add_sub_cancel] at this
    have a2 : |z| ≤ |s * b| + |z - s * b| := by
      have := abs_add_le (s * b) (z - s * b)
      rwa [add_sub_cancel] at this
    have a3 : ε * K ≤ 1 / 64 * K := by gcongr
    have := abs_add_le y z
    nlinarith
  have k3 : ε * |y + z| ≤ ε * (5 / 4 * K) := by gcongr
  have tri : |fl (y + z) - (t * a' + (1 - t) * b')| ≤
      |fl (y + z) - (y + z)| + (|y - t' * a| + |z - s * b|) + (|t' * a - t * a'| + |s * b - (1 - t) * b'|) := by
    have e : fl (y + z) - (t * a' + (1 - t) * b') = (fl (y + z) - (y + z)) + ((y - t' * a) + (z - s * b)) +
        ((t' * a - t * a') + (s * b - (1 - t) * b')) := by ring
    rw [e]
    refine (abs_add_le _ _).trans (add_le_add ((abs_add_le _ _).trans (add_le_add le_rfl (abs_add_le _ _))) (abs_add_le _ _))
  nlinarith

/-- What the average over a window comes to, before it is asked whether the window ends where it should. -/
theorem slopeR_error (R : Rounding fl ε) (hm : minStepQ ≤ m) (hw : Fits m w) {P : List (Pt ℚ)} (hpre : defined l <+: P)
    (h : OkR fl w m u P A) {X M δ : ℚ} (hδ : 0 < δ) {j k : ℕ} (hlt : j < k) {p q : ℚ × ℚ} (hj : l[j]? = some p)
    (hk : l[k]? = some q) (ht : Tame fl (defined (l.take (k + 1))) X M δ) (hN : (2 * ((k : ℚ) + 1) + 1) * ε ≤ 1) :
    ∃ o1 o2 y0 y1, superYR fl w A p.1 = some o1 ∧ o1.res = .ok (some y0) ∧ superYR fl w o1.st q.1 = some o2
      ∧ o2.res = .ok (some y1) ∧ OkR fl w m u P o2.st
      ∧ |fl (fl (y1 - y0) / fl (q.1 - p.1)) - meanHeight ((l.take (k + 1)).drop j)| ≤ 5 * ε * M
        + 6 * ((k : ℚ) + 1) * (98 * ε * M * X ^ 2 / δ + 2 * ε * M * X) / (q.1 - p.1) := by
  have hu := R.nonneg
  have hsm := R.small
  have hlk := (List.getElem?_eq_some_iff.1 hk).1
  have hqm : (q.1, some q.2) ∈ defined (l.take (k + 1)) := by
    rw [take_succ_of_getElem? hk]
    simp [defined]
  have hM : 0 ≤ M := le_trans (abs_nonneg _) (ht.values _ hqm q.2 rfl)
  have hX : 0 ≤ X := le_trans (abs_nonneg _) (ht.near _ hqm)
  have hasc : Ascending P := by
    obtain ⟨hP, _, _, _, s0⟩ := id h
    rw [← hP]
    exact s0.src.wf.asc
  have hpq : p.1 < q.1 := hasc.lt (prefix_get hpre hj) (prefix_get hpre hk) hlt
  obtain ⟨o1, o2, s, hsj, r1, r2, r3, r4, r5⟩ := slopeR_spec hm hw hpre h hlt.le hj hk
  obtain ⟨v0, a1, a2, a3⟩ := stretch_error R hM hX hδ ht hN hsj hlt.le hlk
  obtain ⟨v1, b1, b2, b3⟩ := stretch_error R hM hX hδ ht hN (hsj.trans hlt.le) le_rfl hlk
  rw [a1, Option.map_some, show fl v0 = v0 from a2] at r2
  rw [b1, Option.map_some, show fl v1 = v1 from b2] at r4
  refine ⟨o1, o2, v0, v1, r1, r2, r3, r4, r5, ?_⟩
  have hL : 0 < q.1 - p.1 := by linarith
  have key := C151_mean R hL a3 b3
  have hcut := totalArea_cut .linear hsj hlt.le hj
  have e1 : totalArea .linear ((l.take (k + 1)).drop s) - totalArea .linear ((l.take (j + 1)).drop s)
      = totalArea .linear ((l.take (k + 1)).drop j) := by rw [hcut]; ring
  rw [e1, ← meanHeight_window hlt hj hk] at key
  refine key.trans ?_
  obtain ⟨E, hE⟩ : ∃ E, E = ((k : ℚ) + 1) * (98 * ε * M * X ^ 2 / δ + ε * (2 * M * X)) := ⟨_, rfl⟩
  have hE0 : 0 ≤ E := by rw [hE]; positivity
  have hE2 : 2 * ((k : ℚ) + 1) * (98 * ε * M * X ^ 2 / δ + ε * (2 * M * X)) = 2 * E := by rw [hE]; ring
  have hE6 : 6 * ((k : ℚ) + 1) * (98 * ε * M * X ^ 2 / δ + 2 * ε * M * X) = 6 * E := by rw [hE]; ring
  rw [hE2, hE6]
  have hwin : ∀ r ∈ (l.take (k + 1)).drop j, -M ≤ r.2 ∧ r.2 ≤ M := by
    intro r hr
    have hr' : (r.1, some r.2) ∈ defined (l.take (k + 1)) := by
      simp only [defined, List.mem_map]
      exact ⟨r, List.mem_of_mem_drop hr, rfl⟩
    exact abs_le.1 (ht.values _ hr' r.2 rfl)
  have hasc' : ((l.take (k + 1)).drop j).Pairwise (fun p q => p.1 < q.1) := by
    have h1 : Ascending (defined l) := hasc.sublist hpre.sublist
    unfold Ascending defined at h1
    rw [List.pairwise_map] at h1
    exact (h1.sublist (List.take_sublist _ _)).sublist (List.drop_sublist _ _)
  obtain ⟨c1, c2⟩ := area_bounds _ hasc' hwin
  rw [width_window hlt.le hj hk] at c1 c2
  have c3 : |totalArea .linear ((l.take (k + 1)).drop j)| ≤ M * (q.1 - p.1) := abs_le.2 ⟨by linarith, c2⟩
  have c4 : 5 * ε * |totalArea .linear ((l.take (k + 1)).drop j)| ≤ 5 * ε * (M * (q.1 - p.1)) := by gcongr
  have c5 : ε * E ≤ 1 / 64 * E := mul_le_mul_of_nonneg_right hsm hE0
  have e2 : 5 * ε * M + 6 * E / (q.1 - p.1) = (5 * ε * (M * (q.1 - p.1)) + 6 * E) / (q.1 - p.1) := by
    field_simp
  rw [e2]
  refine div_le_div_of_nonneg_right ?_ hL.le
  linarith

/-- The answer between two knots. -/
theorem degreeR_between (R : Rounding fl ε) (hm : minStepQ ≤ m) {n : ℕ} (hn : 2 ≤ n) (h : OkR fl (.degree n) m u (defined l) A)
    {X M δ D W : ℚ} (hδ : 0 < δ) {k : ℕ} {q r : ℚ × ℚ} (hk : l[k]? = some q) (hr : l[k + 1]? = some r) (hnk : n ≤ k + 1)
    (ht : Tame fl (defined (l.take (k + 2))) X M δ) (hN : (2 * ((k : ℚ) + 2) + 1) * ε ≤ 1) (hW : 0 < W)
    (hW1 : W ≤ width (windowAt l n k)) (hW2 : W ≤ width (windowAt l n (k + 1)))
    (hD : D = 5 * ε * M + 6 * ((k : ℚ) + 2) * (98 * ε * M * X ^ 2 / δ + 2 * ε * M * X) / W) {x : ℚ} (hqx : q.1 < x)
    (hxr : x < r.1) (fuel : ℕ) :
    ∃ o v, smaYR fl (.degree n) (fuel + 2) A (.fin x) = some o ∧ OkR fl (.degree n) m u (defined l) o.st ∧
      o.res = .ok (some v) ∧ |v - (
        let t := (x - q.1) / (r.1 - q.1)
        if q.1 + m ≤ x then t * meanHeight (windowAt l n k) + (1 - t) * meanHeight (windowAt l n (k + 1))
        else t * meanHeight (windowAt l n (k + 1)) + (1 - t) * meanHeight (windowAt l n k))| ≤ D + 16 * ε * (M + D) := by
  have hm0 : (0 : ℚ) < m := lt_of_lt_of_le (by norm_num [minStepQ]) hm
  have hε := R.nonneg
  have hlk := (List.getElem?_eq_some_iff.1 hk).1
  have hlr := (List.getElem?_eq_some_iff.1 hr).1
  obtain ⟨hP, skip, seen, todo, s0⟩ := id h
  have hg : Gapped m (defined l) := by rw [← hP]; exact s0.gapped
  obtain ⟨B, d, hB, hdB, hBp, sB⟩ := smaTouchR_spec s0
  obtain ⟨d', hd', hcon⟩ := degree_domain s0.src hm0 s0.gapped n x
  rw [hdB] at hd'
  cases hd'
  have hBP : B.src.points = defined l := hBp.trans hP
  have okB : OkR fl (.degree n) m u (defined l) B := ⟨hBP, _, _, _, sB⟩
  have hasc : Ascending (defined l) := by rw [← hP]; exact s0.src.wf.asc
  have hget : ∀ {i : ℕ} {z : ℚ × ℚ}, l[i]? = some z → (defined l)[i]? = some (z.1, some z.2) := by
    intro i z hz; simp [defined, hz]
  have hin : d.contains (.fin x) = true := by
    have hlen : A.src.points.length = l.length := by rw [hP]; simp [defined]
    have ha : l[n - 1]? = some l[n - 1] := List.getElem?_eq_getElem _
    have hb : l[l.length - 1]? = some l[l.length - 1] := List.getElem?_eq_getElem _
    refine hcon.2 ⟨_, _, defined_get hP ha, by rw [hlen]; exact defined_get hP hb, ?_, ?_⟩
    · have := hasc.le (hget ha) (hget hk) (by omega)
      exact this.trans hqx.le
    · have := hasc.le (hget hr) (hget hb) (by omega)
      exact hxr.le.trans this
  -- the two errors
  have hrm : (r.1, some r.2) ∈ defined (l.take (k + 2)) := by
    rw [take_succ_of_getElem? hr]
    simp [defined]
  have hM : 0 ≤ M := le_trans (abs_nonneg _) (ht.values _ hrm r.2 rfl)
  have hX : 0 ≤ X := le_trans (abs_nonneg _) (ht.near _ hrm)
  have htk : Tame fl (defined (l.take (k + 1))) X M δ := by
    refine ht.part ?_
    have : l.take (k + 1) <+: l.take (k + 2) := List.take_prefix_take_left (by omega)
    exact (this.map _).isInfix
  have hNk : (2 * ((k : ℚ) + 1) + 1) * ε ≤ 1 := le_trans (by gcongr; norm_num) hN
  have hNr : (2 * (((k + 1 : ℕ) : ℚ) + 1) + 1) * ε ≤ 1 := by push_cast; linarith
  have hG : 0 ≤ 98 * ε * M * X ^ 2 / δ + 2 * ε * M * X := by positivity
  generalize hGe : 98 * ε * M * X ^ 2 / δ + 2 * ε * M * X = G at hG hD
  have Dk : 5 * ε * M + 6 * ((k : ℚ) + 1) * G / width (windowAt l n k) ≤ D := by
    rw [hD]
    gcongr
    norm_num
  have Dr : 5 * ε * M + 6 * (((k + 1 : ℕ) : ℚ) + 1) * G / width (windowAt l n (k + 1)) ≤ D := by
    rw [hD, show (((k + 1 : ℕ) : ℚ) + 1) = (k : ℚ) + 2 by push_cast; ring]
    gcongr
  have hD0 : 0 ≤ D := by rw [hD]; positivity
  have big : ∀ (i : ℕ), n ≤ i + 1 → i < l.length → i ≤ k + 1 → |meanHeight (windowAt l n i)| ≤ M := by
    intro i hi hil hik
    have hwin : ∀ z ∈ windowAt l n i, -M ≤ z.2 ∧ z.2 ≤ M := by
      intro z hz
      have hz' : (z.1, some z.2) ∈ defined (l.take (k + 2)) := by
        simp only [defined, List.mem_map]
        exact ⟨z, (List.take_subset_take_left l (by omega)) (List.mem_of_mem_drop hz), rfl⟩
      exact abs_le.1 (ht.values _ hz' z.2 rfl)
    have hsub : (windowAt l n i).Sublist l := (List.drop_sublist _ _).trans (List.take_sublist _ _)
    have hasc' : (windowAt l n i).Pairwise (fun p q => p.1 < q.1) := by
      have h1 := hasc
      unfold Ascending defined at h1
      rw [List.pairwise_map] at h1
      exact h1.sublist hsub
    refine abs_le.2 (meanHeight_bounds ?_ hasc' hwin)
    intro hc
    have := congrArg List.length hc
    simp [windowAt] at this
    omega
  have near : ∀ {v : ℚ} {i : ℕ}, n ≤ i + 1 → i < l.length → i ≤ k + 1 → |v - meanHeight (windowAt l n i)| ≤ D → |v| ≤ M + D := by
    intro v i h1 h2 h3 h4
    have h5 := big i h1 h2 h3
    have := abs_add_le (v - meanHeight (windowAt l n i)) (meanHeight (windowAt l n i))
    rw [sub_add_cancel] at this
    linarith
  obtain ⟨n, rfl⟩ : ∃ i, n = i + 2 := ⟨n - 2, by omega⟩
  by_cases hfar : q.1 + m ≤ x
  · -- the window ends at the next knot
    have hj : l[k - n]? = some l[k - n] := List.getElem?_eq_getElem _
    set p := l[k - n] with hp
    have hst : smaStart B.src (.degree (n + 2)) m x = .ok (some (.fin p.1)) := by
      have h1 : B.src.xPrevious (.fin x) (some m) = .ok (some (.fin q.1)) := by
        rw [honest_prev sB.src, hBP, lastUpTo_eq_some hasc (hget hk) (by show q.1 ≤ x - m; linarith)]
        · rfl
        · intro i z hi hz
          have := hasc.le (hget hr) hz (by omega)
          simp only at this
          linarith
      have h2 := stepBack_knot sB.src hm0 sB.gapped n k _ _ (defined_get hBP hk) (defined_get hBP hj)
      simp only [smaStart, show n + 2 - 1 = n + 1 by omega, stepBack, h1, h2]
    have hen := degree_end (n := n + 2) hm0 List.prefix_rfl hg (by omega) hj hr B.src sB.src hBP
    obtain ⟨o1, o2, y0, y1, r1, r2, r3, r4, r5, r6⟩ := slopeR_error R hm (show Fits m (.degree (n + 2)) by simp [Fits])
      List.prefix_rfl okB hδ (show k - n < k + 1 by omega) hj hr ht hNr
    obtain ⟨hP2, sk2, se2, to2, s2⟩ := id r5
    have hpq : p.1 ≤ q.1 := hasc.le (hget hj) (hget hk) (by omega)
    have hprev : o2.st.src.xPrevious (.fin r.1) (some m) = .ok (some (.fin q.1)) :=
      prev_knot s2.src hm0 s2.gapped (defined_get hP2 hk) (defined_get hP2 hr)
    obtain ⟨o3, v3, t1, t2, t3, t4, _⟩ := degreeR_knot R hm (show 1 ≤ n + 2 by omega) List.prefix_rfl r5 hδ hk hnk htk hNk fuel
    have n1 : (p.1 = x) = False := by simp [(hpq.trans_lt hqx).ne]
    have n2 : (r.1 = p.1) = False := by simp [((hpq.trans_lt hqx).trans hxr).ne']
    have n3 : (x = r.1) = False := by simp [hxr.ne]
    have n4 : (r.1 < x) = False := by simp [hxr.le]
    have n5 : (q.1 = x) = False := by simp [hqx.ne]
    refine ⟨⟨o3.st, o1.calls ++ (o2.calls ++ (o3.calls ++ [])), _⟩,
      fl (fl (fl (fl (x - q.1) / fl (r.1 - q.1)) * v3) + fl (fl (1 - fl (fl (x - q.1) / fl (r.1 - q.1))) *
        fl (fl (y1 - y0) / fl (r.1 - p.1)))), ?_, t2, rfl, ?_⟩
    rotate_left
    · simp only [hfar, if_true]
      have e4 := t4
      rw [hGe] at e4
      have e6 : |fl (fl (y1 - y0) / fl (r.1 - p.1)) - meanHeight (windowAt l (n + 2) (k + 1))| ≤ D := by
        rw [hGe] at r6
        refine le_trans ?_ Dr
        rw [windowAt, width_window (by omega) (show l[k + 1 + 1 - (n + 2)]? = some p by
          rw [show k + 1 + 1 - (n + 2) = k - n by omega]; exact hj) hr, show k + 1 + 1 - (n + 2) = k - n by omega]
        exact r6
      exact C171_mix R (hqx.trans hxr) hqx.le hxr.le (e4.trans Dk) e6
        (near hnk hlk (by omega) (e4.trans Dk)) (near (by omega) hlr le_rfl e6)
    · conv_lhs => unfold smaYR
      simp only [hB, hin, Bool.not_true, Bool.false_eq_true, if_false, sB.step, hst, finPart, hen, n1, n2, n3, n4, n5,
        Option.some.injEq, decide_false, Bool.or_false, r1, whenSome, r2, r3, r4, s2.step, hprev, t1, t3, answer,
        Option.map_some]
  · -- the window ends at the knot before
    have hj : l[k - (n + 1)]? = some l[k - (n + 1)] := List.getElem?_eq_getElem _
    set p := l[k - (n + 1)] with hp
    have hj' : l[k - 1]? = some l[k - 1] := List.getElem?_eq_getElem _
    have hst : smaStart B.src (.degree (n + 2)) m x = .ok (some (.fin p.1)) := by
      have h1 : B.src.xPrevious (.fin x) (some m) = .ok (some (.fin (l[k - 1]).1)) := by
        have hgap := gapped_lt hm0 hg (hget hj') (hget hk) (by omega)
        simp only at hgap
        rw [honest_prev sB.src, hBP, lastUpTo_eq_some hasc (hget hj') (by show (l[k - 1]).1 ≤ x - m; linarith)]
        · rfl
        · intro i z hi hz
          have := hasc.le (hget hk) hz (by omega)
          simp only at this
          linarith
      have h2 := stepBack_knot sB.src hm0 sB.gapped n (k - 1) _ _ (defined_get hBP hj')
        (defined_get hBP (by rw [show k - 1 - n = k - (n + 1) by omega]; exact hj))
      simp only [smaStart, show n + 2 - 1 = n + 1 by omega, stepBack, h1, h2]
    have hen := degree_end (n := n + 2) hm0 List.prefix_rfl hg (by omega) hj hk B.src sB.src hBP
    obtain ⟨o1, o2, y0, y1, r1, r2, r3, r4, r5, r6⟩ := slopeR_error R hm (show Fits m (.degree (n + 2)) by simp [Fits])
      List.prefix_rfl okB hδ (show k - (n + 1) < k by omega) hj hk htk hNk
    obtain ⟨hP2, sk2, se2, to2, s2⟩ := id r5
    have hpq : p.1 < q.1 := hasc.lt (hget hj) (hget hk) (by omega)
    have hnext : o2.st.src.xNext (.fin q.1) (some m) = .ok (some (.fin r.1)) :=
      next_knot s2.src hm0 s2.gapped (defined_get hP2 hk) (defined_get hP2 hr)
    obtain ⟨o3, v3, t1, t2, t3, t4, _⟩ := degreeR_knot R hm (show 1 ≤ n + 2 by omega) List.prefix_rfl r5 hδ hr (by omega) ht hNr fuel
    have n1 : (p.1 = x) = False := by simp [(hpq.trans hqx).ne]
    have n2 : (q.1 = p.1) = False := by simp [hpq.ne']
    have n3 : (x = q.1) = False := by simp [hqx.ne']
    have n5 : (r.1 = x) = False := by simp [hxr.ne']
    refine ⟨⟨o3.st, o1.calls ++ (o2.calls ++ (o3.calls ++ [])), _⟩,
      fl (fl (fl (fl (x - q.1) / fl (r.1 - q.1)) * v3) + fl (fl (1 - fl (fl (x - q.1) / fl (r.1 - q.1))) *
        fl (fl (y1 - y0) / fl (q.1 - p.1)))), ?_, t2, rfl, ?_⟩
    rotate_left
    · simp only [hfar, if_false]
      have e4 := t4
      rw [hGe] at e4
      have e6 : |fl (fl (y1 - y0) / fl (q.1 - p.1)) - meanHeight (windowAt l (n + 2) k)| ≤ D := by
        rw [hGe] at r6
        refine le_trans ?_ Dk
        rw [windowAt, width_window (by omega) (show l[k + 1 - (n + 2)]? = some p by
          rw [show k + 1 - (n + 2) = k - (n + 1) by omega]; exact hj) hk, show k + 1 - (n + 2) = k - (n + 1) by omega]
        exact r6
      exact C171_mix R (hqx.trans hxr) hqx.le hxr.le (e4.trans Dr) e6
        (near (by omega) hlr le_rfl (e4.trans Dr)) (near hnk hlk (by omega) e6)
    · conv_lhs => unfold smaYR
      simp only [hB, hin, Bool.not_true, Bool.false_eq_true, if_false, sB.step, hst, finPart, hen, n1, n2, n3, hqx, n5,
        Option.some.injEq, decide_false, Bool.or_false, r1, whenSome, r2, r3, r4, s2.step, hnext, t1, t3, answer,
        Option.map_some, if_true]

/-- **Near the mix**: between two knots the rounded average is near the mix of the two mean heights that the exact one is
(`C82_between_partial`): off by what an average at a knot may be (`C170_error`) and what mixing two values loses. -/
theorem C171_between (R : Rounding fl ε) (hm : minStepQ ≤ m) {n : ℕ} (hn : 2 ≤ n) (h : AveragingR fl (.degree n) m u A)
    (hl : A.src.points = defined l) {X M δ D W : ℚ} (hδ : 0 < δ) {k : ℕ} {q r : ℚ × ℚ} (hk : l[k]? = some q)
    (hr : l[k + 1]? = some r) (hnk : n ≤ k + 1) (ht : Tame fl (defined (l.take (k + 2))) X M δ)
    (hN : (2 * ((k : ℚ) + 2) + 1) * ε ≤ 1) (hW : 0 < W) (hW1 : W ≤ width (windowAt l n k))
    (hW2 : W ≤ width (windowAt l n (k + 1)))
    (hD : D = 5 * ε * M + 6 * ((k : ℚ) + 2) * (98 * ε * M * X ^ 2 / δ + 2 * ε * M * X) / W) {x : ℚ} (hqx : q.1 < x)
    (hxr : x < r.1) (fuel : ℕ) :
    ∃ v, (smaYR fl (.degree n) (fuel + 2) A (.fin x)).map Out.res = some (.ok (some v)) ∧ |v - (
      let t := (x - q.1) / (r.1 - q.1)
      let a := meanHeight (windowAt l n k)
      let b := meanHeight (windowAt l n (k + 1))
      if x < q.1 + m then (1 - t) * a + t * b else (1 - t) * b + t * a)| ≤ D + 16 * ε * (M + D) := by
  have hok := averagingR_ok hm (show Fits m (.degree n) by simp only [Fits]; omega) h
  rw [hl] at hok
  obtain ⟨o, v, h1, _, h2, h3⟩ := degreeR_between R hm hn hok hδ hk hr hnk ht hN hW hW1 hW2 hD hqx hxr fuel
  refine ⟨v, by rw [h1, Option.map_some, h2], ?_⟩
  by_cases hc : x < q.1 + m
  · simp only [if_neg (not_le.2 hc)] at h3
    simp only [if_pos hc]
    rw [add_comm ((1 - (x - q.1) / (r.1 - q.1)) * _)]
    exact h3
  · simp only [if_pos (not_lt.1 hc)] at h3
    simp only [if_neg hc]
    rw [add_comm ((1 - (x - q.1) / (r.1 - q.1)) * _)]
    exact h3

/-- **Whatever was asked before**: after different histories the answers between two knots differ by at most twice that
much. -/
theorem C171_history (R : Rounding fl ε) (hm : minStepQ ≤ m) {n : ℕ} (hn : 2 ≤ n) (h : AveragingR fl (.degree n) m u A)
    {B : Accum} (h' : AveragingR fl (.degree n) m u B) (hl : A.src.points = defined l) (hl' : B.src.points = defined l)
    {X M δ D W : ℚ} (hδ : 0 < δ) {k : ℕ} {q r : ℚ × ℚ} (hk : l[k]? = some q)
    (hr : l[k + 1]? = some r) (hnk : n ≤ k + 1) (ht : Tame fl (defined (l.take (k + 2))) X M δ)
    (hN : (2 * ((k : ℚ) + 2) + 1) * ε ≤ 1) (hW : 0 < W) (hW1 : W ≤ width (windowAt l n k))
    (hW2 : W ≤ width (windowAt l n (k + 1)))
    (hD : D = 5 * ε * M + 6 * ((k : ℚ) + 2) * (98 * ε * M * X ^ 2 / δ + 2 * ε * M * X) / W) {x : ℚ} (hqx : q.1 < x)
    (hxr : x < r.1) (fuel fuel' : ℕ) :
    ∃ v v', (smaYR fl (.degree n) (fuel + 2) A (.fin x)).map Out.res = some (.ok (some v))
      ∧ (smaYR fl (.degree n) (fuel' + 2) B (.fin x)).map Out.res = some (.ok (some v'))
      ∧ |v - v'| ≤ 2 * (D + 16 * ε * (M + D)) := by
  obtain ⟨v, h1, h2⟩ := C171_between R hm hn h hl hδ hk hr hnk ht hN hW hW1 hW2 hD hqx hxr fuel
  obtain ⟨v', h3, h4⟩ := C171_between R hm hn h' hl' hδ hk hr hnk ht hN hW hW1 hW2 hD hqx hxr fuel'
  refine ⟨v, v', h1, h3, ?_⟩
  rw [abs_le] at h2 h4 ⊢
  constructor <;> linarith [h2.1, h2.2, h4.1, h4.2]

/-! ## Witnesses -/

/-- The same value, nine tenths, three times. -/
def evenTenths : List (Pt ℚ) := [(0, some (fl64 (9 / 10))), (1, some (fl64 (9 / 10))), (2, some (fl64 (9 / 10)))]

/-- **Not between the two averages**: of equal values both averages at the knots are that value, but between them the
rounded mix is larger.  Without rounding it is between the two (`C82_bounds`). -/
theorem C171_negation : AveragingR fl64 (.degree 2) 1 true (smaOver evenTenths 1)
    ∧ smaAfterR fl64 (.degree 2) (smaOver evenTenths 1) [] 1 = some (.ok (some (fl64 (9 / 10))))
    ∧ smaAfterR fl64 (.degree 2) (smaOver evenTenths 1) [] 2 = some (.ok (some (fl64 (9 / 10))))
    ∧ Machine fl64 (fl64 (13 / 10))
    ∧ ∃ v, smaAfterR fl64 (.degree 2) (smaOver evenTenths 1) [] (fl64 (13 / 10)) = some (.ok (some v)) ∧ fl64 (9 / 10) < v := by
  have hp : (loose evenTenths).points = evenTenths := by decide +kernel
  have he : EquallySpaced evenTenths := ⟨1, by norm_num [evenTenths]⟩
  refine ⟨.new (s := loose evenTenths) (loose_honest (by norm_num [Ascending, evenTenths]) he (by decide +kernel))
    (by rw [hp]; exact allFit_of_spaced (by norm_num [Gapped, evenTenths]) he) ?_, by decide +kernel, by decide +kernel,
    fl64_rounding.idem _, fl64 (9 / 10) + 1 / 2 ^ 53, by decide +kernel, by norm_num⟩
  rw [Sma.new, if_pos (show (Window.degree 2).valid = true from rfl), smaOver]

/-! ## Examples -/

/-- Between the averages `0` at `1` and `3 / 2` at `2`, a quarter of the way. -/
example : (∃ v, (smaYR fl64 (.degree 2) 2 (smaOver stepPts 1) (.fin (5 / 4))).map Out.res = some (.ok (some v))
      ∧ |v - 3 / 8| ≤ 1 / 1000000000)
    ∧ smaAfterR fl64 (.degree 2) (smaOver stepPts 1) [] (5 / 4) = some (.ok (some (3 / 8))) := by
  refine ⟨?_, by decide +kernel⟩
  have e1 : meanHeight (windowAt stepList 2 1) = 0 := by
    norm_num [windowAt, stepList, meanHeight, totalArea, areaBetween, width]
  have e2 : meanHeight (windowAt stepList 2 2) = 3 / 2 := by
    norm_num [windowAt, stepList, meanHeight, totalArea, areaBetween, width]
  obtain ⟨v, h1, h2⟩ := C171_between fl64_rounding (by norm_num [minStepQ]) (n := 2) le_rfl (stepR_averaging rfl)
    step_points (W := 1) (by norm_num) (k := 1) (q := (1, 0)) (r := (2, 3)) rfl rfl (by norm_num)
    (step_tame.part ((List.take_prefix 3 _).map _).isInfix) (by norm_num) (by norm_num) (by norm_num [windowAt, stepList, width])
    (by norm_num [windowAt, stepList, width]) rfl (x := 5 / 4) (by norm_num) (by norm_num) 0
  refine ⟨v, h1, ?_⟩
  simp only [e1, e2] at h2
  norm_num at h2 ⊢
  exact h2.trans (by norm_num)

example : |fl64 (fl64 (fl64 (fl64 (4 / 3 - 1) / fl64 (2 - 1)) * 5) + fl64 (fl64 (1 - fl64 (fl64 (4 / 3 - 1) / fl64 (2 - 1))) * 7))
    - ((4 / 3 - 1) / (2 - 1) * 5 + (1 - (4 / 3 - 1) / (2 - 1)) * 7)| ≤ 0 + 16 * (1 / 2 ^ 53) * 7 :=
  C171_mix fl64_rounding (by norm_num) (by norm_num) (by norm_num) (by norm_num) (by norm_num) (by norm_num) (by norm_num)

end Props
end Curvepy
