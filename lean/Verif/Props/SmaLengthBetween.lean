import Verif.Props.SmaLength

/-!
# Property C172: moving averages over a length of time, between points
-/

namespace Curvepy
namespace Props
open Spec Pts Accum Sma

variable {m : ℚ} {u : Bool} {A : Accum} {l : List (ℚ × ℚ)} {per : ℚ}

theorem length_later (hasc : Ascending (defined l)) {a : ℚ × ℚ} {k n : ℕ} (hkn : k ≤ n)
    (hdom : ∀ r, l[k + 1]? = some r → a.1 + per - m < r.1) : ∀ r, l[n + 1]? = some r → a.1 + per - m < r.1 := by
  intro r hr
  have hl := (List.getElem?_eq_some_iff.1 hr).1
  have h1 : l[k + 1]? = some l[k + 1] := List.getElem?_eq_getElem _
  have := hasc.le (prefix_get List.prefix_rfl h1) (prefix_get List.prefix_rfl hr) (by omega)
  exact lt_of_lt_of_le (hdom _ h1) this

/-- The answer at a point, and the state after it. -/
theorem length_at (hm : minStepQ ≤ m) (hw : m ≤ per) (hok : Ok (.period per) m u (defined l) A) {a : ℚ × ℚ} (h0 : l[0]? = some a)
    {k : ℕ} {q : ℚ × ℚ} (hk : l[k]? = some q) (hdom : ∀ r, l[k + 1]? = some r → a.1 + per - m < r.1) (fuel : ℕ) :
    ∃ o, smaY (.period per) (fuel + 2) A (.fin q.1) = some o ∧ Ok (.period per) m u (defined l) o.st ∧
      o.res = .ok (some (lengthMean l per m q)) := by
  have hm0 : (0 : ℚ) < m := lt_of_lt_of_le (by norm_num [minStepQ]) hm
  have hasc := Ok.asc hok
  have hget : ∀ {i : ℕ} {z : ℚ × ℚ}, l[i]? = some z → (defined l)[i]? = some (z.1, some z.2) := by
    intro i z hz; simp [defined, hz]
  obtain ⟨j, i, p, e, hjk, hki, hj, hi, hwin, hd⟩ := length_window hm0 hw hasc h0 hk hdom
  obtain ⟨o, h1, h1', h2⟩ := length_knot hm hw hok hjk hki hj hk hi hd fuel
  refine ⟨o, h1, h1', h2.trans ?_⟩
  have hhead : ((l.take (i + 1)).drop j).head? = some p := by
    rw [List.head?_drop, List.getElem?_take_of_lt (by omega), hj.get]
  unfold lengthMean
  rw [hwin, hhead]
  congr 2
  by_cases hc : j = k
  · subst hc
    have : p = q := by
      have := hj.get
      rw [hk] at this
      exact (Option.some.inj this).symm
    rw [if_pos rfl, if_pos (by rw [this])]
  · have hpq : p.1 < q.1 := hasc.lt (hget hj.get) (hget hk) (by omega)
    rw [if_neg hc, if_neg (by
      intro h3
      cases h3
      exact lt_irrefl _ hpq)]

/-- The domain holds everything from a point of it to the last point. -/
theorem length_holds (hm0 : 0 < m) (hw : m ≤ per) (h : Ok (.period per) m u (defined l) A) {a : ℚ × ℚ} (h0 : l[0]? = some a) {k : ℕ}
    {q r : ℚ × ℚ} (hk : l[k]? = some q) (hr : l[k + 1]? = some r) (hdom : a.1 + per - m < r.1) {x : ℚ} (hqx : q.1 < x)
    (hxr : x < r.1) : ∃ d, smaDomain A.src (.period per) m = .ok d ∧ d.contains (.fin x) = true := by
  have hasc := Ok.asc h
  have hget : ∀ {i : ℕ} {z : ℚ × ℚ}, l[i]? = some z → (defined l)[i]? = some (z.1, some z.2) := by
    intro i z hz; simp [defined, hz]
  obtain ⟨hP, _, _, _, s0⟩ := h
  obtain ⟨c, z, -, hc⟩ := lastAt_exists (c := a.1 + per - m) h0 (by linarith)
  obtain ⟨b, hb, hd⟩ := length_domain s0.src hP h0 hc
  have hrl := (List.getElem?_eq_some_iff.1 hr).1
  refine ⟨_, hd, ?_⟩
  have h1 : c ≤ k := by
    by_contra hck
    have h1 := hasc.le (hget hr) (hget hc.get) (by omega)
    have h3 := hc.upto
    simp only at h1
    linarith
  have h2 := hasc.le (hget hc.get) (hget hk) h1
  have h3 := hasc.le (hget hr) (hget hb) (by omega)
  simp only at h2 h3
  simp [Iv.contains_closed]
  constructor <;> linarith

/-- **Between two points**, if the window holds more than one point. -/
theorem length_between (hm : minStepQ ≤ m) (hw : m ≤ per) (h : Ok (.period per) m u (defined l) A) {a : ℚ × ℚ}
    (h0 : l[0]? = some a) {k j i : ℕ} {q r p e : ℚ × ℚ} (hk : l[k]? = some q) (hr : l[k + 1]? = some r)
    (hdom : a.1 + per - m < r.1) {x : ℚ} (hqx : q.1 < x) (hxr : x < r.1) (hj : FirstAt l (x - per + m) j p)
    (hi : LastAt l (p.1 + per - m) i e) (hji : j < i) (fuel : ℕ) :
    ∃ o, smaY (.period per) (fuel + 3) A (.fin x) = some o ∧ Ok (.period per) m u (defined l) o.st ∧ k ≤ i ∧
      ∀ c, l[i - 1]? = some c → o.res = .ok (some (
        if i = k then shareAt q.1 r.1 x * lengthMean l per m r + (1 - shareAt q.1 r.1 x) * meanHeight ((l.take (i + 1)).drop j)
        else shareAt c.1 e.1 x * lengthMean l per m c + (1 - shareAt c.1 e.1 x) * meanHeight ((l.take (i + 1)).drop j))) := by
  have hm0 : (0 : ℚ) < m := lt_of_lt_of_le (by norm_num [minStepQ]) hm
  have hasc := Ok.asc h
  have hget : ∀ {i : ℕ} {z : ℚ × ℚ}, l[i]? = some z → (defined l)[i]? = some (z.1, some z.2) := by
    intro i z hz; simp [defined, hz]
  have hki : k ≤ i := by
    by_contra hc
    have := hi.most k q (by omega) hk
    have := hj.from_
    linarith
  obtain ⟨hP, skip, seen, todo, s0⟩ := id h
  obtain ⟨B, d, hB, hdB, hBp, sB⟩ := smaTouch_spec s0
  obtain ⟨d', hd', hcon⟩ := length_holds hm0 hw h h0 hk hr hdom hqx hxr
  rw [hdB] at hd'
  cases hd'
  have hBP : B.src.points = defined l := hBp.trans hP
  have okB : Ok (.period per) m u (defined l) B := ⟨hBP, _, _, _, sB⟩
  obtain ⟨o1, o2, y0, y1, r1, r2, r3, r4, r5, r6⟩ := slope_spec hm (show Fits m (.period per) from hw) List.prefix_rfl okB
    hji.le hj.get hi.get
  obtain ⟨hP2, sk2, se2, to2, s2⟩ := id r5
  have hst := start_first sB.src hBP hj
  have hen : smaEnd B.src (.period per) m p.1 = .ok (some (.fin e.1)) := end_last sB.src hBP hi
  have hpe : p.1 < e.1 := hasc.lt (hget hj.get) (hget hi.get) hji
  have hmean := meanHeight_window hji hj.get hi.get
  rw [← r6] at hmean
  have hnot : ∀ (n : ℕ) z, l[n]? = some z → z.1 ≠ x := by
    intro n z hz hzx
    rcases Nat.lt_or_ge n (k + 1) with hn | hn
    · have := hasc.le (hget hz) (hget hk) (by omega)
      simp only at this
      linarith
    · have := hasc.le (hget hr) (hget hz) hn
      simp only at this
      linarith
  have n1 : (p.1 = x) = False := by simp [hnot _ _ hj.get]
  have n2 : (e.1 = p.1) = False := by simp [hpe.ne']
  have n3 : (x = e.1) = False := by simp [(hnot _ _ hi.get).symm]
  have hil := (List.getElem?_eq_some_iff.1 hi.get).1
  rcases hki.eq_or_lt with rfl | hki'
  · -- the window ends before
    have hqe : e = q := by
      have := hi.get
      rw [hk] at this
      exact (Option.some.inj this).symm
    subst hqe
    have hnext : o2.st.src.xNext (.fin e.1) (some m) = .ok (some (.fin r.1)) :=
      next_knot s2.src hm0 s2.gapped (defined_get hP2 hk) (defined_get hP2 hr)
    obtain ⟨o3, t1, t2, t3⟩ := length_at hm hw r5 h0 hr
      (length_later hasc (Nat.le_succ k) fun z hz => by rw [hr] at hz; cases hz; exact hdom) fuel
    have n5 : (r.1 = x) = False := by simp [hxr.ne']
    refine ⟨⟨o3.st, o1.calls ++ (o2.calls ++ (o3.calls ++ [])),
      .ok (some (shareAt e.1 r.1 x * lengthMean l per m r + (1 - shareAt e.1 r.1 x) * ((y1 - y0) / (e.1 - p.1))))⟩, ?_, t2, le_rfl, ?_⟩
    · unfold smaY
      simp only [hB, hcon, Bool.not_true, Bool.false_eq_true, if_false, sB.step, hst, finPart, hen, n1, n2, n3, hqx, n5,
        Option.some.injEq, decide_false, Bool.or_false, r1, whenSome, r2, r3, r4, s2.step, hnext, t1, t3, answer,
        Option.map_some, if_true, shareAt]
    · intro c _
      rw [if_pos rfl, hmean]
  · have hc : l[i - 1]? = some l[i - 1] := List.getElem?_eq_getElem _
    set c := l[i - 1] with hcc
    have hre : r.1 ≤ e.1 := hasc.le (hget hr) (hget hi.get) (by omega)
    have hprev : o2.st.src.xPrevious (.fin e.1) (some m) = .ok (some (.fin c.1)) :=
      prev_knot s2.src hm0 s2.gapped (defined_get hP2 hc) (show o2.st.src.points[i - 1 + 1]? = some (e.1, some e.2) by
        rw [Nat.sub_add_cancel (by omega)]; exact defined_get hP2 hi.get)
    obtain ⟨o3, t1, t2, t3⟩ := length_at hm hw r5 h0 hc
      (length_later hasc (show k ≤ i - 1 by omega) fun z hz => by rw [hr] at hz; cases hz; exact hdom) fuel
    have n4 : (e.1 < x) = False := by simp; linarith
    have n5 : (c.1 = x) = False := by simp [hnot _ _ hc]
    refine ⟨⟨o3.st, o1.calls ++ (o2.calls ++ (o3.calls ++ [])),
      .ok (some (shareAt c.1 e.1 x * lengthMean l per m c + (1 - shareAt c.1 e.1 x) * ((y1 - y0) / (e.1 - p.1))))⟩, ?_, t2, hki, ?_⟩
    · unfold smaY
      simp only [hB, hcon, Bool.not_true, Bool.false_eq_true, if_false, sB.step, hst, finPart, hen, n1, n2, n3, n4, n5,
        Option.some.injEq, decide_false, Bool.or_false, r1, whenSome, r2, r3, r4, s2.step, hprev, t1, t3, answer,
        Option.map_some, shareAt]
    · intro c' hc'
      rw [hc] at hc'
      cases hc'
      rw [if_neg (by omega), hmean]

/-- Between two points, if the window holds one point only. -/
theorem length_alone (hm : minStepQ ≤ m) (hw : m ≤ per) (h : Ok (.period per) m u (defined l) A) (hlin : A.src.interp = .linear)
    {a : ℚ × ℚ} (h0 : l[0]? = some a) {k j : ℕ} {q r p : ℚ × ℚ} (hk : l[k]? = some q) (hr : l[k + 1]? = some r)
    (hdom : a.1 + per - m < r.1) {x : ℚ} (hqx : q.1 < x) (hxr : x < r.1) (hj : FirstAt l (x - per + m) j p)
    (hi : LastAt l (p.1 + per - m) j p) (fuel : ℕ) :
    ∃ o, smaY (.period per) (fuel + 1) A (.fin x) = some o ∧
      o.res = .ok (some (shareAt q.1 r.1 x * r.2 + (1 - shareAt q.1 r.1 x) * q.2)) := by
  have hm0 : (0 : ℚ) < m := lt_of_lt_of_le (by norm_num [minStepQ]) hm
  obtain ⟨hP, skip, seen, todo, s0⟩ := id h
  obtain ⟨B, d, hB, hdB, hBp, sB⟩ := smaTouch_spec s0
  obtain ⟨d', hd', hcon⟩ := length_holds hm0 hw h h0 hk hr hdom hqx hxr
  rw [hdB] at hd'
  cases hd'
  have hBP : B.src.points = defined l := hBp.trans hP
  have hst := start_first sB.src hBP hj
  have hen : smaEnd B.src (.period per) m p.1 = .ok (some (.fin p.1)) := end_last sB.src hBP hi
  have hBi : B.src.interp = .linear := by
    unfold smaTouch at hB
    split at hB
    · cases hB; exact hlin
    · dsimp only at hB
      split at hB
      · simp at hB
      · cases hB; exact hlin
  have hy := (C02_linear sB.src hBi (defined_get hBP hk) (defined_get hBP hr) hqx hxr).1 _ _ rfl rfl
  unfold smaY
  simp only [hB, hcon, Bool.not_true, Bool.false_eq_true, if_false, sB.step, hst, finPart, hen, decide_true, Bool.or_true, if_true,
    answer, hy]
  refine ⟨_, rfl, ?_⟩
  have hd : r.1 - q.1 ≠ 0 := by linarith
  simp only [shareAt]
  congr 2
  field_simp
  ring

theorem range_last {j i : ℕ} {e : ℚ × ℚ} (hji : j ≤ i) (hi : l[i]? = some e) : ((l.take (i + 1)).drop j).getLast? = some e := by
  have hil := (List.getElem?_eq_some_iff.1 hi).1
  rw [List.getLast?_eq_getElem?, List.getElem?_drop, List.length_drop, List.length_take, min_eq_left (by omega),
    List.getElem?_take_of_lt (by omega), show j + (i + 1 - j - 1) = i by omega, hi]

theorem range_dropLast {j i : ℕ} {e : ℚ × ℚ} (hji : j ≤ i) (hi : l[i]? = some e) :
    ((l.take (i + 1)).drop j).dropLast = (l.take i).drop j := by
  have hil := (List.getElem?_eq_some_iff.1 hi).1
  rw [List.dropLast_eq_take, List.length_drop, List.length_take, min_eq_left (by omega), List.take_drop, List.take_take]
  congr 2
  omega

/-- **Between two points** of the domain an average over the length `per` is a mix of the mean height of the window found there
and the average at a neighbour of its end; or the line through the two points, if the window holds one point only. -/
theorem C172_between (hm : minStepQ ≤ m) (hw : m ≤ per) (h : Averaging (.period per) m u A) (hl : A.src.points = defined l)
    (hlin : A.src.interp = .linear) {a : ℚ × ℚ} (h0 : l[0]? = some a) {k : ℕ} {q r : ℚ × ℚ} (hk : l[k]? = some q)
    (hr : l[k + 1]? = some r) (hdom : a.1 + per - m < r.1) {x : ℚ} (hqx : q.1 < x) (hxr : x < r.1) (fuel : ℕ) :
    (smaY (.period per) (fuel + 3) A (.fin x)).map Out.res = some (.ok (some (lengthBetween l per m q r x))) := by
  have hm0 : (0 : ℚ) < m := lt_of_lt_of_le (by norm_num [minStepQ]) hm
  have hok := averaging_ok hm (show Fits m (.period per) from hw) h
  rw [hl] at hok
  have hasc := Ok.asc hok
  have hget : ∀ {i : ℕ} {z : ℚ × ℚ}, l[i]? = some z → (defined l)[i]? = some (z.1, some z.2) := by
    intro i z hz; simp [defined, hz]
  have hasc' : l.Pairwise (fun p q => p.1 < q.1) := by
    have := hasc
    unfold Ascending defined at this
    rwa [List.pairwise_map] at this
  obtain ⟨j, p, hjk, hj⟩ := firstAt_exists (c := x - per + m) hr (by linarith)
  obtain ⟨i, e, hji, hi⟩ := lastAt_exists (c := p.1 + per - m) hj.get (by linarith)
  have hwin := lengthWindow_eq hasc' hj hi
  unfold lengthBetween
  simp only [hwin, range_last hji hi.get, range_dropLast hji hi.get]
  rcases hji.eq_or_lt with rfl | hji
  · have hpe : e = p := by
      have := hi.get
      rw [hj.get] at this
      exact (Option.some.inj this).symm
    subst hpe
    obtain ⟨o, h1, h2⟩ := length_alone hm hw hok hlin h0 hk hr hdom hqx hxr hj hi (fuel + 2)
    have hnil : (l.take j).drop j = [] := List.drop_eq_nil_of_le (by simp)
    rw [h1, Option.map_some, h2, hnil]
    rfl
  · have hil := (List.getElem?_eq_some_iff.1 hi.get).1
    have hc : l[i - 1]? = some l[i - 1] := List.getElem?_eq_getElem _
    obtain ⟨o, h1, _, h2, h3⟩ := length_between hm hw hok h0 hk hr hdom hqx hxr hj hi hji fuel
    have hlast : ((l.take i).drop j).getLast? = some l[i - 1] := by
      have := range_last (l := l) (j := j) (i := i - 1) (by omega) hc
      rwa [show i - 1 + 1 = i by omega] at this
    rw [h1, Option.map_some, h3 _ hc, hlast]
    congr 3
    by_cases hik : i = k
    · subst hik
      have hqe : q = e := by
        have := hi.get
        rw [hk] at this
        exact Option.some.inj this
      rw [if_pos rfl]
      simp only [← hqe, hqx, if_true]
    · have : r.1 ≤ e.1 := hasc.le (hget hr) (hget hi.get) (by omega)
      rw [if_neg hik]
      simp only [show ¬ e.1 < x by linarith, if_false]

theorem range_bounds (hasc : l.Pairwise fun p q => p.1 < q.1) {j i : ℕ} {e : ℚ × ℚ} (hji : j ≤ i) (hi : l[i]? = some e) {lo hi' : ℚ}
    (hb : ∀ z ∈ l, lo ≤ z.2 ∧ z.2 ≤ hi') :
    lo ≤ meanHeight ((l.take (i + 1)).drop j) ∧ meanHeight ((l.take (i + 1)).drop j) ≤ hi' := by
  have hil := (List.getElem?_eq_some_iff.1 hi).1
  refine meanHeight_bounds ?_ ((hasc.sublist (List.take_sublist _ _)).sublist (List.drop_sublist _ _))
    fun z hz => hb z (List.mem_of_mem_take (List.mem_of_mem_drop hz))
  intro hc
  have := congrArg List.length hc
  simp at this
  omega

theorem lengthMean_bounds (hasc : l.Pairwise fun p q => p.1 < q.1) (hw : m ≤ per) {k : ℕ} {q : ℚ × ℚ} (hk : l[k]? = some q)
    {lo hi : ℚ} (hb : ∀ z ∈ l, lo ≤ z.2 ∧ z.2 ≤ hi) : lo ≤ lengthMean l per m q ∧ lengthMean l per m q ≤ hi := by
  obtain ⟨j, p, hjk, hj⟩ := firstAt_exists (c := q.1 - per + m) hk (by linarith)
  obtain ⟨i, e, hji, hi⟩ := lastAt_exists (c := p.1 + per - m) hj.get (by linarith)
  unfold lengthMean
  split_ifs with hh
  · exact hb q (List.mem_of_getElem? hk)
  · rw [lengthWindow_eq hasc hj hi]
    exact range_bounds hasc hji hi.get hb

/-- A point after the position in a window of three points or more that is not its last has the same window. -/
theorem lengthMean_same (hasc : l.Pairwise fun p q => p.1 < q.1) {x : ℚ} {j i n : ℕ} {p e c : ℚ × ℚ} (hj : FirstAt l (x - per + m) j p)
    (hi : LastAt l (p.1 + per - m) i e) (hjn : j < n) (hni : n < i) (hc : l[n]? = some c) (hx : x < c.1) :
    lengthMean l per m c = meanHeight ((l.take (i + 1)).drop j) := by
  obtain ⟨b1, b2⟩ := List.getElem?_eq_some_iff.1 hj.get
  obtain ⟨b3, b4⟩ := List.getElem?_eq_some_iff.1 hc
  obtain ⟨b5, b6⟩ := List.getElem?_eq_some_iff.1 hi.get
  have hpc := List.pairwise_iff_getElem.1 hasc j n b1 b3 hjn
  have hce := List.pairwise_iff_getElem.1 hasc n i b3 b5 hni
  rw [b2, b4] at hpc
  rw [b4, b6] at hce
  have hj' : FirstAt l (c.1 - per + m) j p := by
    refine ⟨hj.get, ?_, ?_⟩
    · have := hi.upto
      linarith
    · intro n z hn hz
      have := hj.least n z hn hz
      linarith
  unfold lengthMean
  rw [lengthWindow_eq hasc hj' hi, List.head?_drop, List.getElem?_take_of_lt (by omega), hj.get, if_neg]
  intro h
  cases h
  exact lt_irrefl _ hpc

/-- **Within the values**: between two points the average stays within the values of all points, unless its window consists of two
points that both come later. -/
theorem C172_between_bounds_partial (hm : minStepQ ≤ m) (hw : m ≤ per) (h : Averaging (.period per) m u A)
    (hl : A.src.points = defined l) (hlin : A.src.interp = .linear) {a : ℚ × ℚ} (h0 : l[0]? = some a) {k : ℕ} {q r : ℚ × ℚ}
    (hk : l[k]? = some q) (hr : l[k + 1]? = some r) (hdom : a.1 + per - m < r.1) {x : ℚ} (hqx : q.1 < x) (hxr : x < r.1) {lo hi : ℚ}
    (hb : ∀ z ∈ l, lo ≤ z.2 ∧ z.2 ≤ hi) (hno : ∀ e, lengthWindow l per m x ≠ [r, e]) (fuel : ℕ) :
    ∃ v, (smaY (.period per) (fuel + 3) A (.fin x)).map Out.res = some (.ok (some v)) ∧ lo ≤ v ∧ v ≤ hi := by
  refine ⟨_, C172_between hm hw h hl hlin h0 hk hr hdom hqx hxr fuel, ?_⟩
  have hok := averaging_ok hm (show Fits m (.period per) from hw) h
  rw [hl] at hok
  have hasc := Ok.asc hok
  have hget : ∀ {i : ℕ} {z : ℚ × ℚ}, l[i]? = some z → (defined l)[i]? = some (z.1, some z.2) := by
    intro i z hz; simp [defined, hz]
  have hasc' : l.Pairwise (fun p q => p.1 < q.1) := by
    have := hasc
    unfold Ascending defined at this
    rwa [List.pairwise_map] at this
  have mix : ∀ {t y z : ℚ}, 0 ≤ t → t ≤ 1 → lo ≤ y ∧ y ≤ hi → lo ≤ z ∧ z ≤ hi → lo ≤ t * y + (1 - t) * z ∧ t * y + (1 - t) * z ≤ hi := by
    intro t y z h1 h2 h3 h4
    constructor
    · nlinarith [mul_le_mul_of_nonneg_left h3.1 h1, mul_le_mul_of_nonneg_left h4.1 (sub_nonneg.2 h2)]
    · nlinarith [mul_le_mul_of_nonneg_left h3.2 h1, mul_le_mul_of_nonneg_left h4.2 (sub_nonneg.2 h2)]
  have part : ∀ {b c : ℚ}, b ≤ x → x ≤ c → b < c → 0 ≤ shareAt b c x ∧ shareAt b c x ≤ 1 := by
    intro b c h1 h2 h3
    unfold shareAt
    exact ⟨div_nonneg (by linarith) (by linarith), (div_le_one (by linarith)).2 (by linarith)⟩
  have hqr := part hqx.le hxr.le (hqx.trans hxr)
  obtain ⟨j, p, hjk, hj⟩ := firstAt_exists (c := x - per + m) hr (by linarith)
  obtain ⟨i, e, hji, hi'⟩ := lastAt_exists (c := p.1 + per - m) hj.get (by linarith)
  have hwin := lengthWindow_eq hasc' hj hi'
  unfold lengthBetween
  simp only [hwin, range_last hji hi'.get, range_dropLast hji hi'.get]
  have hmean := range_bounds hasc' hji hi'.get hb
  rcases hji.eq_or_lt with rfl | hji
  · have hnil : (l.take j).drop j = [] := List.drop_eq_nil_of_le (by simp)
    rw [hnil]
    exact mix hqr.1 hqr.2 (hb r (List.mem_of_getElem? hr)) (hb q (List.mem_of_getElem? hk))
  · have hil := (List.getElem?_eq_some_iff.1 hi'.get).1
    have hc : l[i - 1]? = some l[i - 1] := List.getElem?_eq_getElem _
    have hlast : ((l.take i).drop j).getLast? = some l[i - 1] := by
      have := range_last (l := l) (j := j) (i := i - 1) (by omega) hc
      rwa [show i - 1 + 1 = i by omega] at this
    rw [hlast]
    set c := l[i - 1] with hcc
    dsimp only
    have hce : c.1 < e.1 := hasc.lt (hget hc) (hget hi'.get) (by omega)
    split_ifs with hex
    · exact mix hqr.1 hqr.2 (lengthMean_bounds hasc' hw hr hb) hmean
    · by_cases hcx : c.1 ≤ x
      · have := part hcx (not_lt.1 hex) hce
        exact mix this.1 this.2 (lengthMean_bounds hasc' hw hc hb) hmean
      · rcases (show j < i - 1 ∨ j = i - 1 by omega) with hj1 | hj1
        · rw [lengthMean_same hasc' hj hi' hj1 (by omega) hc (not_le.1 hcx)]
          constructor <;> linarith
        · -- two points after the position
          exfalso
          have hjr : j = k + 1 := by
            by_contra hne
            have : c.1 ≤ q.1 := hasc.le (hget hc) (hget hk) (by omega)
            linarith
          have hi2 : i = k + 2 := by omega
          subst hi2 hjr
          have hp : p = r := by
            have := hj.get
            rw [hr] at this
            exact (Option.some.inj this).symm
          refine hno e (hwin.trans ?_)
          refine List.ext_getElem? fun n => ?_
          rw [List.getElem?_drop]
          match n with
          | 0 => rw [List.getElem?_take_of_lt (by omega)]; simpa using hr
          | 1 => rw [List.getElem?_take_of_lt (by omega)]; simpa [Nat.add_assoc] using hi'.get
          | n + 2 => rw [List.getElem?_take_eq_none (by omega)]; simp

/-- **Beyond all values**: far before two points that are close to each other the average over the length `3` of the values `0`, `6`
and `0` is `-12`. -/
theorem C172_between_negation :
    let A := smaOver (latePts.take 3) (1/100) false
    Averaging (.period 3) (1/100) false A ∧ (∀ p ∈ A.src.points, ∀ y ∈ p.2, 0 ≤ y ∧ y ≤ 6) ∧
      (smaY (.period 3) 3 A (.fin 5)).map Out.res = some (.ok (some (-12))) := by
  have hp : (smaOver (latePts.take 3) (1/100) false).src.points = defined (lateList.take 3) := by
    show (loose (latePts.take 3)).points = defined (lateList.take 3)
    decide +kernel
  refine ⟨late_averaging 3 (by simp) rfl, ?_, ?_⟩
  · rw [hp]
    decide +kernel
  · rw [C172_between (fuel := 0) (q := (0, 0)) (r := (10, 6)) (k := 0) (a := (0, 0)) (by norm_num [minStepQ]) (by norm_num)
      (late_averaging 3 (by simp) rfl) hp (by decide +kernel) rfl rfl rfl (by norm_num) (by norm_num) (by norm_num)]
    decide +kernel

/-! ## An instance of each theorem -/

/-- Between `11` and `25/2` the window over the length `3` at `23/2` is that from `10` to `25/2`: a mix of two averages over the same
points. -/
example : (smaY (.period 3) 3 (smaOver (latePts.take 5) (1/100) false) (.fin (23/2))).map Out.res =
    some (.ok (some (lengthBetween lateList 3 (1/100) (11, 0) (25/2, 0) (23/2)))) ∧
    lengthBetween lateList 3 (1/100) (11, 0) (25/2, 0) (23/2) = 6/5 := by
  refine ⟨?_, by decide +kernel⟩
  exact C172_between (fuel := 0) (k := 2) (a := (0, 0)) (by norm_num [minStepQ]) (by norm_num) (late_averaging 5 (by simp) rfl)
    late_points (by decide +kernel) rfl rfl rfl (by norm_num) (by norm_num) (by norm_num)

/-- Between `0` and `10`, at `5`: three points come later, the average stays within the values. -/
example : ∃ v, (smaY (.period 3) 3 (smaOver (latePts.take 5) (1/100) false) (.fin 5)).map Out.res = some (.ok (some v)) ∧
    0 ≤ v ∧ v ≤ 6 :=
  C172_between_bounds_partial (fuel := 0) (k := 0) (q := (0, 0)) (r := (10, 6)) (a := (0, 0)) (l := lateList) (by norm_num [minStepQ])
    (by norm_num) (late_averaging 5 (by simp) rfl) late_points (by decide +kernel) rfl rfl rfl (by norm_num) (by norm_num)
    (by norm_num) (by decide +kernel) (by
      have : lengthWindow lateList 3 (1/100) 5 = [(10, 6), (11, 0), (25/2, 0)] := by decide +kernel
      rw [this]
      simp)

end Props
end Curvepy
