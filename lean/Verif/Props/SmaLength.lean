import Verif.Spec.SmaLength
import Verif.Props.Sma

/-!
# Moving averages over a length of time, over points at any distances

`C172`: what `SMA(period=…)` answers at the points of its source.
-/

namespace Curvepy
namespace Props
open Spec Pts Accum Sma

variable {m per : ℚ} {u : Bool} {A : Accum} {l : List (ℚ × ℚ)}

/-! ## The window -/

/-- `j` is the number of the first point at `c` or later. -/
structure FirstAt (l : List (ℚ × ℚ)) (c : ℚ) (j : ℕ) (p : ℚ × ℚ) : Prop where
  get : l[j]? = some p
  from_ : c ≤ p.1
  least : ∀ i z, i < j → l[i]? = some z → z.1 < c

/-- `i` is the number of the last point at `c` or before. -/
structure LastAt (l : List (ℚ × ℚ)) (c : ℚ) (i : ℕ) (e : ℚ × ℚ) : Prop where
  get : l[i]? = some e
  upto : e.1 ≤ c
  most : ∀ i' z, i < i' → l[i']? = some z → c < z.1

theorem firstAt_exists {c : ℚ} {k : ℕ} {q : ℚ × ℚ} (hk : l[k]? = some q) (hq : c ≤ q.1) : ∃ j p, j ≤ k ∧ FirstAt l c j p := by
  classical
  have hex : ∃ j, ∃ p : ℚ × ℚ, l[j]? = some p ∧ c ≤ p.1 := ⟨k, q, hk, hq⟩
  obtain ⟨p, h1, h2⟩ := Nat.find_spec hex
  refine ⟨Nat.find hex, p, Nat.find_min' hex ⟨q, hk, hq⟩, h1, h2, ?_⟩
  intro i z hi hz
  have := Nat.find_min hex hi
  by_contra hc
  exact this ⟨z, hz, not_lt.1 hc⟩

theorem lastAt_exists {c : ℚ} {k : ℕ} {q : ℚ × ℚ} (hk : l[k]? = some q) (hq : q.1 ≤ c) : ∃ i e, k ≤ i ∧ LastAt l c i e := by
  classical
  let R : ℕ → Prop := fun i => ∃ e : ℚ × ℚ, l[i]? = some e ∧ e.1 ≤ c
  have hkl := (List.getElem?_eq_some_iff.1 hk).1
  have h0 : R k := ⟨q, hk, hq⟩
  have hs : R (Nat.findGreatest R l.length) := Nat.findGreatest_spec (P := R) hkl.le h0
  obtain ⟨e, h1, h2⟩ := hs
  refine ⟨_, e, Nat.le_findGreatest hkl.le h0, h1, h2, ?_⟩
  intro i z hi hz
  by_contra hc
  exact Nat.findGreatest_is_greatest hi (List.getElem?_eq_some_iff.1 hz).1.le ⟨z, hz, not_lt.1 hc⟩

/-- From one number to another. -/
theorem filter_range (hasc : l.Pairwise fun p q => p.1 < q.1) {a b : ℚ} {i j : ℕ} {p e : ℚ × ℚ} (hj : FirstAt l a j p)
    (hi : LastAt l b i e) : l.filter (fun z => decide (a ≤ z.1 ∧ z.1 ≤ b)) = (l.take (i + 1)).drop j := by
  have hmem : ∀ (f : ℚ × ℚ → Bool) (s t : ℕ), (∀ n z, l[n]? = some z → s ≤ n → n < t → f z = true) →
      ((l.take t).drop s).filter f = (l.take t).drop s := by
    intro f s t h
    rw [List.filter_eq_self]
    intro z hz
    obtain ⟨n, hn⟩ := List.getElem?_of_mem hz
    rw [List.getElem?_drop] at hn
    have hlt := (List.getElem?_eq_some_iff.1 hn).1
    rw [List.length_take] at hlt
    rw [List.getElem?_take_of_lt (by omega)] at hn
    exact h _ z hn (by omega) (by omega)
  have hmono : ∀ {n n' : ℕ} {z z' : ℚ × ℚ}, l[n]? = some z → l[n']? = some z' → n ≤ n' → z.1 ≤ z'.1 := by
    intro n n' z z' hz hz' hnn
    rcases hnn.eq_or_lt with rfl | hlt
    · rw [hz] at hz'
      cases hz'
      exact le_rfl
    · obtain ⟨h1, h2⟩ := List.getElem?_eq_some_iff.1 hz
      obtain ⟨h3, h4⟩ := List.getElem?_eq_some_iff.1 hz'
      have := List.pairwise_iff_getElem.1 hasc n n' h1 h3 hlt
      rw [h2, h4] at this
      exact this.le
  conv_lhs => rw [← List.take_append_drop (i + 1) l, ← List.take_append_drop j (l.take (i + 1))]
  rw [List.filter_append, List.filter_append, hmem]
  · have e1 : ((l.take (i + 1)).take j).filter (fun z => decide (a ≤ z.1 ∧ z.1 ≤ b)) = [] := by
      rw [List.filter_eq_nil_iff]
      intro z hz
      obtain ⟨n, hn⟩ := List.getElem?_of_mem hz
      have hlt := (List.getElem?_eq_some_iff.1 hn).1
      rw [List.length_take, List.length_take] at hlt
      rw [List.getElem?_take_of_lt (by omega), List.getElem?_take_of_lt (by omega)] at hn
      have := hj.least n z (by omega) hn
      simp only [decide_eq_true_eq, not_and]
      intro h
      linarith
    have e2 : (l.drop (i + 1)).filter (fun z => decide (a ≤ z.1 ∧ z.1 ≤ b)) = [] := by
      rw [List.filter_eq_nil_iff]
      intro z hz
      obtain ⟨n, hn⟩ := List.getElem?_of_mem hz
      rw [List.getElem?_drop] at hn
      have := hi.most _ z (by omega) hn
      simp only [decide_eq_true_eq, not_and]
      intro _ h
      linarith
    rw [e1, e2]
    simp
  · intro n z hz h1 h2
    have h3 := hmono hj.get hz h1
    have h4 := hmono hz hi.get (by omega)
    simp only [decide_eq_true_eq]
    exact ⟨hj.from_.trans h3, h4.trans hi.upto⟩

theorem FirstAt.self (hasc : l.Pairwise fun p q => p.1 < q.1) {c : ℚ} {j : ℕ} {p : ℚ × ℚ} (h : FirstAt l c j p) :
    FirstAt l p.1 j p := by
  refine ⟨h.get, le_rfl, ?_⟩
  intro i z hi hz
  obtain ⟨h1, h2⟩ := List.getElem?_eq_some_iff.1 hz
  obtain ⟨h3, h4⟩ := List.getElem?_eq_some_iff.1 h.get
  have := List.pairwise_iff_getElem.1 hasc i j h1 h3 hi
  rwa [h2, h4] at this

/-- The window, by numbers. -/
theorem lengthWindow_eq (hasc : l.Pairwise fun p q => p.1 < q.1) {x : ℚ} {i j : ℕ} {p e : ℚ × ℚ}
    (hj : FirstAt l (x - per + m) j p) (hi : LastAt l (p.1 + per - m) i e) :
    lengthWindow l per m x = (l.take (i + 1)).drop j := by
  have hf : l.find? (fun z => decide (x - per + m ≤ z.1)) = some p := by
    rw [List.find?_eq_some_iff_getElem]
    obtain ⟨h1, h2⟩ := List.getElem?_eq_some_iff.1 hj.get
    refine ⟨by simpa using hj.from_, j, h1, h2, ?_⟩
    intro n hn
    have := hj.least n _ hn (List.getElem?_eq_getElem (by omega))
    simpa using this
  unfold lengthWindow
  rw [hf]
  exact filter_range hasc (hj.self hasc) hi

/-! ## What the code finds -/

theorem start_first {src : Pts ℚ} (h : Honest src) (hl : src.points = defined l) {x : ℚ} {j : ℕ} {p : ℚ × ℚ}
    (hj : FirstAt l (x - per + m) j p) : smaStart src (.period per) m x = .ok (some (.fin p.1)) := by
  have hget : ∀ {i : ℕ} {z : ℚ × ℚ}, l[i]? = some z → src.points[i]? = some (z.1, some z.2) := by
    intro i z hz; simp [hl, defined, hz]
  simp only [smaStart]
  rw [honest_next h, firstFrom_eq_some h.wf.asc (hget hj.get) hj.from_]
  · rfl
  · intro i z hi hz
    rw [hl] at hz
    simp only [defined, List.getElem?_map, Option.map_eq_some_iff] at hz
    obtain ⟨z', hz', rfl⟩ := hz
    exact hj.least i z' hi hz'

theorem end_last {src : Pts ℚ} (h : Honest src) (hl : src.points = defined l) {x : ℚ} {i : ℕ} {e : ℚ × ℚ}
    (hi : LastAt l (x + per - m) i e) : src.xPrevious (.fin (x + per)) (some m) = .ok (some (.fin e.1)) := by
  have hget : ∀ {i : ℕ} {z : ℚ × ℚ}, l[i]? = some z → src.points[i]? = some (z.1, some z.2) := by
    intro i z hz; simp [hl, defined, hz]
  rw [honest_prev h, lastUpTo_eq_some h.wf.asc (hget hi.get) hi.upto]
  · rfl
  · intro i z hi' hz
    rw [hl] at hz
    simp only [defined, List.getElem?_map, Option.map_eq_some_iff] at hz
    obtain ⟨z', hz', rfl⟩ := hz
    exact hi.most i z' hi' hz'

/-- The domain begins at the last point no later than `per - m` after the first. -/
theorem length_domain {src : Pts ℚ} (h : Honest src) (hl : src.points = defined l) {a : ℚ × ℚ} (h0 : l[0]? = some a) {c : ℕ}
    {z : ℚ × ℚ} (hc : LastAt l (a.1 + per - m) c z) :
    ∃ b, l[l.length - 1]? = some b ∧ smaDomain src (.period per) m = .ok (Iv.closed z.1 b.1) := by
  have hpos := (List.getElem?_eq_some_iff.1 h0).1
  have hlast : l[l.length - 1]? = some l[l.length - 1] := List.getElem?_eq_getElem _
  have hget : ∀ {i : ℕ} {z : ℚ × ℚ}, l[i]? = some z → src.points[i]? = some (z.1, some z.2) := by
    intro i z hz; simp [hl, defined, hz]
  have hlen : src.points.length = l.length := by rw [hl]; simp [defined]
  refine ⟨_, hlast, ?_⟩
  have hdv := getDomain_ends (hget h0) (by rw [hlen]; exact hget hlast)
  have hee := getDomain_not_isEmpty h.wf.asc (by intro h0; rw [h0] at hlen; simp at hlen; omega)
  have hcl := (List.getElem?_eq_some_iff.1 hc.get).1
  have h1 : z.1 ≤ (l[l.length - 1]).1 := h.wf.asc.le (hget hc.get) (hget hlast) (by omega)
  unfold smaDomain
  rw [h.wf.domVal, hee, hdv]
  simp only [Iv.closed, Bool.false_eq_true, if_false, end_last h hl hc, domainFrom, add_sub_cancel, not_lt.2 h1]

/-! ## At the points -/

/-- The answer at a point that is the last but one of the window found. -/
theorem length_next (hm : minStepQ ≤ m) (hw : m ≤ per) (h : Ok (.period per) m u (defined l) A) {j k i : ℕ} (hjk : j < k)
    (hki : k < i) (hi1 : i = k + 1) {p q e : ℚ × ℚ} (hj : FirstAt l (q.1 - per + m) j p) (hk : l[k]? = some q)
    (hi : LastAt l (p.1 + per - m) i e) (hd : ∃ d, smaDomain A.src (.period per) m = .ok d ∧ d.contains (.fin q.1) = true)
    (fuel : ℕ) : ∃ o, smaY (.period per) (fuel + 1) A (.fin q.1) = some o ∧ Ok (.period per) m u (defined l) o.st ∧
      o.res = .ok (some (meanHeight ((l.take (i + 1)).drop j))) := by
  subst hi1
  have hm0 : (0 : ℚ) < m := lt_of_lt_of_le (by norm_num [minStepQ]) hm
  have hasc := Ok.asc h
  obtain ⟨hP, skip, seen, todo, s0⟩ := h
  obtain ⟨B, d, hB, hdB, hBp, sB⟩ := smaTouch_spec s0
  obtain ⟨d', hd', hcon⟩ := hd
  rw [hdB] at hd'
  cases hd'
  have hBP : B.src.points = defined l := hBp.trans hP
  have okB : Ok (.period per) m u (defined l) B := ⟨hBP, _, _, _, sB⟩
  have hpq : p.1 < q.1 := hasc.lt (prefix_get List.prefix_rfl hj.get) (prefix_get List.prefix_rfl hk) hjk
  have hqe : q.1 < e.1 := hasc.lt (prefix_get List.prefix_rfl hk) (prefix_get List.prefix_rfl hi.get) hki
  obtain ⟨o1, o2, y0, y1, r1, r2, r3, r4, r5, r6⟩ := slope_spec hm (show Fits m (.period per) from hw) List.prefix_rfl okB
    (show j ≤ k + 1 by omega) hj.get hi.get
  obtain ⟨hP2, sk2, se2, to2, s2⟩ := id r5
  have hprev : o2.st.src.xPrevious (.fin e.1) (some m) = .ok (some (.fin q.1)) :=
    prev_knot s2.src hm0 s2.gapped (defined_get hP2 hk) (defined_get hP2 hi.get)
  have hst := start_first sB.src hBP hj
  have hen : smaEnd B.src (.period per) m p.1 = .ok (some (.fin e.1)) := end_last sB.src hBP hi
  have n1 : (p.1 = q.1) = False := by simp [hpq.ne]
  have n2 : (e.1 = p.1) = False := by simp [(hpq.trans hqe).ne']
  have n3 : (q.1 = e.1) = False := by simp [hqe.ne]
  have n4 : (e.1 < q.1) = False := by simp [hqe.le]
  unfold smaY
  simp only [hB, hcon, Bool.not_true, Bool.false_eq_true, if_false, sB.step, hst, finPart, hen, n1, n2, n3, n4,
    Option.some.injEq, decide_false, Bool.or_false, r1, whenSome, r2, r3, r4, s2.step, hprev, answer, Option.map_some, if_true]
  refine ⟨_, rfl, r5, ?_⟩
  rw [meanHeight_window (by omega) hj.get hi.get, r6]

/-- The answer at a point, by numbers. -/
theorem length_knot (hm : minStepQ ≤ m) (hw : m ≤ per) (h : Ok (.period per) m u (defined l) A) {j k i : ℕ} (hjk : j ≤ k)
    (hki : k ≤ i) {p q e : ℚ × ℚ} (hj : FirstAt l (q.1 - per + m) j p) (hk : l[k]? = some q)
    (hi : LastAt l (p.1 + per - m) i e)
    (hd : ∀ s, Honest s → s.points = defined l → ∃ z b, smaDomain s (.period per) m = .ok (Iv.closed z b) ∧ z ≤ q.1 ∧ e.1 ≤ b)
    (fuel : ℕ) : ∃ o, smaY (.period per) (fuel + 2) A (.fin q.1) = some o ∧ Ok (.period per) m u (defined l) o.st ∧
      o.res = .ok (some (if j = k then q.2 else meanHeight ((l.take (i + 1)).drop j))) := by
  have hm0 : (0 : ℚ) < m := lt_of_lt_of_le (by norm_num [minStepQ]) hm
  have hasc := Ok.asc h
  have hget : ∀ {i : ℕ} {z : ℚ × ℚ}, l[i]? = some z → (defined l)[i]? = some (z.1, some z.2) := by
    intro i z hz; simp [defined, hz]
  have hqe : q.1 ≤ e.1 := hasc.le (hget hk) (hget hi.get) hki
  obtain ⟨hP, skip, seen, todo, s0⟩ := id h
  have dom : ∀ {B : Accum} {x : ℚ}, Ok (.period per) m u (defined l) B → q.1 ≤ x → x ≤ e.1 →
      ∃ d, smaDomain B.src (.period per) m = .ok d ∧ d.contains (.fin x) = true := by
    intro B x hB h1 h2
    obtain ⟨hBP, _, _, _, sB⟩ := id hB
    obtain ⟨z, b, h3, h4, h5⟩ := hd B.src sB.src hBP
    exact ⟨_, h3, by simp [Iv.contains_closed]; exact ⟨h4.trans h1, h2.trans h5⟩⟩
  rcases hjk.eq_or_lt with rfl | hjk
  · -- the window begins here
    rw [if_pos rfl]
    have hpq : p = q := by
      have := hj.get
      rw [hk] at this
      exact (Option.some.inj this).symm
    subst hpq
    obtain ⟨B, d, hB, hdB, hBp, sB⟩ := smaTouch_spec s0
    obtain ⟨d', hd', hcon⟩ := dom h le_rfl hqe
    rw [hdB] at hd'
    cases hd'
    have hBP : B.src.points = defined l := hBp.trans hP
    have hst := start_first sB.src hBP hj
    have hen : smaEnd B.src (.period per) m p.1 = .ok (some (.fin e.1)) := end_last sB.src hBP hi
    unfold smaY
    simp only [hB, hcon, Bool.not_true, Bool.false_eq_true, if_false, sB.step, hst, finPart, hen, decide_true, Bool.true_or, if_true]
    refine ⟨_, rfl, ⟨hBP, _, _, _, sB⟩, ?_⟩
    show B.src.y _ = _
    rw [Props.C01_stored_value sB.src (p := (p.1, some p.2)) (by rw [hBP]; exact List.mem_of_getElem? (hget hk))]
  · rw [if_neg hjk.ne]
    have hpq : p.1 < q.1 := hasc.lt (hget hj.get) (hget hk) hjk
    rcases hki.eq_or_lt with rfl | hki
    · -- it ends here
      have hqe' : e = q := by
        have := hi.get
        rw [hk] at this
        exact (Option.some.inj this).symm
      subst hqe'
      exact smaY_knot hm (show Fits m (.period per) from hw) List.prefix_rfl h hjk.le hj.get hk (dom h le_rfl le_rfl)
        (fun s hs hsp => start_first hs hsp hj) (fun s hs hsp => end_last hs hsp hi) (fuel + 1)
    · rcases (show i = k + 1 ∨ k + 1 < i by omega) with rfl | hfar
      · exact length_next hm hw h hjk hki rfl hj hk hi (dom h le_rfl hqe) (fuel + 1)
      · -- the point before the end has the same window
        have hil := (List.getElem?_eq_some_iff.1 hi.get).1
        have hr : l[i - 1]? = some l[i - 1] := List.getElem?_eq_getElem _
        set r := l[i - 1] with hrr
        have hqr : q.1 < r.1 := hasc.lt (hget hk) (hget hr) (by omega)
        have hre : r.1 < e.1 := hasc.lt (hget hr) (hget hi.get) (by omega)
        have hj' : FirstAt l (r.1 - per + m) j p := by
          refine ⟨hj.get, ?_, ?_⟩
          · have := hi.upto
            linarith
          · intro n z hn hz
            have := hj.least n z hn hz
            linarith
        obtain ⟨B, d, hB, hdB, hBp, sB⟩ := smaTouch_spec s0
        obtain ⟨d', hd', hcon⟩ := dom h le_rfl hqe
        rw [hdB] at hd'
        cases hd'
        have hBP : B.src.points = defined l := hBp.trans hP
        have okB : Ok (.period per) m u (defined l) B := ⟨hBP, _, _, _, sB⟩
        obtain ⟨o1, o2, y0, y1, r1, r2, r3, r4, r5, r6⟩ := slope_spec hm (show Fits m (.period per) from hw) List.prefix_rfl okB
          (show j ≤ i by omega) hj.get hi.get
        obtain ⟨hP2, sk2, se2, to2, s2⟩ := id r5
        have hprev : o2.st.src.xPrevious (.fin e.1) (some m) = .ok (some (.fin r.1)) :=
          prev_knot s2.src hm0 s2.gapped (defined_get hP2 hr) (show o2.st.src.points[i - 1 + 1]? = some (e.1, some e.2) by
            rw [Nat.sub_add_cancel (by omega)]; exact defined_get hP2 hi.get)
        obtain ⟨o3, t1, t2, t3⟩ := length_next hm hw r5 (show j < i - 1 by omega) (show i - 1 < i by omega) (by omega) hj' hr hi
          (dom r5 hqr.le hre.le) fuel
        have hst := start_first sB.src hBP hj
        have hen : smaEnd B.src (.period per) m p.1 = .ok (some (.fin e.1)) := end_last sB.src hBP hi
        have n1 : (p.1 = q.1) = False := by simp [hpq.ne]
        have n2 : (e.1 = p.1) = False := by simp [(hpq.trans (hqr.trans hre)).ne']
        have n3 : (q.1 = e.1) = False := by simp [(hqr.trans hre).ne]
        have n4 : (e.1 < q.1) = False := by simp [hqe]
        have n5 : (r.1 = q.1) = False := by simp [hqr.ne']
        refine ⟨⟨o3.st, o1.calls ++ (o2.calls ++ (o3.calls ++ [])), .ok (some (meanHeight ((l.take (i + 1)).drop j)))⟩, ?_, t2, rfl⟩
        unfold smaY
        simp only [hB, hcon, Bool.not_true, Bool.false_eq_true, if_false, sB.step, hst, finPart, hen, n1, n2, n3, n4, n5,
          Option.some.injEq, decide_false, Bool.or_false, r1, whenSome, r2, r3, r4, s2.step, hprev, t1, t3, answer,
          Option.map_some]
        congr 4
        rw [meanHeight_window (by omega) hj.get hi.get, r6]
        ring

/-- The window at a point, and what the domain is there. -/
theorem length_window (hm0 : 0 < m) (hw : m ≤ per) (hasc : Ascending (defined l)) {a : ℚ × ℚ} (h0 : l[0]? = some a) {k : ℕ}
    {q : ℚ × ℚ} (hk : l[k]? = some q) (hdom : ∀ r, l[k + 1]? = some r → a.1 + per - m < r.1) :
    ∃ j i p e, j ≤ k ∧ k ≤ i ∧ FirstAt l (q.1 - per + m) j p ∧ LastAt l (p.1 + per - m) i e ∧
      lengthWindow l per m q.1 = (l.take (i + 1)).drop j ∧
      ∀ s, Honest s → s.points = defined l → ∃ z b, smaDomain s (.period per) m = .ok (Iv.closed z b) ∧ z ≤ q.1 ∧ e.1 ≤ b := by
  have hget : ∀ {i : ℕ} {z : ℚ × ℚ}, l[i]? = some z → (defined l)[i]? = some (z.1, some z.2) := by
    intro i z hz; simp [defined, hz]
  have hasc' : l.Pairwise (fun p q => p.1 < q.1) := by
    have := hasc
    unfold Ascending defined at this
    rwa [List.pairwise_map] at this
  obtain ⟨j, p, hjk, hj⟩ := firstAt_exists (c := q.1 - per + m) hk (by linarith)
  obtain ⟨i, e, hki, hi⟩ := lastAt_exists (c := p.1 + per - m) hk (by linarith [hj.from_])
  refine ⟨j, i, p, e, hjk, hki, hj, hi, lengthWindow_eq hasc' hj hi, ?_⟩
  intro s hs hsp
  obtain ⟨c, z, -, hc⟩ := lastAt_exists (c := a.1 + per - m) h0 (by linarith)
  obtain ⟨b, hb, hd⟩ := length_domain hs hsp h0 hc
  have hil := (List.getElem?_eq_some_iff.1 hi.get).1
  refine ⟨_, _, hd, ?_, hasc.le (hget hi.get) (hget hb) (by omega)⟩
  refine hasc.le (hget hc.get) (hget hk) ?_
  by_contra hck
  have hcl := (List.getElem?_eq_some_iff.1 hc.get).1
  have hr : l[k + 1]? = some l[k + 1] := List.getElem?_eq_getElem _
  have h1 := hasc.le (hget hr) (hget hc.get) (by omega)
  have h2 := hdom _ hr
  have h3 := hc.upto
  simp only at h1
  linarith

/-- **The answer**: at a point that is not too early, whatever was asked before, an average over the length `per` is the mean
height of the line through the points of its window; these begin less than `per` before the point, and end less than `per`
after they begin, which may be after the point.  If the point is the first of them, it is the value there. -/
theorem C172_answer (hm : minStepQ ≤ m) (hw : m ≤ per) (h : Averaging (.period per) m u A) (hl : A.src.points = defined l)
    {a : ℚ × ℚ} (h0 : l[0]? = some a) {k : ℕ} {q : ℚ × ℚ} (hk : l[k]? = some q)
    (hdom : ∀ r, l[k + 1]? = some r → a.1 + per - m < r.1) (fuel : ℕ) :
    (smaY (.period per) (fuel + 2) A (.fin q.1)).map Out.res = some (.ok (some (lengthMean l per m q))) := by
  have hm0 : (0 : ℚ) < m := lt_of_lt_of_le (by norm_num [minStepQ]) hm
  have hok := averaging_ok hm (show Fits m (.period per) from hw) h
  rw [hl] at hok
  have hasc := Ok.asc hok
  have hget : ∀ {i : ℕ} {z : ℚ × ℚ}, l[i]? = some z → (defined l)[i]? = some (z.1, some z.2) := by
    intro i z hz; simp [defined, hz]
  obtain ⟨j, i, p, e, hjk, hki, hj, hi, hwin, hd⟩ := length_window hm0 hw hasc h0 hk hdom
  obtain ⟨o, h1, _, h2⟩ := length_knot hm hw hok hjk hki hj hk hi hd fuel
  rw [h1, Option.map_some, h2]
  have hhead : ((l.take (i + 1)).drop j).head? = some p := by
    rw [List.head?_drop, List.getElem?_take_of_lt (by omega), hj.get]
  unfold lengthMean
  rw [hwin, hhead]
  congr 3
  by_cases hc : j = k
  · subst hc
    have : p = q := by
      have := hj.get
      rw [hk] at this
      exact (Option.some.inj this).symm
    rw [if_pos rfl, if_pos (by rw [this])]
  · have hpq : p.1 < q.1 := hasc.lt (hget hj.get) (hget hk) (by omega)
    rw [if_neg hc, if_neg (by
      intro h3
      cases h3
      exact lt_irrefl _ hpq)]

/-- **Too early**: before a point that lies no later than `per - m` after the first, there is no average. -/
theorem C172_before (hm : minStepQ ≤ m) (hw : m ≤ per) (h : Averaging (.period per) m u A) (hl : A.src.points = defined l)
    {a : ℚ × ℚ} (h0 : l[0]? = some a) {z : ℚ × ℚ} (hz : z ∈ l) (hza : z.1 ≤ a.1 + per - m) {x : ℚ} (hx : x < z.1) (fuel : ℕ) :
    (smaY (.period per) (fuel + 1) A (.fin x)).map Out.res = some (.ok none) := by
  obtain ⟨_, skip, seen, todo, s0⟩ := averaging_ok hm (w := .period per) hw h
  obtain ⟨B, dm, hB, hdB, hBp, sB⟩ := smaTouch_spec s0
  obtain ⟨n, hn⟩ := List.getElem?_of_mem hz
  obtain ⟨c, y, hnc, hc⟩ := lastAt_exists (c := a.1 + per - m) hn hza
  obtain ⟨b, hb, hd⟩ := length_domain s0.src hl h0 hc
  have hasc := s0.src.wf.asc
  rw [hl] at hasc
  have hzy : z.1 ≤ y.1 := hasc.le (prefix_get List.prefix_rfl hn) (prefix_get List.prefix_rfl hc.get) hnc
  rw [hdB] at hd
  cases hd
  have : (Iv.closed y.1 b.1).contains (.fin x) = false := by
    rw [Bool.eq_false_iff]
    intro hcon
    simp [Iv.contains_closed] at hcon
    linarith [hcon.1]
  unfold smaY
  simp only [hB, this, Bool.not_false, if_true]
  rfl

/-- **Within the values** of the window. -/
theorem C172_bounds (hm : minStepQ ≤ m) (hw : m ≤ per) (h : Averaging (.period per) m u A) (hl : A.src.points = defined l)
    {a : ℚ × ℚ} (h0 : l[0]? = some a) {k : ℕ} {q : ℚ × ℚ} (hk : l[k]? = some q)
    (hdom : ∀ r, l[k + 1]? = some r → a.1 + per - m < r.1) {lo hi : ℚ}
    (hb : ∀ z ∈ lengthWindow l per m q.1, lo ≤ z.2 ∧ z.2 ≤ hi) (fuel : ℕ) :
    ∃ v, (smaY (.period per) (fuel + 2) A (.fin q.1)).map Out.res = some (.ok (some v)) ∧ lo ≤ v ∧ v ≤ hi := by
  refine ⟨_, C172_answer hm hw h hl h0 hk hdom fuel, ?_⟩
  have hm0 : (0 : ℚ) < m := lt_of_lt_of_le (by norm_num [minStepQ]) hm
  have hok := averaging_ok hm (show Fits m (.period per) from hw) h
  rw [hl] at hok
  have hasc := Ok.asc hok
  obtain ⟨j, i, p, e, hjk, hki, hj, hi', hwin, _⟩ := length_window hm0 hw hasc h0 hk hdom
  have hkl := (List.getElem?_eq_some_iff.1 hk).1
  unfold lengthMean
  split_ifs with hh
  · exact hb q (List.mem_of_mem_head? hh)
  · refine meanHeight_bounds ?_ ?_ hb
    · rw [hwin]
      intro hc
      have := congrArg List.length hc
      simp at this
      omega
    · rw [hwin]
      have h1 := hasc
      unfold Ascending defined at h1
      rw [List.pairwise_map] at h1
      exact (h1.sublist (List.take_sublist _ _)).sublist (List.drop_sublist _ _)

/-- **Of the same value** it is that value. -/
theorem C172_constant (hm : minStepQ ≤ m) (hw : m ≤ per) (h : Averaging (.period per) m u A) (hl : A.src.points = defined l)
    {a : ℚ × ℚ} (h0 : l[0]? = some a) {k : ℕ} {q : ℚ × ℚ} (hk : l[k]? = some q)
    (hdom : ∀ r, l[k + 1]? = some r → a.1 + per - m < r.1) {c : ℚ} (hc : ∀ z ∈ lengthWindow l per m q.1, z.2 = c) (fuel : ℕ) :
    (smaY (.period per) (fuel + 2) A (.fin q.1)).map Out.res = some (.ok (some c)) := by
  obtain ⟨v, h1, h2, h3⟩ := C172_bounds hm hw h hl h0 hk hdom (fun z hz => ⟨(hc z hz).ge, (hc z hz).le⟩) fuel
  rw [h1, le_antisymm h3 h2]

/-- **Only the past**: if the next point lies more than `per - m` after the first of the window, the average depends on the
points up to this one only. -/
theorem C172_past_partial (hm : minStepQ ≤ m) (hw : m ≤ per) (h : Averaging (.period per) m u A)
    (hl : A.src.points = defined l) {B : Accum} (h' : Averaging (.period per) m u B) {k : ℕ}
    (hl' : B.src.points = defined (l.take (k + 1))) {a : ℚ × ℚ} (h0 : l[0]? = some a) {q : ℚ × ℚ} (hk : l[k]? = some q)
    (hdom : ∀ r, l[k + 1]? = some r → a.1 + per - m < r.1)
    (hnext : ∀ p r, (lengthWindow l per m q.1).head? = some p → l[k + 1]? = some r → p.1 + per - m < r.1) (fuel : ℕ) :
    (smaY (.period per) (fuel + 2) A (.fin q.1)).map Out.res = (smaY (.period per) (fuel + 2) B (.fin q.1)).map Out.res := by
  have hm0 : (0 : ℚ) < m := lt_of_lt_of_le (by norm_num [minStepQ]) hm
  have hok := averaging_ok hm (show Fits m (.period per) from hw) h
  rw [hl] at hok
  have hasc := Ok.asc hok
  have hget : ∀ {i : ℕ} {z : ℚ × ℚ}, l[i]? = some z → (defined l)[i]? = some (z.1, some z.2) := by
    intro i z hz; simp [defined, hz]
  have hasc' : l.Pairwise (fun p q => p.1 < q.1) := by
    have := hasc
    unfold Ascending defined at this
    rwa [List.pairwise_map] at this
  have hkl := (List.getElem?_eq_some_iff.1 hk).1
  have h0' : (l.take (k + 1))[0]? = some a := by rw [List.getElem?_take_of_lt (by omega), h0]
  have hk' : (l.take (k + 1))[k]? = some q := by rw [List.getElem?_take_of_lt (by omega), hk]
  rw [C172_answer hm hw h hl h0 hk hdom fuel, C172_answer hm hw h' hl' h0' hk' (by
    intro r hr
    have := (List.getElem?_eq_some_iff.1 hr).1
    rw [List.length_take] at this
    omega) fuel]
  obtain ⟨j, i, p, e, hjk, hki, hj, hi, hwin, _⟩ := length_window hm0 hw hasc h0 hk hdom
  have hhead : (lengthWindow l per m q.1).head? = some p := by
    rw [hwin, List.head?_drop, List.getElem?_take_of_lt (by omega), hj.get]
  have hik : i = k := by
    by_contra hc
    have hil := (List.getElem?_eq_some_iff.1 hi.get).1
    have hr : l[k + 1]? = some l[k + 1] := List.getElem?_eq_getElem _
    have h1 := hasc.le (hget hr) (hget hi.get) (by omega)
    have h2 := hnext p _ hhead hr
    have h3 := hi.upto
    simp only at h1
    linarith
  subst hik
  have hj' : FirstAt (l.take (i + 1)) (q.1 - per + m) j p := by
    refine ⟨by rw [List.getElem?_take_of_lt (by omega), hj.get], hj.from_, ?_⟩
    intro n z hn hz
    rw [List.getElem?_take_of_lt (by omega)] at hz
    exact hj.least n z hn hz
  have hi' : LastAt (l.take (i + 1)) (p.1 + per - m) i e := by
    refine ⟨by rw [List.getElem?_take_of_lt (by omega), hi.get], hi.upto, ?_⟩
    intro n z hn hz
    have := (List.getElem?_eq_some_iff.1 hz).1
    rw [List.length_take] at this
    omega
  have hwin' := lengthWindow_eq (hasc'.sublist (List.take_sublist (i + 1) l)) hj' hi'
  rw [List.take_take, min_self] at hwin'
  unfold lengthMean
  rw [hwin, hwin']

/-! ## Witnesses -/

/-- Points close to each other, after a gap. -/
def lateList : List (ℚ × ℚ) := [(0, 0), (10, 6), (11, 0), (25/2, 0), (15, 3)]

def latePts : List (Pt ℚ) := [(0, some 0), (10, some 6), (11, some 0), (25/2, some 0), (15, some 3)]

theorem late_averaging (n : ℕ) (hn : n = 3 ∨ n = 5) {w : Window} (hw : w.valid = true) :
    Averaging w (1/100) false (smaOver (latePts.take n) (1/100) false) := by
  have main : ∀ pts : List (Pt ℚ), Ascending pts → ((Pts.blank .linear false).set pts none Accum.quiet).err = none →
      (loose pts).isUniform = false → (loose pts).points = pts → Gapped (1/100) pts →
      (∀ l ∈ pts.tails, ∀ k ∈ l.inits, gapOk k = true) → Averaging w (1/100) false (smaOver pts (1/100) false) := by
    intro pts h1 h2 h3 h4 h5 h6
    refine .new (s := loose pts) ?_ (by rw [h4]; exact allFit_of_gaps h5 h6) (by rw [Sma.new, if_pos hw, smaOver])
    refine .new (pts := pts) (i := .linear) (u := false) h1 ?_ ?_
    · have h' : ((blank .linear false).set pts none ⟨false, false⟩).err = none := h2
      simp [Pts.new, h', loose, quiet]
    · intro hu
      simp [h3] at hu
  rcases hn with rfl | rfl
  · exact main _ (by norm_num [Ascending, latePts]) (by decide +kernel) (by decide +kernel) (by decide +kernel)
      (by norm_num [Gapped, latePts]) (by decide +kernel)
  · exact main _ (by norm_num [Ascending, latePts]) (by decide +kernel) (by decide +kernel) (by decide +kernel)
      (by norm_num [Gapped, latePts]) (by decide +kernel)

theorem late_points : (smaOver (latePts.take 5) (1/100) false).src.points = defined lateList := by
  show (loose (latePts.take 5)).points = defined lateList
  decide +kernel

/-- **The future**: an average over the length `3` at `11` takes in the point at `25/2`; without that point it is another one. -/
theorem C172_negation :
    let A := smaOver (latePts.take 5) (1/100) false
    let B := smaOver (latePts.take 3) (1/100) false
    Averaging (.period 3) (1/100) false A ∧ Averaging (.period 3) (1/100) false B ∧
      smaAfter (.period 3) A [] 11 = some (.ok (some (6/5))) ∧ smaAfter (.period 3) B [] 11 = some (.ok (some 3)) := by
  refine ⟨late_averaging 5 (by simp) rfl, late_averaging 3 (by simp) rfl, ?_, ?_⟩ <;> decide +kernel

/-- **A point that is the first of its window**: the value there, not the mean of the window. -/
theorem C172_negation_first :
    let A := smaOver (latePts.take 5) (1/100) false
    Averaging (.period 3) (1/100) false A ∧ smaAfter (.period 3) A [] 10 = some (.ok (some 6)) ∧
      lengthWindow lateList 3 (1/100) 10 = [(10, 6), (11, 0), (25/2, 0)] := by
  refine ⟨late_averaging 5 (by simp) rfl, ?_, ?_⟩ <;> decide +kernel

/-! ## Examples -/

/-- At `15` the window begins at `25/2`, after a query further back. -/
example : smaAfter (.period 3) (smaOver (latePts.take 5) (1/100) false) [11] 15 = some (.ok (some (3/2))) ∧
    lengthWindow lateList 3 (1/100) 15 = [(25/2, 0), (15, 3)] ∧ lengthMean lateList 3 (1/100) (15, 3) = 3/2 := by
  refine ⟨?_, ?_, ?_⟩ <;> decide +kernel

example (fuel : ℕ) : (smaY (.period 3) (fuel + 2) (smaOver (latePts.take 5) (1/100) false) (.fin 11)).map Out.res =
      some (.ok (some (6/5))) ∧
    ((smaY (.period 3) (fuel + 1) (smaOver (latePts.take 5) (1/100) false) (.fin (-1))).map Out.res = some (.ok none)) := by
  constructor
  · rw [C172_answer (by norm_num [minStepQ]) (by norm_num) (late_averaging 5 (by simp) rfl) late_points rfl (k := 2) (q := (11, 0)) rfl
      (by intro r hr; cases hr; norm_num) fuel]
    decide +kernel
  · exact C172_before (by norm_num [minStepQ]) (by norm_num) (late_averaging 5 (by simp) rfl) late_points rfl (z := (0, 0))
      (by simp [lateList]) (by norm_num) (by norm_num) fuel

example (fuel : ℕ) : ∃ v, (smaY (.period 3) (fuel + 2) (smaOver (latePts.take 5) (1/100) false) (.fin (25/2))).map Out.res =
    some (.ok (some v)) ∧ 0 ≤ v ∧ v ≤ 6 :=
  C172_bounds (by norm_num [minStepQ]) (by norm_num) (late_averaging 5 (by simp) rfl) late_points rfl (k := 3) (q := (25/2, 0)) rfl
    (by intro r hr; cases hr; norm_num) (by decide +kernel) fuel

/-- Nothing within the length after `11`, if only the points up to it are there. -/
example : ∀ p r, (lengthWindow (lateList.take 3) 3 (1/100) 11).head? = some p → (lateList.take 3)[3]? = some r →
    p.1 + 3 - 1/100 < r.1 := by
  intro p r _ hr
  simp [lateList] at hr

end Props
end Curvepy
