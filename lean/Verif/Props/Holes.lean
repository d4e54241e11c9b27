import Verif.Props.Sma
import Verif.Spec.Holes

/-!
# Property C166: averages over points of which some have no value
-/

namespace Curvepy
namespace Props
open Spec Pts Accum Sma

variable {m : ℚ} {u : Bool} {w : Window} {A : Accum} {P : List (Pt ℚ)}

theorem partArea_snoc (l : List (Pt ℚ)) (p : Pt ℚ) :
    partArea (l ++ [p]) = partArea l + (match l.getLast? with | some q => jointArea q p | none => 0) := by
  induction l with
  | nil => simp [partArea]
  | cons a l ih =>
    cases l with
    | nil => simp [partArea]
    | cons b l =>
      simp only [List.cons_append, partArea] at ih ⊢
      rw [ih, List.getLast?_cons_cons]
      ring

theorem partArea_split (a : List (Pt ℚ)) (q : Pt ℚ) (b : List (Pt ℚ)) :
    partArea (a ++ q :: b) = partArea (a ++ [q]) + partArea (q :: b) := by
  induction a with
  | nil => simp [partArea]
  | cons c cs ih =>
    cases cs with
    | nil => simp [partArea]
    | cons d ds =>
      simp only [List.cons_append, partArea] at ih ⊢
      rw [ih]; ring

theorem valued_snoc (l : List (Pt ℚ)) (p : Pt ℚ) : Valued (l ++ [p]) = (Valued l || p.2.isSome) := by
  simp [Valued]

theorem partArea_none {l : List (Pt ℚ)} (h : Valued l = false) : partArea l = 0 := by
  induction l with
  | nil => rfl
  | cons a l ih =>
    cases l with
    | nil => rfl
    | cons b l =>
      simp only [Valued, List.any_cons, Bool.or_eq_false_iff] at h ih
      obtain ⟨h1, h2⟩ := h
      rw [partArea, ih h2]
      have : a.2 = none := by simpa using h1
      simp [jointArea, this]

/-- What the integral has after some points. -/
theorem stepFold_holes (l : List (Pt ℚ)) :
    stepFold (areaStep .linear) none none l = if Valued l then some (partArea l) else none := by
  induction l using List.reverseRecOn with
  | nil => rfl
  | append_singleton l p ih =>
    rw [stepFold_snoc, ih, valued_snoc, partArea_snoc]
    obtain ⟨x, y⟩ := p
    cases y with
    | none =>
      have : (match l.getLast? with | some q => jointArea q (x, none) | none => 0) = 0 := by
        cases l.getLast? with
        | none => rfl
        | some q => obtain ⟨a, b⟩ := q; cases b <;> rfl
      simp [areaStep, this]
    | some y =>
      simp only [areaStep, Option.isSome_some, Bool.or_true, if_true]
      have hgd : (if Valued l then some (partArea l) else none : Option ℚ).getD 0 = partArea l := by
        cases hv : Valued l with
        | true => rfl
        | false => simp [partArea_none hv]
      cases l.getLast? with
      | none => simp [hgd]
      | some q =>
        obtain ⟨a, b⟩ := q
        cases b with
        | none => simp [hgd, jointArea]
        | some b => simp [hgd, jointArea, areaBetween]

theorem stretch_cut {s j k : ℕ} (hs : s ≤ j) (hj : j ≤ k) {q : Pt ℚ} (hq : P[j]? = some q) :
    partArea (stretch P s k) = partArea (stretch P s j) + partArea (stretch P j k) ∧
      (Valued (stretch P s j) = true → Valued (stretch P s k) = true) := by
  have hl := (List.getElem?_eq_some_iff.1 hq).1
  have h1 : stretch P j k = q :: (P.take (k + 1)).drop (j + 1) := by
    unfold stretch
    rw [List.drop_eq_getElem_cons (by rw [List.length_take]; omega)]
    congr 1
    rw [List.getElem_take]
    exact (List.getElem?_eq_some_iff.1 hq).2
  have h2 : stretch P s j = (P.take j).drop s ++ [q] := by
    unfold stretch
    rw [take_succ_of_getElem? hq, List.drop_append_of_le_length (by rw [List.length_take]; omega)]
  have h3 : stretch P s k = (P.take j).drop s ++ stretch P j k := by
    have : P.take (k + 1) = P.take j ++ stretch P j k := by
      unfold stretch
      conv_lhs => rw [← List.take_append_drop j (P.take (k + 1))]
      rw [List.take_take, Nat.min_eq_left (by omega)]
    unfold stretch at this ⊢
    conv_lhs => rw [this]
    rw [List.drop_append_of_le_length (by rw [List.length_take]; omega)]
  constructor
  · rw [h3, h2, h1, partArea_split]
  · rw [h3, h2, h1]
    simp only [Valued, List.any_append, List.any_cons, List.any_nil, Bool.or_false, Bool.or_eq_true]
    tauto

/-- Two values of the integral, one after the other; the second is not asked for if there is no first. -/
theorem slope_holes (hm : minStepQ ≤ m) (hw : Fits m w) {skip seen todo : List (Pt ℚ)} (s0 : SmaSound w m u A skip seen todo)
    (hP : A.src.points = P) {i j k : ℕ} (hjk : j ≤ k) {o p q : Pt ℚ} (hi : P[i]? = some o) (hj : P[j]? = some p) (hk : P[k]? = some q)
    (hs : smaStart A.src w m p.1 = .ok (some (.fin o.1))) :
    ∃ o1 s, superY w A p.1 = some o1 ∧ Ok w m u P o1.st ∧ s ≤ i ∧ (seen = [] → s = i) ∧
      o1.res = .ok (if Valued (stretch P s j) then some (partArea (stretch P s j)) else none) ∧
      ∃ o2, superY w o1.st q.1 = some o2 ∧ Ok w m u P o2.st ∧
        o2.res = .ok (if Valued (stretch P s k) then some (partArea (stretch P s k)) else none) := by
  have hm0 : (0 : ℚ) < m := lt_of_lt_of_le (by norm_num [minStepQ]) hm
  have hj' : A.src.points[j]? = some p := by rw [hP]; exact hj
  obtain ⟨o1, skip1, seen1, todo1, a, qa, r1, r2, r3, r4, r5, r6, r7, r8, r9, _, r11⟩ := superY_full hm hw s0 hj'
  have hai : a = i := by
    rw [hs] at r6
    simp only [Except.ok.injEq, Option.some.injEq, Ext.fin.injEq] at r6
    exact s0.src.wf.asc.inj r4 (by rw [hP]; exact hi) r6.symm
  subst hai
  have hP1 : o1.st.src.points = P := r2.trans hP
  have hk' : o1.st.src.points[k]? = some q := by rw [hP1]; exact hk
  obtain ⟨o2, skip2, seen2, todo2, b, qb, t1, t2, t3, t4, t5, t6, t7, t8, t9, t10⟩ := superY_spec hm hw r3 hk'
  have hab : a ≤ b := by
    have hst : smaStart o1.st.src w m p.1 = .ok (some (.fin qa.1)) := by
      rw [← r6]
      cases w with
      | period per => simp only [smaStart, honest_next s0.src, honest_next r3.src, r2]
      | degree n => simp only [smaStart, stepBack_congr r3.src s0.src r2]
    have h1 := start_mono r3.src hm0 r3.gapped (show o1.st.src.points[j]? = some p by rw [hP1]; exact hj) hk' hjk hst t6
    by_contra hc
    have h2 := r3.src.wf.asc.lt t4 (by rw [r2]; exact r4) (by omega)
    linarith
  have hskip : skip2 = skip1 := t10 r7 (by omega)
  refine ⟨o1, skip1.length, r1, ⟨hP1, _, _, _, r3⟩, r8, r11, ?_, o2, t1, ⟨t2.trans hP1, _, _, _, t3⟩, ?_⟩
  · rw [r9, stepFold_holes, hP]; rfl
  · rw [t9, stepFold_holes, hP1, hskip]; rfl

/-- The answer at a knot, if the window found is the right one. -/
theorem smaY_holes (hm : minStepQ ≤ m) (hw : Fits m w) {skip seen todo : List (Pt ℚ)} (s0 : SmaSound w m u A skip seen todo)
    (hP : A.src.points = P) {i j k : ℕ} (hjk : j < k) {o p q : Pt ℚ} (hi : P[i]? = some o) (hj : P[j]? = some p) (hk : P[k]? = some q)
    (hd : ∃ d, smaDomain A.src w m = .ok d ∧ d.contains (.fin q.1) = true)
    (ho : ∀ s, Honest s → s.points = P → smaStart s w m p.1 = .ok (some (.fin o.1)))
    (hs : ∀ s, Honest s → s.points = P → smaStart s w m q.1 = .ok (some (.fin p.1)))
    (he : ∀ s, Honest s → s.points = P → smaEnd s w m p.1 = .ok (some (.fin q.1))) (fuel : ℕ) :
    ∃ out s, smaY w (fuel + 1) A (.fin q.1) = some out ∧ Ok w m u P out.st ∧ s ≤ i ∧ (seen = [] → s = i) ∧
      out.res = .ok (if Valued (stretch P s j) then some (partArea (stretch P j k) / (q.1 - p.1)) else none) := by
  obtain ⟨B, d, hB, hdB, hBp, sB⟩ := smaTouch_spec s0
  obtain ⟨d', hd', hcon⟩ := hd
  rw [hdB] at hd'
  cases hd'
  have hBP : B.src.points = P := hBp.trans hP
  have hasc : Ascending P := by rw [← hBP]; exact sB.src.wf.asc
  have hpq : p.1 < q.1 := hasc.lt hj hk hjk
  obtain ⟨o1, s, r1, r2, r3, r4, r5, o2, r6, r7, r8⟩ := slope_holes hm hw sB hBP hjk.le hi hj hk (ho _ sB.src hBP)
  have hne1 : (p.1 = q.1) = False := by simp [hpq.ne]
  have hne2 : (q.1 = p.1) = False := by simp [hpq.ne']
  unfold smaY
  simp only [hB, hcon, Bool.not_true, Bool.false_eq_true, if_false, sB.step, hs _ sB.src hBP, finPart, he _ sB.src hBP,
    Option.some.injEq, hne1, hne2, decide_false, Bool.or_false, r1]
  have hli := (List.getElem?_eq_some_iff.1 hi).1
  have hsj : s ≤ j := by
    have hij : i ≤ j := by
      by_contra hc
      obtain ⟨j', q', hjk', hj', hst'⟩ := start_knot sB.src (lt_of_lt_of_le (by norm_num [minStepQ]) hm) sB.gapped hw
        (show B.src.points[j]? = some p by rw [hBP]; exact hj)
      rw [ho _ sB.src hBP] at hst'
      simp only [Except.ok.injEq, Option.some.injEq, Ext.fin.injEq] at hst'
      have := hasc.inj hi (by rw [← hBP]; exact hj') hst'
      omega
    omega
  cases hv : Valued (stretch P s j) with
  | false =>
    rw [hv] at r5
    simp only [Bool.false_eq_true, if_false] at r5 ⊢
    simp only [whenSome, r5]
    exact ⟨_, s, rfl, r2, r3, r4, by simp [hv]⟩
  | true =>
    obtain ⟨c1, c2⟩ := stretch_cut hsj hjk.le hj
    rw [hv] at r5
    rw [c2 hv] at r8
    simp only [if_true] at r5 r8
    simp only [whenSome, r5, r6, r8, answer, if_true, Option.map_some]
    refine ⟨_, s, rfl, r7, r3, r4, ?_⟩
    simp only [hv, if_true, c1, add_sub_cancel_left]

/-! ## A number of points -/

/-- The answer at a knot, where the scan is in any state. -/
theorem degree_holes (hm : minStepQ ≤ m) {n : ℕ} (hn : 2 ≤ n) {skip seen todo : List (Pt ℚ)}
    (s0 : SmaSound (.degree n) m u A skip seen todo) (hP : A.src.points = P) {k : ℕ} {p q : Pt ℚ} (hj : P[k + 1 - n]? = some p)
    (hk : P[k]? = some q) (hnk : n ≤ k + 1) (fuel : ℕ) :
    ∃ out s, smaY (.degree n) (fuel + 1) A (.fin q.1) = some out ∧ Ok (.degree n) m u P out.st ∧ s ≤ k + 1 - n - (n - 1) ∧
      (seen = [] → s = k + 1 - n - (n - 1)) ∧
      out.res = .ok (if Valued (stretch P s (k + 1 - n)) then some (partArea (stretch P (k + 1 - n) k) / (q.1 - p.1)) else none) := by
  have hm0 : (0 : ℚ) < m := lt_of_lt_of_le (by norm_num [minStepQ]) hm
  have hlk := (List.getElem?_eq_some_iff.1 hk).1
  have hg : Gapped m P := by rw [← hP]; exact s0.gapped
  have hi : P[k + 1 - n - (n - 1)]? = some P[k + 1 - n - (n - 1)] := List.getElem?_eq_getElem _
  have hstart : ∀ {a b : ℕ} {x y : Pt ℚ}, P[a]? = some x → P[b]? = some y → b = a - (n - 1) → ∀ s : Pts ℚ, Honest s → s.points = P →
      smaStart s (.degree n) m x.1 = .ok (some (.fin y.1)) := by
    intro a b x y ha hb hab s hs hp
    subst hab
    have := stepBack_knot hs hm0 (by rw [hp]; exact hg) (n - 1) a _ _ (by rw [hp]; exact ha) (by rw [hp]; exact hb)
    simp only [smaStart, this]
  refine smaY_holes hm (show Fits m (.degree n) from by unfold Fits; omega) s0 hP (by omega) hi hj hk ?_ (hstart hj hi rfl)
    (hstart hk hj (by omega)) ?_ fuel
  · obtain ⟨d, h1, h2⟩ := degree_domain s0.src hm0 s0.gapped n q.1
    refine ⟨d, h1, h2.2 ?_⟩
    rw [hP]
    have ha : P[n - 1]? = some P[n - 1] := List.getElem?_eq_getElem _
    have hb : P[P.length - 1]? = some P[P.length - 1] := List.getElem?_eq_getElem _
    have hasc : Ascending P := by rw [← hP]; exact s0.src.wf.asc
    exact ⟨_, _, ha, hb, hasc.le ha hk (by omega), hasc.le hk hb (by omega)⟩
  · intro s hs hp
    have h2 : s.points[min (k + 1 - n + (n - 1)) (s.points.length - 1)]? = some q := by
      rw [hp, Nat.min_eq_left (by omega), show k + 1 - n + (n - 1) = k from by omega]
      exact hk
    have := stepOn_knot hs hm0 (by rw [hp]; exact hg) (n - 1) (k + 1 - n) _ _ (by rw [hp]; exact hj) h2
    simp only [smaEnd, this]

/-- C166: over points with and without values, whatever was asked before, an average over `n` points is at the knot number
`k` either the areas between those neighbours in its window that both have values, divided by the width of the whole window, or
there is none: if there is no value among the points from some number `s` on, which is at most `k - 2(n - 1)`, up to the first of the
window. -/
theorem C166_answer (hm : minStepQ ≤ m) {n : ℕ} (hn : 2 ≤ n) (h : Averaging (.degree n) m u A) {k : ℕ} {p q : Pt ℚ}
    (hj : A.src.points[k + 1 - n]? = some p) (hk : A.src.points[k]? = some q) (hnk : n ≤ k + 1) (fuel : ℕ) :
    ∃ s ≤ k + 1 - n - (n - 1), (smaY (.degree n) (fuel + 1) A (.fin q.1)).map Out.res =
      some (.ok (if Valued (stretch A.src.points s (k + 1 - n))
        then some (partArea (stretch A.src.points (k + 1 - n) k) / (q.1 - p.1)) else none)) := by
  obtain ⟨_, skip, seen, todo, s0⟩ := averaging_ok hm (show Fits m (.degree n) from by unfold Fits; omega) h
  obtain ⟨out, s, h1, _, h2, _, h3⟩ := degree_holes hm hn s0 rfl hj hk hnk fuel
  exact ⟨s, h2, by rw [h1, Option.map_some, h3]⟩

/-- C166: if the first point of the window has a value, there is an average, and it does not depend on what was asked before. -/
theorem C166_value (hm : minStepQ ≤ m) {n : ℕ} (hn : 2 ≤ n) (h : Averaging (.degree n) m u A) {k : ℕ} {p q : Pt ℚ} {y : ℚ}
    (hj : A.src.points[k + 1 - n]? = some p) (hk : A.src.points[k]? = some q) (hnk : n ≤ k + 1) (hy : p.2 = some y) (fuel : ℕ) :
    (smaY (.degree n) (fuel + 1) A (.fin q.1)).map Out.res =
      some (.ok (some (partArea (stretch A.src.points (k + 1 - n) k) / (q.1 - p.1)))) := by
  obtain ⟨s, hs, h1⟩ := C166_answer hm hn h hj hk hnk fuel
  rw [h1, if_pos]
  unfold stretch Valued
  rw [List.any_eq_true]
  refine ⟨p, ?_, by rw [hy]; rfl⟩
  refine List.mem_of_getElem? (i := k + 1 - n - s) ?_
  rw [List.getElem?_drop, List.getElem?_take_of_lt (by omega), show s + (k + 1 - n - s) = k + 1 - n from by omega]
  exact hj

/-- C166: as long as no point up to the first of the window has a value there is none. -/
theorem C166_none (hm : minStepQ ≤ m) {n : ℕ} (hn : 2 ≤ n) (h : Averaging (.degree n) m u A) {k : ℕ} {p q : Pt ℚ}
    (hj : A.src.points[k + 1 - n]? = some p) (hk : A.src.points[k]? = some q) (hnk : n ≤ k + 1)
    (hv : ∀ r ∈ A.src.points.take (k + 1 - n + 1), r.2 = none) (fuel : ℕ) :
    (smaY (.degree n) (fuel + 1) A (.fin q.1)).map Out.res = some (.ok none) := by
  obtain ⟨s, hs, h1⟩ := C166_answer hm hn h hj hk hnk fuel
  rw [h1, if_neg]
  rw [Bool.not_eq_true]
  unfold stretch Valued
  rw [List.any_eq_false]
  intro r hr
  simp [hv r (List.mem_of_mem_drop hr)]

/-- C166: of an average that has just been made, the answer depends on the points from number `k - 2(n - 1)` to the first of the
window. -/
theorem C166_fresh (hm : minStepQ ≤ m) {n : ℕ} (hn : 2 ≤ n) {src : Pts ℚ} (hs : Honest src) (hf : AllFit m u src.points)
    (h : Sma.new src (.degree n) m u = .ok A) {k : ℕ} {p q : Pt ℚ}
    (hj : src.points[k + 1 - n]? = some p) (hk : src.points[k]? = some q) (hnk : n ≤ k + 1) (fuel : ℕ) :
    (smaY (.degree n) (fuel + 1) A (.fin q.1)).map Out.res =
      some (.ok (if Valued (stretch src.points (k + 1 - n - (n - 1)) (k + 1 - n))
        then some (partArea (stretch src.points (k + 1 - n) k) / (q.1 - p.1)) else none)) := by
  unfold Sma.new at h
  split at h
  · cases h
    obtain ⟨out, s, h1, _, h2, h3, h4⟩ := degree_holes hm hn (SmaSound.new (w := .degree n) hs hf) rfl hj hk hnk fuel
    rw [h1, Option.map_some, h4, h3 rfl]
    rfl
  · cases h

/-! ## A length of time -/

theorem period_start {per a d : ℚ} {n : ℕ} (hd : 0 < d) (hlo : (n - 1) * d + m ≤ per) (hhi : per < n * d + m)
    (he : ∀ (i : ℕ) r, P[i]? = some r → r.1 = a + i * d) {i j : ℕ} {p q : Pt ℚ} (hi : P[i]? = some p) (hj : P[j]? = some q)
    (hij : i = j - (n - 1)) (hn : 1 ≤ n) (s : Pts ℚ) (hs : Honest s) (hp : s.points = P) :
    smaStart s (.period per) m q.1 = .ok (some (.fin p.1)) := by
  have hn1 : (1 : ℚ) ≤ n := by exact_mod_cast hn
  have hasc : Ascending P := by rw [← hp]; exact hs.wf.asc
  simp only [smaStart]
  rw [honest_next hs, hp, firstFrom_eq_some hasc hi]
  · rfl
  · rw [he _ _ hi, he _ _ hj]
    have h1 : (j : ℚ) - (n - 1) ≤ i := by
      have : j ≤ i + (n - 1) := by omega
      have : (j : ℚ) ≤ ((i + (n - 1) : ℕ) : ℚ) := by exact_mod_cast this
      rw [Nat.cast_add, Nat.cast_sub hn] at this
      push_cast at this
      linarith
    nlinarith
  · intro c z hc hz
    rw [he _ _ hz, he _ _ hj]
    have h1 : c + n ≤ j := by omega
    have h2 : ((c + n : ℕ) : ℚ) ≤ j := by exact_mod_cast h1
    push_cast at h2
    nlinarith

/-- C166: an average over a length of time that `n` equally spaced points span is the one over `n` points, whatever values are
missing. -/
theorem period_holes (hm : minStepQ ≤ m) {per a d : ℚ} {n : ℕ} (hn : 2 ≤ n) (hd : 0 < d) (hlo : (n - 1) * d + m ≤ per)
    (hhi : per < n * d + m) {skip seen todo : List (Pt ℚ)}
    (s0 : SmaSound (.period per) m u A skip seen todo) (hP : A.src.points = P)
    (he : ∀ (i : ℕ) r, P[i]? = some r → r.1 = a + i * d) {k : ℕ} {p q : Pt ℚ} (hj : P[k + 1 - n]? = some p)
    (hk : P[k]? = some q) (hnk : n ≤ k + 1) (fuel : ℕ) :
    ∃ out s, smaY (.period per) (fuel + 1) A (.fin q.1) = some out ∧ Ok (.period per) m u P out.st ∧ s ≤ k + 1 - n - (n - 1) ∧
      (seen = [] → s = k + 1 - n - (n - 1)) ∧
      out.res = .ok (if Valued (stretch P s (k + 1 - n)) then some (partArea (stretch P (k + 1 - n) k) / (q.1 - p.1)) else none) := by
  have hn1 : (2 : ℚ) ≤ n := by exact_mod_cast hn
  have hm0 : (0 : ℚ) < m := lt_of_lt_of_le (by norm_num [minStepQ]) hm
  have hlk := (List.getElem?_eq_some_iff.1 hk).1
  have hasc : Ascending P := by rw [← hP]; exact s0.src.wf.asc
  have hi : P[k + 1 - n - (n - 1)]? = some P[k + 1 - n - (n - 1)] := List.getElem?_eq_getElem _
  have h0 : P[0]? = some P[0] := List.getElem?_eq_getElem _
  have h1 : P[n - 1]? = some P[n - 1] := List.getElem?_eq_getElem _
  have hz : P[P.length - 1]? = some P[P.length - 1] := List.getElem?_eq_getElem _
  refine smaY_holes hm (show Fits m (.period per) from by show m ≤ per; nlinarith) s0 hP (by omega) hi hj hk ?_
    (period_start hd hlo hhi he hi hj rfl (by omega)) (period_start hd hlo hhi he hj hk (by omega) (by omega)) ?_ fuel
  · have hdv := getDomain_ends (pts := P) h0 hz
    have hee := getDomain_not_isEmpty hasc (List.ne_nil_of_mem (List.mem_of_getElem? hk))
    have hcn : ((n - 1 : ℕ) : ℚ) = n - 1 := by rw [Nat.cast_sub (by omega)]; norm_num
    have hprev : A.src.xPrevious (.fin ((P[0]).1 + per)) (some m) = .ok (some (.fin (P[n - 1]).1)) := by
      rw [honest_prev s0.src, hP, lastUpTo_eq_some hasc h1]
      · rfl
      · rw [he _ _ h1, he _ _ h0, hcn]; push_cast; nlinarith
      · intro i z hi hz
        rw [he _ _ hz, he _ _ h0]
        have : (n : ℚ) ≤ i := by exact_mod_cast (by omega : n ≤ i)
        push_cast
        nlinarith
    have hle : (P[n - 1]).1 ≤ (P[P.length - 1]).1 := hasc.le h1 hz (by omega)
    refine ⟨Iv.closed (P[n - 1]).1 (P[P.length - 1]).1, ?_, ?_⟩
    · unfold smaDomain
      rw [s0.src.wf.domVal, hP, hee, hdv]
      simp only [Iv.closed, Bool.false_eq_true, if_false, hprev, domainFrom, add_sub_cancel, not_lt.2 hle]
    · have e1 := hasc.le h1 hk (by omega)
      have e2 := hasc.le hk hz (by omega)
      simp [Iv.contains_closed, e1, e2]
  · intro s hs hp
    simp only [smaEnd]
    have hcast : ((k + 1 - n : ℕ) : ℚ) = k + 1 - n := by
      rw [Nat.cast_sub hnk]; push_cast; ring
    rw [honest_prev hs, hp, lastUpTo_eq_some hasc hk]
    · rfl
    · rw [he _ _ hk, he _ _ hj, hcast]; nlinarith
    · intro i z hi hz
      rw [he _ _ hz, he _ _ hj, hcast]
      have : (k : ℚ) + 1 ≤ i := by exact_mod_cast hi
      nlinarith

/-- C166: the same for an average over a length of time, after any history. -/
theorem C166_period_partial (hm : minStepQ ≤ m) {per a d : ℚ} {n : ℕ} (hn : 2 ≤ n) (hd : 0 < d) (hlo : (n - 1) * d + m ≤ per)
    (hhi : per < n * d + m) (h : Averaging (.period per) m u A)
    (he : ∀ (i : ℕ) r, A.src.points[i]? = some r → r.1 = a + i * d) {k : ℕ} {p q : Pt ℚ}
    (hj : A.src.points[k + 1 - n]? = some p) (hk : A.src.points[k]? = some q) (hnk : n ≤ k + 1) (fuel : ℕ) :
    ∃ s ≤ k + 1 - n - (n - 1), (smaY (.period per) (fuel + 1) A (.fin q.1)).map Out.res =
      some (.ok (if Valued (stretch A.src.points s (k + 1 - n))
        then some (partArea (stretch A.src.points (k + 1 - n) k) / (q.1 - p.1)) else none)) := by
  have hn1 : (2 : ℚ) ≤ n := by exact_mod_cast hn
  have hm0 : (0 : ℚ) < m := lt_of_lt_of_le (by norm_num [minStepQ]) hm
  obtain ⟨_, skip, seen, todo, s0⟩ := averaging_ok hm (show Fits m (.period per) from by show m ≤ per; nlinarith) h
  obtain ⟨out, s, h1, _, h2, _, h3⟩ := period_holes hm hn hd hlo hhi s0 rfl he hj hk hnk fuel
  exact ⟨s, h2, by rw [h1, Option.map_some, h3]⟩

/-- C166: of an average over a length of time that has just been made. -/
theorem C166_period_fresh_partial (hm : minStepQ ≤ m) {per a d : ℚ} {n : ℕ} (hn : 2 ≤ n) (hd : 0 < d) (hlo : (n - 1) * d + m ≤ per)
    (hhi : per < n * d + m) {src : Pts ℚ} (hs : Honest src) (hf : AllFit m u src.points)
    (h : Sma.new src (.period per) m u = .ok A) (he : ∀ (i : ℕ) r, src.points[i]? = some r → r.1 = a + i * d) {k : ℕ} {p q : Pt ℚ}
    (hj : src.points[k + 1 - n]? = some p) (hk : src.points[k]? = some q) (hnk : n ≤ k + 1) (fuel : ℕ) :
    (smaY (.period per) (fuel + 1) A (.fin q.1)).map Out.res =
      some (.ok (if Valued (stretch src.points (k + 1 - n - (n - 1)) (k + 1 - n))
        then some (partArea (stretch src.points (k + 1 - n) k) / (q.1 - p.1)) else none)) := by
  unfold Sma.new at h
  split at h
  · cases h
    obtain ⟨out, s, h1, _, h2, h3, h4⟩ := period_holes hm hn hd hlo hhi (SmaSound.new (w := .period per) hs hf) rfl he hj hk hnk fuel
    rw [h1, Option.map_some, h4, h3 rfl]
    rfl
  · cases h

/-! ## What it is -/

theorem partArea_bounds {lo hi : ℚ} : ∀ (l : List (Pt ℚ)), Ascending l → (∀ x y, (x, some y) ∈ l → lo ≤ y ∧ y ≤ hi) →
    lo * coveredBy l ≤ partArea l ∧ partArea l ≤ hi * coveredBy l ∧ 0 ≤ coveredBy l ∧ coveredBy l ≤ apartBy l
  | [], _, _ => by simp [partArea, coveredBy, apartBy]
  | [p], _, _ => by simp [partArea, coveredBy, apartBy]
  | p :: q :: ps, ha, hb => by
    have hlt : p.1 < q.1 := List.rel_of_pairwise_cons ha (List.mem_cons_self ..)
    obtain ⟨h1, h2, h3, h4⟩ := partArea_bounds (q :: ps) (List.Pairwise.of_cons ha) fun x y h => hb x y (List.mem_cons_of_mem _ h)
    have hap : apartBy (p :: q :: ps) = (q.1 - p.1) + apartBy (q :: ps) := by
      simp only [apartBy, List.head?_cons, List.getLast?_cons_cons]
      cases hg : (q :: ps).getLast? with
      | none => simp at hg
      | some r => simp only; ring
    rw [hap]
    obtain ⟨x, y⟩ := p
    obtain ⟨x', y'⟩ := q
    simp only at hlt
    cases y with
    | none =>
      simp only [partArea, jointArea, coveredBy, Option.isSome_none, Bool.false_and, Bool.false_eq_true, if_false, zero_add]
      exact ⟨h1, h2, h3, by linarith⟩
    | some y =>
      cases y' with
      | none =>
        simp only [partArea, jointArea, coveredBy, Option.isSome_none, Bool.and_false, Bool.false_eq_true, if_false, zero_add]
        exact ⟨h1, h2, h3, by linarith⟩
      | some y' =>
        obtain ⟨a1, a2⟩ := hb x y (by simp)
        obtain ⟨b1, b2⟩ := hb x' y' (by simp)
        simp only [partArea, jointArea, coveredBy, Option.isSome_some, Bool.and_self, if_true]
        refine ⟨?_, ?_, by linarith, by linarith⟩ <;> nlinarith

theorem stretch_apart {j k : ℕ} {p q : Pt ℚ} (hjk : j ≤ k) (hj : P[j]? = some p) (hk : P[k]? = some q) :
    apartBy (stretch P j k) = q.1 - p.1 := by
  have hlk := (List.getElem?_eq_some_iff.1 hk).1
  have h1 : ((P.take (k + 1)).drop j).head? = some p := by
    rw [List.head?_drop, List.getElem?_take_of_lt (by omega), hj]
  have h2 : ((P.take (k + 1)).drop j).getLast? = some q := by
    rw [take_succ_of_getElem? hk, List.drop_append_of_le_length (by rw [List.length_take]; omega)]
    simp
  simp [apartBy, stretch, h1, h2]

/-- C166: every average is within the bounds of the values of its window, multiplied by the part of its width that lies between
neighbours with values. -/
theorem C166_bounds (hm : minStepQ ≤ m) {n : ℕ} (hn : 2 ≤ n) (h : Averaging (.degree n) m u A) {k : ℕ} {p q : Pt ℚ} {v lo hi : ℚ}
    (hj : A.src.points[k + 1 - n]? = some p) (hk : A.src.points[k]? = some q) (hnk : n ≤ k + 1) (fuel : ℕ)
    (hv : (smaY (.degree n) (fuel + 1) A (.fin q.1)).map Out.res = some (.ok (some v)))
    (hb : ∀ x y, (x, some y) ∈ stretch A.src.points (k + 1 - n) k → lo ≤ y ∧ y ≤ hi) :
    let part := coveredBy (stretch A.src.points (k + 1 - n) k) / (q.1 - p.1)
    0 ≤ part ∧ part ≤ 1 ∧ lo * part ≤ v ∧ v ≤ hi * part := by
  intro part
  obtain ⟨_, skip, seen, todo, s0⟩ := averaging_ok hm (show Fits m (.degree n) from by unfold Fits; omega) h
  have hasc := s0.src.wf.asc
  have hlt : 0 < q.1 - p.1 := sub_pos.2 (hasc.lt hj hk (by omega))
  obtain ⟨s, _, h1⟩ := C166_answer hm hn h hj hk hnk fuel
  rw [hv] at h1
  have hv' : v = partArea (stretch A.src.points (k + 1 - n) k) / (q.1 - p.1) := by
    split at h1
    · simpa using h1
    · simp at h1
  have hsub : Ascending (stretch A.src.points (k + 1 - n) k) :=
    List.Pairwise.sublist ((List.drop_sublist _ _).trans (List.take_sublist _ _)) hasc
  obtain ⟨b1, b2, b3, b4⟩ := partArea_bounds _ hsub hb
  rw [stretch_apart (by omega) hj hk] at b4
  refine ⟨div_nonneg b3 hlt.le, (div_le_one hlt).2 b4, ?_, ?_⟩
  · rw [hv', ← mul_div_assoc]; exact div_le_div_of_nonneg_right b1 hlt.le
  · rw [hv', ← mul_div_assoc]; exact div_le_div_of_nonneg_right b2 hlt.le

/-- C166: of constant values the average is not the constant, but that part of it. -/
theorem C166_constant (hm : minStepQ ≤ m) {n : ℕ} (hn : 2 ≤ n) (h : Averaging (.degree n) m u A) {k : ℕ} {p q : Pt ℚ} {c v : ℚ}
    (hj : A.src.points[k + 1 - n]? = some p) (hk : A.src.points[k]? = some q) (hnk : n ≤ k + 1) (fuel : ℕ)
    (hv : (smaY (.degree n) (fuel + 1) A (.fin q.1)).map Out.res = some (.ok (some v)))
    (hc : ∀ x y, (x, some y) ∈ stretch A.src.points (k + 1 - n) k → y = c) :
    v = c * (coveredBy (stretch A.src.points (k + 1 - n) k) / (q.1 - p.1)) := by
  obtain ⟨_, _, h1, h2⟩ := C166_bounds (lo := c) (hi := c) hm hn h hj hk hnk fuel hv fun x y hx => by rw [hc x y hx]; simp
  exact le_antisymm h2 h1

theorem partArea_defined (l : List (ℚ × ℚ)) : partArea (defined l) = totalArea .linear l := by
  induction l with
  | nil => rfl
  | cons p l ih =>
    cases l with
    | nil => rfl
    | cons q l =>
      simp only [defined, List.map_cons] at ih ⊢
      rw [partArea, ih, totalArea]
      rfl

/-- C166: without missing values this is the mean height of C49. -/
theorem C166_whole {l : List (ℚ × ℚ)} (h : 2 ≤ l.length) : partArea (defined l) / apartBy (defined l) = meanHeight l := by
  rw [partArea_defined]
  have h1 : apartBy (defined l) = width l := by
    unfold apartBy width defined
    rw [List.head?_map, List.getLast?_map]
    cases l.head? <;> cases l.getLast? <;> rfl
  rw [h1]
  unfold meanHeight
  split
  · simp at h
  · rfl

/-! ## Examples -/

def holePts : List (Pt ℚ) := [(0, some 5), (1, none), (2, some 5), (3, some 5), (4, none), (5, none), (6, some 5)]

theorem hole_averaging (n : ℕ) (hn : 0 < n) : Averaging (.degree n) 1 true (smaOver holePts 1) :=
  smaOver_averaging (by simp [Window.valid, hn]) (by norm_num [Ascending, holePts]) ⟨1, by norm_num [holePts]⟩ (by decide +kernel)
    (by decide +kernel) (by norm_num [Gapped, holePts])

theorem hole_points : (smaOver holePts 1).src.points = holePts := by decide +kernel

/-- **Of constant values the average is not the constant**: with one of four values missing it is a third of it. -/
theorem C166_negation : Averaging (.degree 4) 1 true (smaOver holePts 1) ∧
    (smaY (.degree 4) 1 (smaOver holePts 1) (.fin 3)).map Out.res = some (.ok (some (5 / 3))) := by
  refine ⟨hole_averaging 4 (by norm_num), ?_⟩
  rw [C166_value (k := 3) (n := 4) (p := (0, some 5)) (q := (3, some 5)) (y := 5) (by norm_num [minStepQ]) (by norm_num)
    (hole_averaging 4 (by norm_num)) (by rw [hole_points]; rfl) (by rw [hole_points]; rfl) (by norm_num) rfl, hole_points]
  decide +kernel

/-- **The answer depends on what was asked before**: where the window begins without a value there is none, unless an earlier
question reached back to one. -/
theorem C166_order_negation :
    ((smaY (.degree 2) 1 (smaOver holePts 1) (.fin 6)).map Out.res = some (.ok none)) ∧
    ((smaY (.degree 2) 1 (smaOver holePts 1) (.fin 4)).bind fun o => (smaY (.degree 2) 1 o.st (.fin 6)).map Out.res) =
      some (.ok (some 0)) := by
  refine ⟨?_, ?_⟩ <;> decide +kernel

/-- A window that begins with a missing value: there is an average, because of the value before it. -/
example : (smaY (.degree 3) 1 (smaOver holePts 1) (.fin 6)).map Out.res = some (.ok (some 0)) ∧
    (smaY (.degree 2) 1 (smaOver holePts 1) (.fin 6)).map Out.res = some (.ok none) ∧
    Valued (stretch holePts 2 4) = true ∧ Valued (stretch holePts 4 5) = false := by
  refine ⟨?_, ?_, ?_, ?_⟩ <;> decide +kernel

example : (smaY (.degree 4) 1 (smaOver [(0, none), (1, none), (2, some 3), (3, some 4), (4, some 1)] 1) (.fin 4)).map Out.res =
    some (.ok none) := by decide +kernel

/-- A window of length 4 over points at distance 1: the average over four points, and none before a value was reached. -/
example : ∃ s ≤ 0, (smaY (.period 4) 1 (smaOver holePts 1) (.fin 3)).map Out.res =
    some (.ok (if Valued (stretch holePts s 0) then some (partArea (stretch holePts 0 3) / (3 - 0)) else none)) := by
  have h : Averaging (.period 4) 1 true (smaOver holePts 1) :=
    smaOver_averaging (by simp [Window.valid]) (by norm_num [Ascending, holePts]) ⟨1, by norm_num [holePts]⟩ (by decide +kernel)
      (by decide +kernel) (by norm_num [Gapped, holePts])
  have := C166_period_partial (n := 4) (a := 0) (d := 1) (per := 4) (k := 3) (p := (0, some 5)) (q := (3, some 5))
    (by norm_num [minStepQ]) (by norm_num) (by norm_num) (by norm_num) (by norm_num) h
    (by
      rw [hole_points]
      intro i r hr
      have hi := (List.getElem?_eq_some_iff.1 hr).1
      simp only [holePts, List.length_cons, List.length_nil] at hi
      rcases i with _ | _ | _ | _ | _ | _ | _ | i <;> simp [holePts] at hr <;> (subst hr; norm_num))
    (by rw [hole_points]; rfl) (by rw [hole_points]; rfl) (by norm_num) 0
  rwa [hole_points] at this

example : (smaY (.period 4) 1 (smaOver holePts 1) (.fin 3)).map Out.res = some (.ok (some (5 / 3))) ∧
    (smaY (.period 2) 1 (smaOver holePts 1) (.fin 6)).map Out.res = some (.ok none) := by
  refine ⟨?_, ?_⟩ <;> decide +kernel

example : coveredBy (stretch holePts 0 3) = 1 ∧ apartBy (stretch holePts 0 3) = 3 := by decide +kernel

end Props
end Curvepy
