import Verif.Lemmas.PointsNext

namespace Curvepy
open Spec
variable {V : Type}

theorem filter_eq_slice {α : Type} (P : α → Bool) (l : List α) (A B : ℕ)
    (h : ∀ i a, l[i]? = some a → (P a = true ↔ A ≤ i ∧ i < B)) :
    l.filter P = (l.take B).drop A := by
  induction l generalizing A B with
  | nil => simp
  | cons a l ih =>
    have h0 := h 0 a rfl
    cases B with
    | zero =>
      simp only [List.take_zero, List.drop_nil, List.filter_eq_nil_iff]
      intro x hx hP
      obtain ⟨i, hi⟩ := List.getElem?_of_mem hx
      have := (h i x hi).1 hP
      omega
    | succ B =>
      cases A with
      | zero =>
        have : P a = true := h0.2 (by omega)
        simp only [List.filter_cons, this, if_true, List.take_succ_cons, List.drop_zero]
        congr 1
        have := ih 0 B (fun i b hb => by
          have := h (i + 1) b (by simpa using hb)
          rw [this]; omega)
        simpa using this
      | succ A =>
        have : P a = false := by
          by_contra hp
          have := h0.1 (by simpa using hp); omega
        simp only [List.filter_cons, this, List.take_succ_cons, List.drop_succ_cons]
        exact ih A B (fun i b hb => by
          have := h (i + 1) b (by simpa using hb)
          rw [this]; omega)

theorem filter_not_eq_slice {α : Type} (P : α → Bool) (l : List α) (A B : ℕ) (hAB : A ≤ B)
    (h : ∀ i a, l[i]? = some a → (P a = true ↔ A ≤ i ∧ i < B)) :
    l.filter (fun a => !P a) = l.take A ++ l.drop B := by
  induction l generalizing A B with
  | nil => simp
  | cons a l ih =>
    have h0 := h 0 a rfl
    cases B with
    | zero =>
      have : A = 0 := by omega
      subst this
      simp only [List.take_zero, List.drop_zero, List.nil_append, List.filter_eq_self]
      intro x hx
      obtain ⟨i, hi⟩ := List.getElem?_of_mem hx
      by_contra hP
      have := (h i x hi).1 (by simpa using hP)
      omega
    | succ B =>
      cases A with
      | zero =>
        have : P a = true := h0.2 (by omega)
        simp only [List.filter_cons, this, Bool.not_true, Bool.false_eq_true, if_false,
          List.take_zero, List.drop_succ_cons, List.nil_append]
        have := ih 0 B (by omega) (fun i b hb => by
          have := h (i + 1) b (by simpa using hb)
          rw [this]; omega)
        simpa using this
      | succ A =>
        have : P a = false := by
          by_contra hp
          have := h0.1 (by simpa using hp); omega
        simp only [List.filter_cons, this, Bool.not_false, if_true, List.take_succ_cons,
          List.drop_succ_cons, List.cons_append]
        congr 1
        exact ih A B (by omega) (fun i b hb => by
          have := h (i + 1) b (by simpa using hb)
          rw [this]; omega)

namespace Pts

theorem stop_start_iff {dom : Iv} (hne : dom.isEmpty = false) (x : ℚ) :
    (dom.hi ≤ .fin x ∨ dom.contains (.fin x) = true) ↔ dom.geLo (.fin x) = true := by
  rw [Iv.not_isEmpty_iff] at hne
  rw [Iv.contains_iff, Iv.geLo_iff, Iv.leHi_iff]
  constructor
  · rintro (h | h)
    · rcases hne with hne | ⟨h1, h2, h3⟩
      · exact Or.inl (lt_of_lt_of_le hne h)
      · rcases h.lt_or_eq with h | h
        · exact Or.inl (h1 ▸ h)
        · exact Or.inr ⟨h1.trans h, h2⟩
    · exact h.1
  · intro h
    rcases lt_or_ge (Ext.fin x) dom.hi with hx | hx
    · exact Or.inr ⟨h, Or.inl hx⟩
    · exact Or.inl hx

theorem stop_end_iff {dom : Iv} (hne : dom.isEmpty = false) (x : ℚ) :
    (.fin x ≤ dom.lo ∨ dom.contains (.fin x) = true) ↔ dom.leHi (.fin x) = true := by
  rw [Iv.not_isEmpty_iff] at hne
  rw [Iv.contains_iff, Iv.geLo_iff, Iv.leHi_iff]
  constructor
  · rintro (h | h)
    · rcases hne with hne | ⟨h1, h2, h3⟩
      · exact Or.inl (lt_of_le_of_lt h hne)
      · rcases h.lt_or_eq with h | h
        · exact Or.inl (h1 ▸ h)
        · exact Or.inr ⟨h.trans h1, h3⟩
    · exact h.2
  · intro h
    rcases lt_or_ge dom.lo (Ext.fin x) with hx | hx
    · exact Or.inr ⟨Or.inl hx, h⟩
    · exact Or.inl hx

theorem geLo_mono_x {dom : Iv} {x y : ℚ} (h : x ≤ y) (hx : dom.geLo (.fin x) = true) :
    dom.geLo (.fin y) = true := by
  rw [Iv.geLo_iff] at *
  rcases hx with hx | ⟨hx, ho⟩
  · exact Or.inl (lt_of_lt_of_le hx (by simpa using h))
  · rcases h.lt_or_eq with h | h
    · exact Or.inl (by rw [hx]; simpa using h)
    · exact Or.inr ⟨by rw [hx, h], ho⟩

theorem leHi_mono_x {dom : Iv} {x y : ℚ} (h : x ≤ y) (hx : dom.leHi (.fin y) = true) :
    dom.leHi (.fin x) = true := by
  rw [Iv.leHi_iff] at *
  rcases hx with hx | ⟨hx, ho⟩
  · exact Or.inl (lt_of_le_of_lt (by simpa using h) hx)
  · rcases h.lt_or_eq with h | h
    · exact Or.inl (by rw [← hx]; simpa using h)
    · exact Or.inr ⟨by rw [← hx, h], ho⟩

theorem startScan_spec {dom : Iv} (hne : dom.isEmpty = false) (l : List (Pt V)) (h : Ascending l)
    (i : ℕ) : i ≤ startScan dom l i ∧ startScan dom l i ≤ i + l.length ∧
      ∀ (k : ℕ) (p : Pt V), l[k]? = some p →
        (i + k < startScan dom l i ↔ dom.geLo (.fin p.1) = false) := by
  induction l generalizing i with
  | nil => simp [startScan]
  | cons p ps ih =>
    by_cases hg : dom.geLo (.fin p.1) = true
    · have hs : startScan dom (p :: ps) i = i := by
        unfold startScan
        rcases (stop_start_iff hne p.1).2 hg with h1 | h1
        · rw [if_pos h1]
        · split
          · rfl
          · rfl
      rw [hs]
      refine ⟨le_rfl, by omega, ?_⟩
      intro k q hq
      have hle : p.1 ≤ q.1 := h.le (i := 0) (j := k) rfl hq (by omega)
      have := geLo_mono_x hle hg
      simp [this]
    · have hn := mt (stop_start_iff hne p.1).1 hg
      push Not at hn
      have hs : startScan dom (p :: ps) i = startScan dom ps (i + 1) := by
        rw [startScan, if_neg (not_le.2 hn.1), if_neg hn.2]
      rw [hs]
      obtain ⟨h1, h2, h3⟩ := ih h.tail (i + 1)
      refine ⟨by omega, by simp; omega, ?_⟩
      intro k q hq
      cases k with
      | zero =>
        simp at hq; subst hq
        have : dom.geLo (.fin p.1) = false := by simpa using hg
        simp [this]; omega
      | succ k =>
        rw [← h3 k q (by simpa using hq)]
        omega

theorem endScan_spec {dom : Iv} (hne : dom.isEmpty = false) (pts : List (Pt V)) (h : Ascending pts)
    (n : ℕ) (hn : n ≤ pts.length)
    (habove : ∀ (k : ℕ) (p : Pt V), pts[k]? = some p → n ≤ k → dom.leHi (.fin p.1) = false) :
    ∃ B, endScan dom pts n = .ok B ∧ B ≤ pts.length ∧
      ∀ (k : ℕ) (p : Pt V), pts[k]? = some p → (k < B ↔ dom.leHi (.fin p.1) = true) := by
  induction n with
  | zero =>
    refine ⟨0, rfl, by omega, ?_⟩
    intro k p hp
    simp [habove k p hp (by omega)]
  | succ n ih =>
    have hlt : n < pts.length := by omega
    rw [endScan, List.getElem?_eq_getElem hlt]
    by_cases hg : dom.leHi (.fin pts[n].1) = true
    · refine ⟨n + 1, ?_, by omega, ?_⟩
      · simp only
        rcases (stop_end_iff hne pts[n].1).2 hg with h1 | h1
        · rw [if_pos h1]
        · split
          · rfl
          · rfl
      · intro k p hp
        constructor
        · intro hk
          exact leHi_mono_x (h.le hp (List.getElem?_eq_getElem hlt) (by omega)) hg
        · intro hl
          by_contra hk
          simp [habove k p hp (by omega)] at hl
    · have hn' := mt (stop_end_iff hne pts[n].1).1 hg
      push Not at hn'
      simp only
      rw [if_neg (not_le.2 hn'.1), if_neg hn'.2]
      refine ih (by omega) ?_
      intro k p hp hk
      rcases hk.lt_or_eq with hk | rfl
      · exact habove k p hp hk
      · rw [List.getElem?_eq_getElem hlt] at hp
        cases hp
        simpa using hg

theorem sub_bounds {dom : Iv} {a b : ℚ} (hne : dom.isEmpty = false)
    (hs : Iv.superset (Iv.closed a b) dom = true) :
    ∃ l h : ℚ, dom.lo = .fin l ∧ dom.hi = .fin h ∧ a ≤ l ∧ l ≤ h ∧ h ≤ b := by
  rw [Iv.superset_iff_raw] at hs
  rcases hs with hs | ⟨_, h1, h2⟩
  · simp [hne] at hs
  rw [Iv.loLe_iff] at h1
  rw [Iv.hiGe_iff] at h2
  have hlo : Ext.fin a ≤ dom.lo := by
    rcases h1 with h1 | ⟨h1, _⟩
    · exact h1.le
    · exact le_of_eq h1
  have hhi : dom.hi ≤ Ext.fin b := by
    rcases h2 with h2 | ⟨h2, _⟩
    · exact h2.le
    · exact le_of_eq h2.symm
  have hlh : dom.lo ≤ dom.hi := by
    rcases (Iv.not_isEmpty_iff dom).1 hne with h | h
    · exact h.le
    · exact le_of_eq h.1
  cases hl : dom.lo with
  | ninf => rw [hl] at hlo; simp at hlo
  | pinf =>
    rw [hl] at hlh
    exact absurd (le_trans hlh hhi) (by simp)
  | fin l =>
    cases hh : dom.hi with
    | pinf => rw [hh] at hhi; simp at hhi
    | ninf =>
      rw [hl, hh] at hlh; simp at hlh
    | fin h =>
      rw [hl, hh] at hlh
      rw [hl] at hlo
      rw [hh] at hhi
      exact ⟨l, h, rfl, rfl, by simpa using hlo, by simpa using hlh, by simpa using hhi⟩

theorem inter_superset_right (a b : Iv) : Iv.superset b (Iv.inter a b) = true := by
  rw [Iv.superset_iff]
  intro x hx
  rw [Iv.contains_inter, Bool.and_eq_true] at hx
  exact hx.2

theorem pyClamp_nat {len n : ℕ} (h : n ≤ len) : pyClamp len (n : ℤ) = n := by
  simp only [pyClamp]
  rw [if_neg (by omega)]
  simp [h]

/-- What the two indexes of `_domain_indexes` mean. -/
theorem domainIndexes_spec {s : Pts V} (w : s.Wf) (hpts : s.points ≠ []) (d : Iv)
    (hns : d.superset s.domVal = false) (hint : (Iv.inter d s.domVal).isEmpty = false) :
    ∃ A B : ℕ, s.domainIndexes d = .ok ((A : ℤ), (B : ℤ)) ∧ A ≤ B ∧ B ≤ s.points.length ∧
      ∀ (i : ℕ) (p : Pt V), s.points[i]? = some p →
        (d.contains (.fin p.1) = true ↔ A ≤ i ∧ i < B) := by
  have hdv := w.domVal
  obtain ⟨p0, ps, hcons⟩ : ∃ p0 ps, s.points = p0 :: ps := List.exists_cons_of_ne_nil hpts
  have hdc : s.domVal = Iv.closed p0.1 (s.points.getLast hpts).1 := by
    rw [hdv]; simp only [hcons, getDomain]
  set dom := Iv.inter d s.domVal with hdom
  have hsub : Iv.superset (Iv.closed p0.1 (s.points.getLast hpts).1) dom = true := by
    rw [← hdc]; exact inter_superset_right _ _
  obtain ⟨l, h, hl, hh, hal, hlh, hhb⟩ := sub_bounds hint hsub
  have hlast := getLast_mem_idx hpts
  have h0 : s.points[0]? = some p0 := by simp [hcons]
  -- start index
  obtain ⟨v, hv, A, hA0, hA1, hA⟩ : ∃ v, s.xIndex l = .ok v ∧ ∃ A : ℕ,
      startScan dom (s.points.drop (max 0 ⌊v⌋).toNat) (max 0 ⌊v⌋).toNat = A ∧ A ≤ s.points.length ∧
      ∀ (i : ℕ) (p : Pt V), s.points[i]? = some p → (i < A ↔ dom.geLo (.fin p.1) = false) := by
    obtain ⟨v, k, hv, hkv, hkl, hklen⟩ : ∃ (v : ℚ) (k : ℕ), s.xIndex l = .ok v ∧ ⌊v⌋ = (k : ℤ) ∧
        (∀ (i : ℕ) (p : Pt V), s.points[i]? = some p → i < k → p.1 < l) ∧ k ≤ s.points.length := by
      cases locate s.points w.asc l with
      | before hb => have := hb p0 (by simp [hcons]); linarith
      | after ha => have := ha _ (List.getLast_mem hpts); linarith
      | knot k p hk hx =>
        refine ⟨k, k, xIndex_knot w hk hx, by simp, ?_, ((List.getElem?_eq_some_iff.1 hk).1).le⟩
        intro i q hq hi; rw [hx]; exact w.asc.lt hq hk hi
      | gap k p q hp hq hpx hxq =>
        have ⟨g0, g1⟩ := gap_frac hpx hxq
        refine ⟨_, k, xIndex_gap w hp hq hpx hxq, floor_nat_add g0.le g1, ?_,
          ((List.getElem?_eq_some_iff.1 hp).1).le⟩
        intro i r hr hi; exact (w.asc.lt hr hp hi).trans hpx
    refine ⟨v, hv, _, rfl, ?_⟩
    have hk' : (max 0 ⌊v⌋).toNat = k := by rw [hkv]; simp
    rw [hk']
    have hascd : Ascending (s.points.drop k) := w.asc.drop
    obtain ⟨s1, s2, s3⟩ := startScan_spec hint (s.points.drop k) hascd k
    refine ⟨by simp at s2; omega, ?_⟩
    intro i p hp
    by_cases hik : i < k
    · have : dom.geLo (.fin p.1) = false := by
        have := hkl i p hp hik
        by_contra hg
        have hg := (Iv.geLo_iff _ _).1 (by simpa using hg)
        rw [hl] at hg
        rcases hg with hg | ⟨hg, _⟩
        · simp at hg; linarith
        · simp at hg; linarith
      simp [this]; omega
    · have := s3 (i - k) p (by rw [List.getElem?_drop]; rw [← hp]; congr 1; omega)
      rw [← this]
      omega
  -- end index
  obtain ⟨v', hv', j, hj, B, hB0, hB1, hB⟩ : ∃ v', s.xIndex h = .ok v' ∧ ∃ j : ℕ,
      min (s.points.length : ℤ) ⌈v'⌉ = (j : ℤ) ∧ ∃ B : ℕ,
      endScan dom s.points (j + 1) = .ok B ∧ B ≤ s.points.length ∧
      ∀ (i : ℕ) (p : Pt V), s.points[i]? = some p → (i < B ↔ dom.leHi (.fin p.1) = true) := by
    obtain ⟨v', j, hv', hjv, hjl, hjlen⟩ : ∃ (v : ℚ) (k : ℕ), s.xIndex h = .ok v ∧ ⌈v⌉ = (k : ℤ) ∧
        (∀ (i : ℕ) (p : Pt V), s.points[i]? = some p → k < i → h < p.1) ∧ k < s.points.length := by
      cases locate s.points w.asc h with
      | before hb => have := hb p0 (by simp [hcons]); linarith
      | after ha => have := ha _ (List.getLast_mem hpts); linarith
      | knot k p hk hx =>
        refine ⟨k, k, xIndex_knot w hk hx, by simp, ?_, (List.getElem?_eq_some_iff.1 hk).1⟩
        intro i q hq hi; rw [hx]; exact w.asc.lt hk hq hi
      | gap k p q hp hq hpx hxq =>
        have ⟨g0, g1⟩ := gap_frac hpx hxq
        refine ⟨_, k + 1, xIndex_gap w hp hq hpx hxq, ceil_nat_add g0 g1, ?_,
          (List.getElem?_eq_some_iff.1 hq).1⟩
        intro i r hr hi; exact hxq.trans (w.asc.lt hq hr hi)
    refine ⟨v', hv', j, by rw [hjv]; exact min_eq_right (by omega), ?_⟩
    refine endScan_spec hint s.points w.asc (j + 1) (by omega) ?_
    intro k p hp hk
    have := hjl k p hp (by omega)
    by_contra hg
    have hg := (Iv.leHi_iff _ _).1 (by simpa using hg)
    rw [hh] at hg
    rcases hg with hg | ⟨hg, _⟩
    · simp at hg; linarith
    · simp at hg; linarith
  refine ⟨A, B, ?_, ?_, hB1, ?_⟩
  · unfold domainIndexes
    have hnn : dom.isNegInf = false := by simp [Iv.isNegInf, hl]
    have hnp : dom.isPosInf = false := by simp [Iv.isPosInf, hh]
    simp only [hns, ← hdom, hint, hnn, hnp, hl, hh, hv, hv', hj, bind, Except.bind, pure,
      Except.pure, Bool.false_eq_true, if_false, hA0, Int.toNat_natCast, hB0]
    rw [if_neg (by omega)]
  · by_contra hlt
    push Not at hlt
    have hBl : B < s.points.length := by omega
    have hb := List.getElem?_eq_getElem hBl
    have h1 := (hA B _ hb).1 hlt
    have h2 : dom.leHi (.fin s.points[B].1) = false := by
      by_contra hc
      have := (hB B _ hb).2 (by simpa using hc); omega
    have h3 := mt (stop_start_iff hint s.points[B].1).2
    have h4 : ¬ dom.hi ≤ .fin s.points[B].1 := fun hc => by
      have := (stop_start_iff hint s.points[B].1).1 (Or.inl hc); simp [h1] at this
    have h5 : dom.leHi (.fin s.points[B].1) = true := (Iv.leHi_iff _ _).2 (Or.inl (not_le.1 h4))
    simp [h2] at h5
  · intro i p hp
    have hcd : dom.contains (.fin p.1) = d.contains (.fin p.1) := by
      rw [hdom, Iv.contains_inter, hdv, contains_of_idx w.asc hp hp le_rfl le_rfl, Bool.and_true]
    rw [← hcd, Iv.contains_iff]
    rw [← hB i p hp]
    have := hA i p hp
    constructor
    · rintro ⟨h1, h2⟩
      refine ⟨?_, h2⟩
      by_contra hc
      have := this.1 (by omega); simp [h1] at this
    · rintro ⟨h1, h2⟩
      refine ⟨?_, h2⟩
      by_contra hc
      have := this.2 (by simpa using hc); omega

theorem superset_contains_all {s : Pts V} (w : s.Wf) {d : Iv} (h : d.superset s.domVal = true) :
    ∀ p ∈ s.points, d.contains (.fin p.1) = true := by
  intro p hp
  obtain ⟨i, hi⟩ := List.getElem?_of_mem hp
  refine (Iv.superset_iff _ _).1 h _ ?_
  rw [w.domVal]
  exact contains_of_idx w.asc hi hi le_rfl le_rfl

theorem disjoint_contains_none {s : Pts V} (w : s.Wf) {d : Iv}
    (h : (Iv.inter d s.domVal).isEmpty = true) :
    ∀ p ∈ s.points, d.contains (.fin p.1) = false := by
  intro p hp
  obtain ⟨i, hi⟩ := List.getElem?_of_mem hp
  have h1 := (Iv.isEmpty_iff_forall _).1 h (.fin p.1)
  rw [Iv.contains_inter, w.domVal, contains_of_idx w.asc hi hi le_rfl le_rfl, Bool.and_true] at h1
  exact h1

theorem inter_isEmpty_comm (a b : Iv) : (Iv.inter a b).isEmpty = (Iv.inter b a).isEmpty := by
  rw [Bool.eq_iff_iff, Iv.isEmpty_iff_forall, Iv.isEmpty_iff_forall]
  simp only [Iv.contains_inter, Bool.and_comm]

theorem inter_inter_contains (d D : Iv) (x : Ext) :
    (Iv.inter (Iv.inter D d) D).contains x = (Iv.inter d D).contains x := by
  simp only [Iv.contains_inter]
  cases D.contains x <;> cases d.contains x <;> rfl

/-- `sample_points(domain)` returns exactly the stored points inside the domain. -/
theorem samplePlain_eq {s : Pts V} (w : s.Wf) (d : Iv) :
    s.samplePlain d = .ok (s.points.filter fun p => d.contains (.fin p.1)) := by
  unfold samplePlain
  by_cases hpts : s.points = []
  · simp [w.domVal, hpts, getDomain]
  · have hne : s.domVal.isEmpty = false := by
      rw [w.domVal]; exact getDomain_not_isEmpty w.asc hpts
    simp only [hne, Bool.false_eq_true, if_false]
    by_cases hs : d.superset s.domVal = true
    · rw [if_pos hs, List.filter_eq_self.2 (superset_contains_all w hs)]
    · rw [if_neg hs]
      by_cases hi : (Iv.inter s.domVal d).isEmpty = true
      · rw [if_pos hi]
        have := disjoint_contains_none w (by rw [inter_isEmpty_comm]; exact hi)
        rw [List.filter_eq_nil_iff.2 (fun p hp => by simp [this p hp])]
      · rw [if_neg hi]
        have hi' : (Iv.inter s.domVal d).isEmpty = false := by simpa using hi
        by_cases hs2 : (Iv.inter s.domVal d).superset s.domVal = true
        · -- impossible: the intersection would cover the domain
          exfalso
          apply hs
          rw [Iv.superset_iff] at hs2 ⊢
          intro x hx
          have := hs2 x hx
          rw [Iv.contains_inter, Bool.and_eq_true] at this
          exact this.2
        · have hs2' : (Iv.inter s.domVal d).superset s.domVal = false := by simpa using hs2
          have hii : (Iv.inter (Iv.inter s.domVal d) s.domVal).isEmpty = false := by
            obtain ⟨x, hx⟩ := Iv.exists_mem _ hi'
            refine Iv.not_isEmpty_of_mem (x := x) ?_
            rw [inter_inter_contains, Iv.contains_inter]
            rw [Iv.contains_inter] at hx
            rw [Bool.and_comm]; exact hx
          obtain ⟨A, B, h1, hAB, hBl, h2⟩ := domainIndexes_spec w hpts _ hs2' hii
          rw [h1]
          simp only [bind, Except.bind, pure, Except.pure, pySlice]
          rw [pyClamp_nat hBl, pyClamp_nat (by omega)]
          congr 1
          rw [← filter_eq_slice _ s.points A B h2]
          apply List.filter_congr
          intro p hp
          obtain ⟨i, hi⟩ := List.getElem?_of_mem hp
          rw [Iv.contains_inter, w.domVal, contains_of_idx w.asc hi hi le_rfl le_rfl, Bool.true_and]

end Pts
end Curvepy
