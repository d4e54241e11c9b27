import Verif.Props.TrendPoints
import Verif.Props.TrendLevels

/-!
# Lemmas: the lines of a trend that only gets points at its end
-/

namespace Curvepy
namespace Props
open Spec Trend

theorem insort_mem {a b : List XY} {p : XY} {nr : Bool} (h : insort a p (noRepeat := nr) = .ok b) :
    b ≠ [] ∧ ∀ q ∈ b, q = p ∨ q ∈ a := by
  unfold insort at h
  split_ifs at h with h1
  obtain ⟨i, -, h⟩ := bind_inv h
  split_ifs at h with h2
  · have := pure_inv h
    subst this
    simp only [Bool.and_eq_true, decide_eq_true_eq] at h2
    exact ⟨by intro h0; subst h0; simp at h2, fun q hq => .inr hq⟩
  · have := pure_inv h
    subst this
    have hle : min i a.length ≤ a.length := Nat.min_le_right _ _
    constructor
    · intro h0
      have := congrArg List.length h0
      rw [List.length_insertIdx_of_le_length hle] at this
      simp at this
    · intro q hq
      rwa [List.mem_insertIdx hle] at hq

theorem insortAll_mem {nr : Bool} : ∀ {ps a b : List XY}, insortAll a ps (noRepeat := nr) = .ok b →
    ∀ q ∈ b, q ∈ ps ∨ q ∈ a
  | [], a, b, h => by
    have := pure_inv h
    subst this
    exact fun q hq => .inr hq
  | p :: ps, a, b, h => by
    unfold insortAll at h
    rw [List.foldlM_cons] at h
    obtain ⟨c, e, h⟩ := bind_inv h
    intro q hq
    rcases insortAll_mem (ps := ps) h q hq with h1 | h1
    · exact .inl (List.mem_cons_of_mem _ h1)
    · rcases (insort_mem e).2 q h1 with h2 | h2
      · exact .inl (by simp [h2])
      · exact .inr h2

/-! ## Trend points remain -/

theorem eraseIdx_succ_ne {α : Type} {l : List α} (h : l ≠ []) (i : ℕ) : l.eraseIdx (i + 1) ≠ [] := by
  cases l with
  | nil => exact absurd rfl h
  | cons a l => simp

theorem pruneAt_ne {t : TLine} {s u : TLine.Prune} {i : ℕ} (h : t.pruneAt s i = .ok u) (hs : s.extremas ≠ []) :
    u.extremas ≠ [] := by
  unfold TLine.pruneAt at h
  obtain ⟨c, -, h⟩ := bind_inv h
  obtain ⟨v, -, h⟩ := bind_inv h
  by_cases hc : (c || v == t.upper) = true
  · rw [if_pos hc] at h
    split at h
    · cases h
    · have := pure_inv h
      rw [← this]
      exact eraseIdx_succ_ne hs i
  · rw [if_neg hc] at h
    have := pure_inv h
    rwa [← this]

theorem prunePass_ne {t : TLine} : ∀ {n : ℕ} {s u : TLine.Prune}, t.prunePass n s = .ok u → s.extremas ≠ [] →
    u.extremas ≠ []
  | 0, s, u, h, hs => by
    have := pure_inv h
    rwa [← this]
  | n + 1, s, u, h, hs => by
    rw [TLine.prunePass] at h
    obtain ⟨v, h1, h⟩ := bind_inv h
    exact prunePass_ne h (pruneAt_ne h1 hs)

theorem pruneLoop_ne {t : TLine} : ∀ {n : ℕ} {s u : TLine.Prune}, t.pruneLoop n s = .ok u → s.extremas ≠ [] →
    u.extremas ≠ []
  | 0, s, u, h, hs => by
    have := pure_inv h
    rwa [← this]
  | n + 1, s, u, h, hs => by
    rw [TLine.pruneLoop] at h
    obtain ⟨v, h1, h⟩ := bind_inv h
    have hv := prunePass_ne h1 hs
    split_ifs at h
    · exact pruneLoop_ne h hv
    · have := pure_inv h
      rwa [← this]

theorem thin_ne (t : TLine) : ∀ (n : ℕ) {es : List XY}, es ≠ [] → t.thin n es ≠ []
  | 0, es, h => h
  | n + 1, es, h => by
    rw [TLine.thin]
    refine thin_ne t n ?_
    unfold TLine.thinAt
    split
    · split_ifs
      · exact eraseIdx_succ_ne h n
      · exact h
    · exact h

/-- Trend points chosen from a boundary are not empty. -/
theorem setTrend_ne {t u : TLine} (h : t.setTrend = .ok u) (hb : t.boundary ≠ []) : u.trend ≠ [] := by
  unfold TLine.setTrend at h
  obtain ⟨s, h1, h⟩ := bind_inv h
  obtain ⟨f, h2, h⟩ := bind_inv h
  obtain ⟨ps, h3, h⟩ := bind_inv h
  have := pure_inv h
  subst this
  have hne := thin_ne t (s.extremas.length - 2) (pruneLoop_ne h1 hb)
  have hf : f ≠ [] := by
    unfold TLine.finalLine at h2
    split_ifs at h2
    · obtain ⟨r, -, h2⟩ := bind_inv h2
      split at h2
      · have := pure_inv h2
        rwa [← this]
      · have := pure_inv h2
        rw [← this]; simp
    · have := pure_inv h2
      rwa [← this]
  unfold TLine.addCoincident at h3
  split at h3
  · exact absurd rfl hf
  · simp only [Except.ok.injEq] at h3
    rw [← h3]; simp
  · simp only [Except.ok.injEq] at h3
    rw [← h3]; simp
  · cases h3

/-! ## Nothing lies beyond the points added -/

/-- All points of a list are at or before a position. -/
def UpTo (b : ℚ) (ps : List XY) : Prop := ∀ p ∈ ps, p.1 ≤ b

theorem UpTo.mono {a b : ℚ} {ps : List XY} (h : UpTo a ps) (hab : a ≤ b) : UpTo b ps :=
  fun p hp => (h p hp).trans hab

theorem UpTo.nil {b : ℚ} : UpTo b [] := fun _ h => by cases h

theorem UpTo.append {b : ℚ} {ps qs : List XY} (h : UpTo b ps) (k : UpTo b qs) : UpTo b (ps ++ qs) := by
  intro p hp
  rcases List.mem_append.1 hp with hp | hp
  · exact h p hp
  · exact k p hp

theorem UpTo.subset {b : ℚ} {ps qs : List XY} (h : UpTo b qs) (k : ∀ p ∈ ps, p ∈ qs) : UpTo b ps :=
  fun p hp => h p (k p hp)

theorem meet_le {l : Chord} {p q : XY} {b : ℚ} (hp : p.1 ≤ b) (hq : q.1 ≤ b) (h : offset l p * offset l q < 0) :
    (meet l p q).1 ≤ b := by
  have hne : offset l p - offset l q ≠ 0 := by
    intro h0
    have : offset l p = offset l q := by linarith
    rw [this] at h
    nlinarith [mul_self_nonneg (offset l q)]
  have key : ∀ s : ℚ, 0 ≤ s → s ≤ 1 → p.1 + s * (q.1 - p.1) ≤ b := by
    intro s h0 h1
    nlinarith
  have hs : 0 ≤ offset l p / (offset l p - offset l q) ∧ offset l p / (offset l p - offset l q) ≤ 1 := by
    rcases lt_or_gt_of_ne hne with hn | hn
    · constructor
      · apply div_nonneg_of_nonpos _ hn.le
        by_contra hc
        push Not at hc
        nlinarith
      · rw [div_le_one_of_neg hn]
        by_contra hc
        push Not at hc
        nlinarith
    · constructor
      · apply div_nonneg _ hn.le
        by_contra hc
        push Not at hc
        nlinarith
      · rw [div_le_one hn]
        by_contra hc
        push Not at hc
        nlinarith
  unfold meet
  simp only
  split_ifs
  · show (p.1 + q.1) / 2 ≤ b
    linarith
  · exact key _ hs.1 hs.2

theorem crossings_le {l : Chord} {b : ℚ} : ∀ {ps : List XY}, UpTo b ps → UpTo b (crossings l ps)
  | [], _ => UpTo.nil
  | [_], _ => UpTo.nil
  | p :: q :: rest, h => by
    rw [crossings]
    refine UpTo.append ?_ (crossings_le fun r hr => h r (List.mem_cons_of_mem _ hr))
    split_ifs with hc
    · intro r hr
      rw [List.mem_singleton.1 hr]
      exact meet_le (h p (by simp)) (h q (by simp)) hc
    · exact UpTo.nil

theorem stretch_le {t : TLine} {l : Chord} {b : ℚ} {ps : List XY} (h : UpTo b ps) :
    ∀ g ∈ runs (together t l) ps, UpTo b g := by
  intro g hg p hp
  apply h
  rw [← runs_flatten (r := together t l) ps]
  exact List.mem_flatten.2 ⟨g, hg, hp⟩

theorem tangentsOf_le {t : TLine} {l : Chord} {b : ℚ} {ps : List XY} (h : UpTo b ps) :
    UpTo b (tangentsOf t l (runs (together t l) ps)) := by
  intro p hp
  unfold tangentsOf at hp
  obtain ⟨g, hg, hgp⟩ := List.mem_filterMap.1 hp
  exact stretch_le h g (List.mem_of_mem_filter hg) p (mem_nearest hgp).1

theorem extremasOf_le {t : TLine} {l : Chord} {b : ℚ} {ps : List XY} (h : UpTo b ps) :
    UpTo b (extremasOf t l (runs (together t l) ps)) := by
  intro p hp
  unfold extremasOf at hp
  obtain ⟨g, hg, hgp⟩ := List.mem_filterMap.1 hp
  exact stretch_le h g (List.mem_of_mem_filter hg) p (mem_farthest hgp).1

theorem extremasWith_le {t : TLine} {b : ℚ} {new : List XY} (h : UpTo b t.extremas) (k : UpTo b new) :
    UpTo b (extremasWith t new) := by
  unfold extremasWith
  split_ifs
  · exact h
  · exact (h.subset fun p hp => List.dropLast_subset _ hp).append k
  · exact h.append k

theorem latest_le {t : TLine} {b : ℚ} {us : List XY} (h : UpTo b us) : UpTo b (latest t us) :=
  h.subset fun _ hp => (mem_latest hp).1

/-- All points of a line are at or before a position. -/
structure Calm (b : ℚ) (t : TLine) : Prop where
  kept : Kept t
  width : 0 < t.minWidth
  trend : UpTo b t.trend
  boundary : UpTo b t.boundary
  inter : UpTo b t.intersections
  tangents : UpTo b t.tangents
  extremas : UpTo b t.extremas

theorem Calm.mono {a b : ℚ} {t : TLine} (h : Calm a t) (hab : a ≤ b) : Calm b t :=
  ⟨h.kept, h.width, h.trend.mono hab, h.boundary.mono hab, h.inter.mono hab, h.tangents.mono hab,
    h.extremas.mono hab⟩

theorem Calm.poi {b : ℚ} {t u : TLine} {us : List XY} {c : Bool} (h : Calm b t) (hu : UpTo b us)
    (e : t.updatePoi us = .ok (u, c)) : Calm b u ∧ u.trend = t.trend := by
  by_cases hr : (!t.isReady || us.length == 0) = true
  · unfold TLine.updatePoi at e
    rw [if_pos hr] at e
    simp only [Except.ok.injEq, Prod.mk.injEq] at e
    rw [← e.1]
    exact ⟨h, rfl⟩
  · simp only [Bool.or_eq_true, Bool.not_eq_true', TLine.isReady, not_or, Bool.not_eq_false,
      beq_iff_eq, List.length_eq_zero_iff] at hr
    obtain ⟨l, hl⟩ := Option.isSome_iff_exists.1 hr.1
    have hs := updatePoi_spec h.kept hl hr.2
    simp only at hs
    rw [hs] at e
    have hla := latest_le (t := t) hu
    have hoff : UpTo b ((latest t us).filter fun p => !touching t l p) :=
      hla.subset fun p hp => List.mem_of_mem_filter hp
    have hk := h.kept
    split_ifs at e
    · simp only [Except.ok.injEq, Prod.mk.injEq] at e
      rw [← e.1]
      exact ⟨⟨⟨hk.1, hk.2, hk.3, hk.4, hk.5⟩, h.width, h.trend, h.boundary, h.inter.append (crossings_le hoff),
        h.tangents.append (tangentsOf_le hla), extremasWith_le h.extremas (extremasOf_le hla)⟩, rfl⟩
    · simp only [Except.ok.injEq, Prod.mk.injEq] at e
      rw [← e.1]
      exact ⟨⟨⟨hk.1, hk.2, hk.3, hk.4, hk.5⟩, h.width, h.trend, h.boundary, h.inter.append (crossings_le hoff),
        h.tangents.append (tangentsOf_le hla), extremasWith_le h.extremas (extremasOf_le hla)⟩, rfl⟩

theorem Calm.prediction {b : ℚ} {t u : TLine} {us : List XY} (h : Calm b t) (e : t.updatePrediction us = .ok u) :
    Calm b u ∧ u.trend = t.trend := by
  obtain ⟨d, rfl⟩ := TLine.updatePrediction_eq e
  have hk := h.kept
  exact ⟨⟨⟨hk.1, hk.2, hk.3, hk.4, hk.5⟩, h.width, h.trend, h.boundary, h.inter, h.tangents, h.extremas⟩, rfl⟩

theorem updateTrend_parts {t u : TLine} {us : List XY} (h : t.updateTrend us = .ok u) :
    ∃ v l up lo w c, t.renew = .ok v ∧
      TLine.updatePoi { v with line := l, tolUpper := up, tolLower := lo, intersections := [], tangents := [],
                               extremas := [] } us = .ok (w, c) ∧
      TLine.updatePrediction { w.updateInterval with pred := Pred.reset } us = .ok u := by
  unfold TLine.updateTrend at h
  obtain ⟨v, h1, h⟩ := bind_inv h
  obtain ⟨l, h2, h⟩ := bind_inv h
  obtain ⟨up, h3, h⟩ := bind_inv h
  obtain ⟨lo, h4, h⟩ := bind_inv h
  obtain ⟨⟨w, c⟩, h5, h⟩ := bind_inv h
  exact ⟨v, l, up, lo, w, c, h1, h5, h⟩

/-- The trend points are chosen among points at or before a position. -/
theorem calm_trend {b : ℚ} {t u : TLine} {us : List XY} (h : t.updateTrend us = .ok u) (hw : 0 < t.minWidth)
    (hs : StrictX t.boundary) (hu : UpTo b us) (ht : UpTo b t.trend) (hb : UpTo b t.boundary)
    (hne : t.boundary ≠ []) (htr : t.isValid = true → t.trend ≠ []) : Calm b u ∧ u.trend ≠ [] := by
  have hk := kept_trend h hw hs
  obtain ⟨v, l, up, lo, w, c, h1, h2, h3⟩ := updateTrend_parts h
  have hv : UpTo b v.trend ∧ UpTo b v.boundary ∧ v.trend ≠ [] ∧ v.minWidth = t.minWidth := by
    unfold TLine.renew at h1
    split_ifs at h1 with hval
    · have hn := setTrend_ne h1 hne
      obtain ⟨bs, ts, rfl, a1, a2, -⟩ := TLine.setTrend_eq h1
      exact ⟨hb.subset a2, hb.subset fun p hp => a1.subset hp, hn, rfl⟩
    · simp only [Except.ok.injEq] at h1
      subst h1
      exact ⟨ht, hb, htr (by simpa using hval), rfl⟩
  obtain ⟨d, h4⟩ := TLine.updatePrediction_eq h3
  obtain ⟨s, h5⟩ := TLine.updateInterval_eq w
  obtain ⟨i, a, e, s', h6⟩ := TLine.updatePoi_eq h2
  have hmid : Calm b { v with line := l, tolUpper := up, tolLower := lo, intersections := [], tangents := [],
                              extremas := [] } := by
    refine ⟨?_, ?_, hv.1, hv.2.1, UpTo.nil, UpTo.nil, UpTo.nil⟩
    · rw [h4, h5, h6] at hk
      exact ⟨hk.1, hk.2, hk.3, hk.4, hk.5⟩
    · show 0 < v.minWidth
      rw [hv.2.2.2]; exact hw
  obtain ⟨hw2, hwt⟩ := hmid.poi hu h2
  have hfin : Calm b { w.updateInterval with pred := Pred.reset } ∧ w.updateInterval.trend = w.trend := by
    rw [h5]
    have hk := hw2.kept
    exact ⟨⟨⟨hk.1, hk.2, hk.3, hk.4, hk.5⟩, hw2.width, hw2.trend, hw2.boundary, hw2.inter, hw2.tangents,
      hw2.extremas⟩, rfl⟩
  obtain ⟨g1, g2⟩ := hfin.1.prediction h3
  refine ⟨g1, ?_⟩
  rw [g2]
  show w.updateInterval.trend ≠ []
  rw [hfin.2, hwt]
  exact hv.2.2.1

/-- A line with points, all of them at or before a position. -/
structure Quiet (b : ℚ) (t : TLine) : Prop extends Calm b t where
  ne : t.trend ≠ []

theorem Quiet.mono {a b : ℚ} {t : TLine} (h : Quiet a t) (hab : a ≤ b) : Quiet b t :=
  ⟨h.toCalm.mono hab, h.ne⟩

theorem quiet_append {b : ℚ} {t u : TLine} {p : XY} {us : List XY} {c : Bool} (h : Calm b t)
    (hne : t.trend ≠ [] ∨ t.isReady = false) (hp : p.1 ≤ b) (hu : UpTo b us)
    (e : t.didAppend p us = .ok (u, c)) : Quiet b u := by
  unfold TLine.didAppend at e
  split_ifs at e with h1 h2
  · simp only [Except.ok.injEq, Prod.mk.injEq] at e
    rw [← e.1]
    simp only [Bool.and_eq_true] at h1
    refine ⟨h, hne.resolve_right ?_⟩
    rw [h1.1]; simp
  · obtain ⟨bs, e0, e⟩ := bind_inv e
    obtain ⟨v, e1, e⟩ := bind_inv e
    have := pure_inv e
    simp only [Prod.mk.injEq] at this
    rw [← this.1]
    obtain ⟨m1, m2⟩ := insort_mem e0
    have := calm_trend e1 h.width (insort_strict h.kept.strict e0) hu h.trend
      (by intro q hq; rcases m2 q hq with rfl | h'; exacts [hp, h.boundary q h']) m1 (by
        intro hv
        have hv' : t.isValid = true := hv
        rw [hv'] at h2; cases h2)
    exact ⟨this.1, this.2⟩
  · obtain ⟨on, e0, e⟩ := bind_inv e
    have hv : t.isValid = true := by simpa using h2
    have hready := valid_ready hv
    have ht : t.trend ≠ [] := by
      have := h.kept.two hready
      intro h0
      rw [h0] at this; simp at this
    split_ifs at e with h3
    · obtain ⟨bs, e1, e⟩ := bind_inv e
      obtain ⟨ts, e2, e⟩ := bind_inv e
      obtain ⟨v, e3, e⟩ := bind_inv e
      have := pure_inv e
      simp only [Prod.mk.injEq] at this
      rw [← this.1]
      obtain ⟨m1, m2⟩ := insort_mem e1
      obtain ⟨n1, n2⟩ := insort_mem e2
      have := calm_trend e3 h.width (insort_strict h.kept.strict e1) hu
        (by intro q hq; rcases n2 q hq with rfl | h'; exacts [hp, h.trend q h'])
        (by intro q hq; rcases m2 q hq with rfl | h'; exacts [hp, h.boundary q h']) m1 (fun _ => n1)
      exact ⟨this.1, this.2⟩
    · obtain ⟨⟨v, c'⟩, e1, e⟩ := bind_inv e
      obtain ⟨w, e2, e⟩ := bind_inv e
      have := pure_inv e
      simp only [Prod.mk.injEq] at this
      rw [← this.1]
      obtain ⟨g1, g2⟩ := h.poi hu e1
      obtain ⟨g3, g4⟩ := g1.prediction e2
      exact ⟨g3, by rw [g4, g2]; exact ht⟩

/-! ## Levels -/

/-- Levels of lines with points; the first one, and the ones not chosen, may be without lines. -/
structure Full (K : ℕ → Prop) (b : ℚ) (L : List (List TLine)) : Prop where
  quiet : ∀ ls ∈ L, ∀ o ∈ ls, Quiet b o
  ne : ∀ j, j ≠ 0 → K j → L[j]? ≠ some []

theorem Full.set {K : ℕ → Prop} {b : ℚ} {L : List (List TLine)} (h : Full K b L) {k : ℕ} {ls : List TLine}
    (hq : ∀ o ∈ ls, Quiet b o) (hne : ls ≠ []) : Full (fun j => K j ∨ j = k) b (L.set k ls) := by
  constructor
  · intro ms hms
    rcases List.mem_or_eq_of_mem_set hms with h1 | h1
    · exact h.quiet ms h1
    · rw [h1]; exact hq
  · intro j hj hK
    rw [List.getElem?_set]
    split_ifs with h1 h2
    · simpa using hne
    · simp
    · rcases hK with hK | hK
      · exact h.ne j hj hK
      · exact absurd hK.symm h1

theorem Full.weaken {K K' : ℕ → Prop} {b : ℚ} {L : List (List TLine)} (h : Full K b L) (hk : ∀ j, K' j → K j) :
    Full K' b L := ⟨h.quiet, fun j hj hK => h.ne j hj (hk j hK)⟩

theorem Full.mono {K : ℕ → Prop} {a b : ℚ} {L : List (List TLine)} (h : Full K a L) (hab : a ≤ b) : Full K b L :=
  ⟨fun ls hls o ho => (h.quiet ls hls o ho).mono hab, h.ne⟩

theorem full_validate {b : ℚ} {us : List XY} {nested : List (List TLine)} {level : ℕ} {p : XY} {v w : Trd.Vals}
    {i : ℕ} (hp : p.1 ≤ b) (hu : UpTo b us) (h : (∀ o ∈ v.lines, Quiet b o) ∧ UpTo b v.newPts)
    (e : Trd.validateAt us nested level p v i = .ok w) : (∀ o ∈ w.lines, Quiet b o) ∧ UpTo b w.newPts := by
  unfold Trd.validateAt at e
  split at e
  · simp only [Except.ok.injEq] at e
    rwa [← e]
  · rename_i line hl
    obtain ⟨⟨u, c⟩, e0, e⟩ := bind_inv e
    have hq := h.1 line (List.mem_of_getElem? hl)
    have hu' : Quiet b u := quiet_append hq.toCalm (.inl hq.ne) hp hu e0
    have hset : ∀ o ∈ v.lines.set i u, Quiet b o := by
      intro o ho
      rcases List.mem_or_eq_of_mem_set ho with h1 | h1
      · exact h.1 o h1
      · rw [h1]; exact hu'
    simp only at e
    split_ifs at e
    · obtain ⟨co, -, e⟩ := bind_inv e
      split_ifs at e
      · have := pure_inv e
        rw [← this]; exact ⟨hset, h.2⟩
      · split at e
        · rename_i q r hq hr
          obtain ⟨n1, f1, e⟩ := bind_inv e
          obtain ⟨n2, f2, e⟩ := bind_inv e
          have := pure_inv e
          rw [← this]
          refine ⟨hset, ?_⟩
          have hq' := hu'.trend q (List.mem_of_head? hq)
          have hr' := hu'.trend r (List.mem_of_getLast? hr)
          intro z hz
          rcases (insort_mem f2).2 z hz with rfl | hz
          · exact hr'
          · rcases (insort_mem f1).2 z hz with rfl | hz
            · exact hq'
            · exact h.2 z hz
        · cases e
    · have := pure_inv e
      rw [← this]; exact ⟨hset, h.2⟩
    · obtain ⟨co, -, e⟩ := bind_inv e
      split_ifs at e
      all_goals
        have := pure_inv e
        rw [← this]; exact ⟨hset, h.2⟩
    all_goals
      have := pure_inv e
      rw [← this]; exact ⟨hset, h.2⟩

theorem full_fork {b : ℚ} {s : Trd} {up : Bool} {ls ms : List TLine} {p : XY} (hp : p.1 ≤ b) (hu : UpTo b s.points)
    (hw : 0 < s.minWidth) (h : ∀ o ∈ ls, Quiet b o) (e : s.tryFork up ls p = .ok ms) :
    (∀ o ∈ ms, Quiet b o) ∧ ms ≠ [] := by
  unfold Trd.tryFork at e
  obtain ⟨sk, e0, e⟩ := bind_inv e
  split_ifs at e with h1
  · have := pure_inv e
    subst this
    refine ⟨h, ?_⟩
    rintro rfl
    simp only [Trd.young, List.getLast?_nil, Except.ok.injEq] at e0
    rw [← e0] at h1
    cases h1
  · obtain ⟨⟨u, c⟩, e1, e⟩ := bind_inv e
    have := pure_inv e
    subst this
    refine ⟨?_, by simp⟩
    have hc : Calm b (s.createLine up) := by
      refine ⟨?_, hw, UpTo.nil, UpTo.nil, UpTo.nil, UpTo.nil, UpTo.nil⟩
      exact grown_kept (Grown.new _ _ _ _ _ _ _ _) hw
    have hq : Quiet b u := quiet_append hc (.inr rfl) hp hu e1
    intro o ho
    rcases List.mem_append.1 ho with ho | ho
    · exact h o ho
    · rw [List.mem_singleton.1 ho]; exact hq

/-- A trend whose lines have points, all of them at or before a position. -/
structure Rest (K : ℕ → Prop) (b : ℚ) (s : Trd) : Prop where
  width : 0 < s.minWidth
  points : UpTo b s.points
  upper : Full K b s.upper
  lower : Full K b s.lower
  even : s.upper.length = s.lower.length

theorem rest_append {K : ℕ → Prop} {b : ℚ} {s u : Trd} {up : Bool} {k : ℕ} {p : XY} {n : List XY} (h : Rest K b s)
    (hp : p.1 ≤ b) (e : s.appendValidate up k p = .ok (u, n)) :
    (∃ L, u = if up then { s with upper := s.upper.set k L } else { s with lower := s.lower.set k L }) ∧
    (if up then Full (fun j => K j ∨ j = k) b u.upper else Full (fun j => K j ∨ j = k) b u.lower) ∧ UpTo b n := by
  unfold Trd.appendValidate at e
  simp only at e
  split at e
  · cases e
  · rename_i ls hls
    obtain ⟨v, e1, e⟩ := bind_inv e
    obtain ⟨ms, e2, e⟩ := bind_inv e
    have := pure_inv e
    simp only [Prod.mk.injEq] at this
    obtain ⟨rfl, rfl⟩ := this
    have hq : ∀ o ∈ ls, Quiet b o := by
      cases up
      · exact h.lower.quiet ls (List.mem_of_getElem? hls)
      · exact h.upper.quiet ls (List.mem_of_getElem? hls)
    have hv := foldlM_range (fun _ (v : Trd.Vals) => (∀ o ∈ v.lines, Quiet b o) ∧ UpTo b v.newPts) ls.length
      (fun i a c _ ha hc => full_validate hp h.points ha hc) ⟨hq, UpTo.nil⟩ e1
    obtain ⟨g1, g2⟩ := full_fork hp h.points h.width (fun o ho => hv.1 o (foldl_erase_subset _ _ ho)) e2
    refine ⟨⟨ms, by cases up <;> rfl⟩, ?_, hv.2⟩
    cases up
    · exact h.lower.set g1 g2
    · exact h.upper.set g1 g2

theorem rest_step {K : ℕ → Prop} {b : ℚ} {s u : Trd} {k : ℕ} {p : XY} {a c : List XY} (h : Rest K b s)
    (hp : p.1 ≤ b) (ha : UpTo b a) (e : levelStep k (s, a) p = .ok (u, c)) :
    Rest (fun j => K j ∨ j = k) b u ∧ UpTo b c ∧ u.points = s.points := by
  unfold levelStep at e
  obtain ⟨⟨v, n⟩, e1, e⟩ := bind_inv e
  obtain ⟨al, e2, e⟩ := bind_inv e
  obtain ⟨⟨w, m⟩, e3, e⟩ := bind_inv e
  obtain ⟨al', e4, e⟩ := bind_inv e
  have := pure_inv e
  simp only [Prod.mk.injEq] at this
  obtain ⟨rfl, rfl⟩ := this
  obtain ⟨⟨L, rfl⟩, f2, f3⟩ := rest_append h hp e1
  have h1 : Rest K b { s with upper := s.upper.set k L } := by
    refine ⟨h.width, h.points, ?_, h.lower, by simpa using h.even⟩
    exact Full.weaken f2 (fun j hj => .inl hj)
  obtain ⟨⟨L', rfl⟩, g2, g3⟩ := rest_append h1 hp e3
  refine ⟨⟨h.width, h.points, f2, g2, by simpa using h.even⟩, ?_, rfl⟩
  intro q hq
  rcases insortAll_mem e4 q hq with h4 | h4
  · exact g3 q h4
  · rcases insortAll_mem e2 q h4 with h5 | h5
    · exact f3 q h5
    · exact ha q h5

theorem rest_fold {b : ℚ} {k : ℕ} : ∀ {ps : List XY} {K : ℕ → Prop} {s u : Trd} {a c : List XY},
    Rest K b s → UpTo b ps → UpTo b a → ps.foldlM (levelStep k) (s, a) = .ok (u, c) →
    Rest (fun j => K j ∨ (j = k ∧ ps ≠ [])) b u ∧ UpTo b c ∧ u.points = s.points
  | [], K, s, u, a, c, h, _, ha, e => by
    have := pure_inv e
    simp only [Prod.mk.injEq] at this
    obtain ⟨rfl, rfl⟩ := this
    refine ⟨?_, ha, rfl⟩
    have hw : ∀ j, (K j ∨ (j = k ∧ ([] : List XY) ≠ [])) → K j := by
      intro j hj; simpa using hj
    exact ⟨h.width, h.points, h.upper.weaken hw, h.lower.weaken hw, h.even⟩
  | p :: ps, K, s, u, a, c, h, hps, ha, e => by
    rw [List.foldlM_cons] at e
    obtain ⟨⟨v, d⟩, e1, e⟩ := bind_inv e
    obtain ⟨f1, f2, f3⟩ := rest_step h (hps p (by simp)) ha e1
    obtain ⟨g1, g2, g3⟩ := rest_fold f1 (fun q hq => hps q (List.mem_cons_of_mem _ hq)) f2 e
    refine ⟨?_, g2, g3.trans f3⟩
    have hw : ∀ j, (K j ∨ (j = k ∧ (p :: ps) ≠ [])) → ((K j ∨ j = k) ∨ (j = k ∧ ps ≠ [])) := by
      rintro j (hj | hj)
      · exact .inl (.inl hj)
      · exact .inl (.inr hj.1)
    exact ⟨g1.width, g1.points, g1.upper.weaken hw, g1.lower.weaken hw, g1.even⟩

theorem Full.all {b : ℚ} {L : List (List TLine)} {k : ℕ} (h : Full (· ≠ k) b L) (hk : L.length ≤ k) :
    Full (fun _ => True) b L := by
  refine ⟨h.quiet, fun j hj _ => ?_⟩
  by_cases hjk : j = k
  · rw [List.getElem?_eq_none (by omega)]; simp
  · exact h.ne j hj hjk

theorem Full.more {b : ℚ} {L : List (List TLine)} (h : Full (fun _ => True) b L) :
    Full (· ≠ L.length) b (L ++ [[]]) := by
  constructor
  · intro ls hls
    rcases List.mem_append.1 hls with h1 | h1
    · exact h.quiet ls h1
    · rw [List.mem_singleton.1 h1]; intro o ho; cases ho
  · intro j hj hjk
    by_cases hlt : j < L.length
    · rw [List.getElem?_append_left hlt]
      exact h.ne j hj trivial
    · rw [List.getElem?_eq_none (by simp only [List.length_append, List.length_singleton]; omega)]; simp

/-- A scan keeps all that. -/
theorem rest_loop {b : ℚ} : ∀ {n : ℕ} {s u : Trd} {k : ℕ} {ps : List XY}, Rest (· ≠ k) b s → UpTo b ps → ps ≠ [] →
    Trd.scanLoop n s k ps = .ok (.done u) → Rest (fun _ => True) b u ∧ u.points = s.points
  | 0, s, u, k, ps, _, _, _, e => by simp [Trd.scanLoop] at e
  | n + 1, s, u, k, ps, h, hps, hne, e => by
    rw [Trd.scanLoop] at e
    obtain ⟨l, e1, e⟩ := bind_inv e
    unfold Trd.scanStep at e1
    by_cases h1 : k < s.upper.length
    · rw [if_pos h1] at e1
      obtain ⟨⟨v, c⟩, e2, e1⟩ := bind_inv e1
      obtain ⟨g1, g2, g3⟩ := rest_fold h hps UpTo.nil e2
      have hall : Rest (fun _ => True) b v := by
        have hw : ∀ j, True → (j ≠ k ∨ (j = k ∧ ps ≠ [])) := by
          intro j _
          by_cases hj : j = k
          · exact .inr ⟨hj, hne⟩
          · exact .inl hj
        exact ⟨g1.width, g1.points, g1.upper.weaken hw, g1.lower.weaken hw, g1.even⟩
      by_cases h2 : c.length = 0
      · rw [if_pos h2] at e1
        have := pure_inv e1
        subst this
        have := pure_inv e
        simp only [Trd.Loop.done.injEq] at this
        rw [← this]
        exact ⟨hall, g3⟩
      · rw [if_neg h2] at e1
        have := pure_inv e1
        subst this
        have hc : c ≠ [] := by simpa using h2
        simp only at e
        by_cases h3 : v.upper.length = k + 1
        · rw [if_pos h3] at e
          have hr : Rest (· ≠ k + 1) b { v with upper := v.upper ++ [[]], lower := v.lower ++ [[]] } := by
            refine ⟨hall.width, hall.points, ?_, ?_, by simpa using hall.even⟩
            · rw [← h3]; exact hall.upper.more
            · rw [← h3, hall.even]; exact hall.lower.more
          obtain ⟨r1, r2⟩ := rest_loop hr g2 hc e
          exact ⟨r1, r2.trans g3⟩
        · rw [if_neg h3] at e
          have hr : Rest (· ≠ k + 1) b v :=
            ⟨hall.width, hall.points, hall.upper.weaken fun _ _ => trivial, hall.lower.weaken fun _ _ => trivial,
              hall.even⟩
          obtain ⟨r1, r2⟩ := rest_loop hr g2 hc e
          exact ⟨r1, r2.trans g3⟩
    · rw [if_neg h1] at e1
      have := pure_inv e1
      subst this
      have := pure_inv e
      simp only [Trd.Loop.done.injEq] at this
      rw [← this]
      push Not at h1
      exact ⟨⟨h.width, h.points, h.upper.all h1, h.lower.all (h.even ▸ h1), h.even⟩, rfl⟩

theorem Rest.mono {K : ℕ → Prop} {a b : ℚ} {s : Trd} (h : Rest K a s) (hab : a ≤ b) : Rest K b s :=
  ⟨h.width, h.points.mono hab, h.upper.mono hab, h.lower.mono hab, h.even⟩

/-- The scan of a point, if it comes to an end. -/
theorem rest_scan {b x : ℚ} {n : ℕ} {y : Option ℚ} {s u : Trd} (h : Rest (fun _ => True) b s) (hx : x ≤ b)
    (e : s.trendScan n x y = .ok (.done u)) :
    Rest (fun _ => True) b u ∧ u.points = s.points ++ (y.map fun y => (x, y)).toList := by
  unfold Trd.trendScan at e
  cases y with
  | none =>
    simp only [Except.ok.injEq, Trd.Loop.done.injEq] at e
    subst e
    exact ⟨h, by simp⟩
  | some y =>
    have hq : UpTo b [(x, y)] := by
      intro q hq
      rw [List.mem_singleton.1 hq]; exact hx
    have hr : Rest (· ≠ 0) b { s with points := s.points ++ [(x, y)] } :=
      ⟨h.width, h.points.append hq, h.upper.weaken fun _ _ => trivial, h.lower.weaken fun _ _ => trivial, h.even⟩
    exact rest_loop hr hq (by simp) e

theorem rest_new {w : ℚ} (hw : 0 < w) (m : ℕ) (d r : ℚ) (yr ya : Option ℚ) (g b : ℚ) :
    Rest (fun _ => True) b (Trd.new w m d r yr ya g) := by
  have : Full (fun _ => True) b [[]] := by
    constructor
    · intro ls hls o ho
      rw [List.mem_singleton.1 hls] at ho
      cases ho
    · intro j hj _
      rw [List.getElem?_eq_none (by simp; omega)]; simp
  exact ⟨hw, UpTo.nil, this, this, rfl⟩

/-! ## An update beyond all points changes nothing -/

theorem removeStale_beyond {b : ℚ} {dom : Iv} {ps : List XY} (h : UpTo b ps)
    (hd : ∀ x, x ≤ b → dom.contains (.fin x) = false) : TLine.removeStale dom ps = ps := by
  have key : ∀ qs : List XY, UpTo b qs → TLine.staleLoop dom qs = qs := by
    intro qs
    induction qs with
    | nil => intro _; rfl
    | cons q qs ih =>
      intro hq
      rw [TLine.staleLoop, hd q.1 (hq q (by simp)), ih fun r hr => hq r (List.mem_cons_of_mem _ hr)]
      simp
  unfold TLine.removeStale
  rw [key _ fun p hp => h p (List.mem_reverse.1 hp), List.reverse_reverse]

theorem mapM_id {α : Type} {f : α → Except Err α} : ∀ {l : List α}, (∀ a ∈ l, f a = .ok a) → l.mapM f = .ok l
  | [], _ => rfl
  | a :: l, h => by
    rw [List.mapM_cons, h a (by simp), mapM_id fun b hb => h b (List.mem_cons_of_mem _ hb)]
    rfl

theorem beyond_nested {b : ℚ} {dom : Iv} {us : List XY} {L : List (List TLine)} (h : Full (fun _ => True) b L)
    (hd : ∀ x, x ≤ b → dom.contains (.fin x) = false) : Trd.updateNested dom us L = .ok L := by
  have hline : ∀ ls ∈ L, Trd.updateLines dom us ls = .ok ls := by
    intro ls hls
    unfold Trd.updateLines
    rw [mapM_id (l := ls.reverse)]
    · simp only [bind, Except.bind, pure, Except.pure, List.reverse_reverse, Except.ok.injEq, List.filter_eq_self]
      intro o ho
      have := (h.quiet ls hls o ho).ne
      simpa [TLine.isEmpty] using this
    · intro o ho
      have hq := h.quiet ls hls o (List.mem_reverse.1 ho)
      unfold TLine.beginUpdate
      split_ifs
      · rfl
      · simp only [removeStale_beyond hq.trend hd, removeStale_beyond hq.boundary hd, removeStale_beyond hq.inter hd,
          removeStale_beyond hq.tangents hd, removeStale_beyond hq.extremas hd]
        simp
  unfold Trd.updateNested
  rw [mapM_id fun ls hls => hline ls (List.mem_reverse.1 hls)]
  simp only [bind, Except.bind, List.reverse_reverse]
  cases L with
  | nil => rfl
  | cons l rest =>
    simp only [pure, Except.pure, Except.ok.injEq, List.cons.injEq, true_and, List.filter_eq_self, decide_eq_true_eq,
      ne_eq, List.length_eq_zero_iff]
    intro ls hls h0
    subst h0
    obtain ⟨j, hj⟩ := List.mem_iff_getElem?.1 hls
    exact h.ne (j + 1) (by omega) trivial (by simpa using hj)

theorem beyond_begin {b : ℚ} {dom : Iv} {s : Trd} (h : Rest (fun _ => True) b s)
    (hd : ∀ x, x ≤ b → dom.contains (.fin x) = false) : s.beginUpdate dom = .ok s := by
  unfold Trd.beginUpdate
  simp only [removeStale_beyond h.points hd, beyond_nested h.upper hd, beyond_nested h.lower hd, bind, Except.bind,
    pure, Except.pure]

end Props
end Curvepy
