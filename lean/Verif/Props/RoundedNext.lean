import Verif.Props.RoundedUniform
import Verif.Lemmas.PointsNext

/-!
# The next and the previous point with rounded arithmetic

`C148`: `x_next` and `x_previous` of points when every operation rounds.
-/

namespace Curvepy
namespace Props
open Spec Pts

variable {fl : ℚ → ℚ} {u : ℚ}

/-- What the index of a position is known to be: at most `0` before the points, at least that of the last one after them,
and between the points of index `k` and `k + 1` off by at most `e k`. -/
structure Indexed (fl : ℚ → ℚ) (s : Pts ℚ) (e : ℕ → ℚ) : Prop where
  asc : Ascending s.points
  dom : s.domVal = span s.points
  nonneg : ∀ k, 0 ≤ e k
  before : ∀ z, s.points ≠ [] → (∀ p ∈ s.points, z < p.1) → ∃ r, s.xIndexR fl z = .ok r ∧ r ≤ 0
  after : ∀ z, s.points ≠ [] → (∀ p ∈ s.points, p.1 < z) →
    ∃ r, s.xIndexR fl z = .ok r ∧ (s.points.length : ℚ) - 1 ≤ r
  knot : ∀ (k : ℕ) (p : Pt ℚ), s.points[k]? = some p → s.xIndexR fl p.1 = .ok (k : ℚ)
  gap : ∀ (k : ℕ) (p q : Pt ℚ) (z : ℚ), s.points[k]? = some p → s.points[k + 1]? = some q → p.1 < z → z < q.1 →
    ∃ t, ReadAt fl s k p q z t ∧ |t - (z - p.1) / (q.1 - p.1)| ≤ e k

/-- Points at any distances. -/
theorem indexed_gaps (R : Rounding fl u) {s : Pts ℚ} (hu : s.isUniform = false) (asc : Ascending s.points)
    (hd : s.domVal = span s.points) (hm : ∀ i : ℕ, i < s.points.length → Machine fl i) :
    Indexed fl s (fun k => ((k : ℚ) + 6) * u) := by
  refine ⟨asc, hd, fun k => ?_, fun z hne hb => ?_, fun z hne ha => ?_, fun k p hp => xIndexR_knot R hu asc hm hp, ?_⟩
  · have := R.nonneg
    positivity
  · have hpos := List.length_pos_iff.2 hne
    exact ⟨0, xIndexR_first hu asc (List.getElem?_eq_getElem hpos) (hb _ (List.getElem_mem hpos)).le, le_rfl⟩
  · have hpos := List.length_pos_iff.2 hne
    have ⟨hb1, hb2⟩ := bisect_spec s.points z asc
    have hl : s.points.length - 1 < s.points.length := by omega
    have h1 := (hb2 _ _ (List.getElem?_eq_getElem hl)).2 (ha _ (List.getElem_mem hl))
    have hb : bisect s.points z = s.points.length := by omega
    refine ⟨(s.points.length : ℚ) - 1, ?_, le_rfl⟩
    unfold xIndexR
    simp only [hu, hb, Bool.false_eq_true, if_false, le_refl, if_true]
    rw [if_neg (by omega)]
  · intro k p q z hp hq h1 h2
    exact readAt_gap R hu asc hd hm hp hq h1 h2.le

/-- Equally spaced points. -/
theorem indexed_grid (R : Rounding fl u) {s : Pts ℚ} (hu : s.isUniform = true) {x0 h : ℚ}
    (g : Grid fl (s.points.map Prod.fst) x0 h) (hi : s.interval = some h) (hd : s.domVal = span s.points) :
    Indexed fl s (fun k => 3 * ((k : ℚ) + 1) * u) := by
  have asc := Grid_asc g
  have hh := g.pos
  refine ⟨asc, hd, fun k => ?_, fun z hne hb => ?_, fun z hne ha => ?_, fun k p hp => xIndexR_grid_knot R hu g hi hp, ?_⟩
  · have := R.nonneg
    positivity
  · match hpts : s.points, hne with
    | p0 :: ps, _ =>
      have h0 := hb p0 (by rw [hpts]; simp)
      refine ⟨fl (fl (z - p0.1) / h), ?_, ?_⟩
      · unfold xIndexR
        simp only [hu, if_true, hi, hpts, hh.ne', if_false]
      · have h1 := R.le_of R.zero (by linarith : z - p0.1 ≤ 0)
        exact R.le_of R.zero (div_nonpos_of_nonpos_of_nonneg h1 hh.le)
  · have hpos := List.length_pos_iff.2 hne
    have hl : s.points.length - 1 < s.points.length := by omega
    have hlast := List.getElem?_eq_getElem hl
    have h1 := ha _ (List.getElem_mem hl)
    have el := Grid_at g hlast
    match hpts : s.points, hne with
    | p0 :: ps, _ =>
      have e0 := Grid_at g (k := 0) (p := p0) (by rw [hpts]; rfl)
      push_cast at e0
      have hk : ((s.points.length - 1 : ℕ) : ℚ) = (s.points.length : ℚ) - 1 := by
        rw [Nat.cast_sub (by omega)]
        simp
      refine ⟨fl (fl (z - p0.1) / h), ?_, ?_⟩
      · unfold xIndexR
        simp only [hu, if_true, hi, hpts, hh.ne', if_false]
      · have m1 := g.multiple (s.points.length - 1) (by simp; omega)
        have m2 := g.index (s.points.length - 1) (by simp; omega)
        have := R.ge_of m1 (by rw [el] at h1; linarith : ((s.points.length - 1 : ℕ) : ℚ) * h ≤ z - p0.1)
        have := R.ge_of m2 ((le_div_iff₀ hh).2 this)
        rwa [hk, hpts] at this
  · intro k p q z hp hq h1 h2
    exact readAt_grid R hu g hi hd hp hq h1.le h2.le

/-- The index of the next point. -/
theorem ceilR {s : Pts ℚ} {e : ℕ → ℚ} (I : Indexed fl s e) {z : ℚ}
    (hz : ∃ q, s.points[s.points.length - 1]? = some q ∧ z ≤ q.1) :
    ∃ (v : ℚ) (k : ℕ) (p : Pt ℚ), s.xIndexR fl z = .ok v ∧ max 0 ⌈v⌉ = (k : ℤ) ∧ s.points[k]? = some p
      ∧ ((z ≤ p.1 ∧ ∀ i q, i < k → s.points[i]? = some q → q.1 < z)
        ∨ ∃ q, s.points[k + 1]? = some q ∧ p.1 < z ∧ z < q.1 ∧ z - p.1 ≤ e k * (q.1 - p.1)) := by
  obtain ⟨l, hl, hzl⟩ := hz
  have hpos : 0 < s.points.length := by
    have := (List.getElem?_eq_some_iff.1 hl).1
    omega
  have hne : s.points ≠ [] := List.length_pos_iff.1 hpos
  cases locate s.points I.asc z with
  | before hb =>
    obtain ⟨v, hv, hv0⟩ := I.before z hne hb
    refine ⟨v, 0, _, hv, ?_, List.getElem?_eq_getElem hpos, .inl ⟨(hb _ (List.getElem_mem hpos)).le, by omega⟩⟩
    rw [Nat.cast_zero, max_eq_left]
    exact Int.ceil_le.2 (by simpa using hv0)
  | after h =>
    have := h l (List.mem_of_getElem? hl)
    exact absurd hzl (not_le.2 this)
  | knot k p hk hx =>
    refine ⟨k, k, p, by rw [hx]; exact I.knot k p hk, by simp, hk, .inl ⟨hx.le, ?_⟩⟩
    intro i q hi hq
    rw [hx]
    exact I.asc.lt hq hk hi
  | gap k p q hp hq hpx hxq =>
    obtain ⟨t, h, te⟩ := I.gap k p q z hp hq hpx hxq
    have hg : 0 < q.1 - p.1 := by linarith
    rcases eq_or_lt_of_le h.nonneg with e0 | e0
    · refine ⟨(k : ℚ) + t, k, p, h.idx, ?_, hp, .inr ⟨q, hq, hpx, hxq, ?_⟩⟩
      · rw [← e0]
        simp
      · rw [← e0, zero_sub, abs_neg, abs_of_nonneg (div_nonneg (by linarith) hg.le), div_le_iff₀ hg] at te
        exact te
    · refine ⟨(k : ℚ) + t, k + 1, q, h.idx, ?_, hq, .inl ⟨hxq.le, ?_⟩⟩
      · have : ⌈(k : ℚ) + t⌉ = ((k + 1 : ℕ) : ℤ) := by
          rw [Int.ceil_eq_iff]
          push_cast
          have := h.le_one
          exact ⟨by linarith, by linarith⟩
        rw [this]
        exact max_eq_right (by positivity)
      · intro i r hi hr
        exact lt_of_le_of_lt (I.asc.le hr hp (by omega)) hpx

/-- The index of the previous point. -/
theorem floorR {s : Pts ℚ} {e : ℕ → ℚ} (I : Indexed fl s e) {z : ℚ} (hz : ∃ q, s.points[0]? = some q ∧ q.1 ≤ z) :
    ∃ (v : ℚ) (k : ℕ) (p : Pt ℚ), s.xIndexR fl z = .ok v ∧ min ((s.points.length : ℤ) - 1) ⌊v⌋ = (k : ℤ)
      ∧ s.points[k]? = some p
      ∧ ((p.1 ≤ z ∧ ∀ i q, k < i → s.points[i]? = some q → z < q.1)
        ∨ ∃ j q, k = j + 1 ∧ s.points[j]? = some q ∧ q.1 < z ∧ z < p.1 ∧ p.1 - z ≤ e j * (p.1 - q.1)) := by
  obtain ⟨f, hf, hfz⟩ := hz
  have hpos : 0 < s.points.length := (List.getElem?_eq_some_iff.1 hf).1
  have hne : s.points ≠ [] := List.length_pos_iff.1 hpos
  cases locate s.points I.asc z with
  | before h =>
    have := h f (List.mem_of_getElem? hf)
    exact absurd hfz (not_le.2 this)
  | after hb =>
    obtain ⟨v, hv, hv0⟩ := I.after z hne hb
    refine ⟨v, s.points.length - 1, _, hv, ?_, List.getElem?_eq_getElem (by omega),
      .inl ⟨(hb _ (List.getElem_mem _)).le, ?_⟩⟩
    · rw [min_eq_left]
      · omega
      · refine Int.le_floor.2 ?_
        push_cast
        exact hv0
    · intro i q hi hq
      have := (List.getElem?_eq_some_iff.1 hq).1
      omega
  | knot k p hk hx =>
    have := (List.getElem?_eq_some_iff.1 hk).1
    refine ⟨k, k, p, by rw [hx]; exact I.knot k p hk, ?_, hk, .inl ⟨hx.ge, ?_⟩⟩
    · rw [Int.floor_natCast]; exact min_eq_right (by omega)
    · intro i q hi hq
      rw [hx]
      exact I.asc.lt hk hq hi
  | gap k p q hp hq hpx hxq =>
    obtain ⟨t, h, te⟩ := I.gap k p q z hp hq hpx hxq
    have hlen := (List.getElem?_eq_some_iff.1 hq).1
    have hg : 0 < q.1 - p.1 := by linarith
    rcases eq_or_lt_of_le h.le_one with e0 | e0
    · refine ⟨(k : ℚ) + t, k + 1, q, h.idx, ?_, hq, .inr ⟨k, p, rfl, hp, hpx, hxq, ?_⟩⟩
      · have : ⌊(k : ℚ) + t⌋ = ((k + 1 : ℕ) : ℤ) := by
          rw [e0]
          exact_mod_cast Int.floor_natCast (R := ℚ) (k + 1)
        rw [this]
        exact min_eq_right (by omega)
      · have h1 : (z - p.1) / (q.1 - p.1) ≤ 1 := (div_le_one hg).2 (by linarith)
        rw [e0, abs_of_nonneg (by linarith)] at te
        have h2 : 1 - (z - p.1) / (q.1 - p.1) = (q.1 - z) / (q.1 - p.1) := by
          field_simp
          ring
        rw [h2, div_le_iff₀ hg] at te
        exact te
    · refine ⟨(k : ℚ) + t, k, p, h.idx, ?_, hp, .inl ⟨hpx.le, ?_⟩⟩
      · rw [floor_nat_add h.nonneg e0]
        exact min_eq_right (by omega)
      · intro i r hi hr
        exact lt_of_lt_of_le hxq (I.asc.le hq hr (by omega))

/-- **The next point** is the first one at or after `fl (x + m)` (none if there is none), or, if that position is right
behind a point, that point. -/
theorem C148_next {s : Pts ℚ} {e : ℕ → ℚ} (I : Indexed fl s e) {ms : Option ℚ} {m : ℚ}
    (hm : resolveMinStep s.minStep ms = some m) (x : ℚ) :
    s.xNextR fl x ms = .ok (firstFrom s.points (fl (x + m)))
      ∨ ∃ k p q, s.points[k]? = some p ∧ s.points[k + 1]? = some q ∧ p.1 < fl (x + m) ∧ fl (x + m) < q.1
        ∧ fl (x + m) - p.1 ≤ e k * (q.1 - p.1) ∧ s.xNextR fl x ms = .ok (some p.1) := by
  unfold xNextR
  rw [I.dom, ← getDomain_eq_span, hm]
  by_cases hne : s.points = []
  · left
    simp [hne, getDomain, firstFrom]
  · rw [getDomain_not_isEmpty I.asc hne]
    simp only [Bool.false_eq_true, if_false]
    by_cases hc : (getDomain s.points).contains (.fin (fl (x + m))) (enforceStart := false) = true
    · obtain ⟨_, hq⟩ := (contains_noStart _ _).1 hc
      obtain ⟨v, k, p, hv, hk, hp, h⟩ := ceilR I hq
      simp only [hc, Bool.not_true, Bool.false_eq_true, if_false, hv, bind, Except.bind, hk, pyGet_nat hp, pure,
        Except.pure]
      rcases h with ⟨hle, hlt⟩ | ⟨q, hq, h1, h2, h3⟩
      · left
        rw [firstFrom_eq_some I.asc hp hle hlt]
      · exact .inr ⟨k, p, q, hp, hq, h1, h2, h3, rfl⟩
    · left
      have hn : ¬ ∃ q, s.points[s.points.length - 1]? = some q ∧ fl (x + m) ≤ q.1 := by
        intro hq
        exact hc ((contains_noStart _ _).2 ⟨getDomain_not_isEmpty I.asc hne, hq⟩)
      rw [firstFrom_eq_none ((after_iff I.asc hne _).2 hn)]
      have hc' : (getDomain s.points).contains (.fin (fl (x + m))) (enforceStart := false) = false := by
        simpa using hc
      simp [hc']

/-- **The previous point** is the last one at or before `fl (x - m)` (none if there is none), or, if that position is
right before a point, that point. -/
theorem C148_previous {s : Pts ℚ} {e : ℕ → ℚ} (I : Indexed fl s e) {ms : Option ℚ} {m : ℚ}
    (hm : resolveMinStep s.minStep ms = some m) (x : ℚ) :
    s.xPreviousR fl x ms = .ok (lastUpTo s.points (fl (x - m)))
      ∨ ∃ k p q, s.points[k]? = some p ∧ s.points[k + 1]? = some q ∧ p.1 < fl (x - m) ∧ fl (x - m) < q.1
        ∧ q.1 - fl (x - m) ≤ e k * (q.1 - p.1) ∧ s.xPreviousR fl x ms = .ok (some q.1) := by
  unfold xPreviousR
  rw [I.dom, ← getDomain_eq_span, hm]
  by_cases hne : s.points = []
  · left
    simp [hne, getDomain, lastUpTo]
  · rw [getDomain_not_isEmpty I.asc hne]
    simp only [Bool.false_eq_true, if_false]
    by_cases hc : (getDomain s.points).contains (.fin (fl (x - m))) (enforceEnd := false) = true
    · obtain ⟨_, hq⟩ := (contains_noEnd _ _).1 hc
      obtain ⟨v, k, p, hv, hk, hp, h⟩ := floorR I hq
      simp only [hc, Bool.not_true, Bool.false_eq_true, if_false, hv, bind, Except.bind, hk, pyGet_nat hp, pure,
        Except.pure]
      rcases h with ⟨hle, hlt⟩ | ⟨j, q, hj, hq, h1, h2, h3⟩
      · left
        rw [lastUpTo_eq_some I.asc hp hle hlt]
      · subst hj
        exact .inr ⟨j, q, p, hq, hp, h1, h2, h3, rfl⟩
    · left
      have hn : ¬ ∃ q, s.points[0]? = some q ∧ q.1 ≤ fl (x - m) := by
        intro hq
        exact hc ((contains_noEnd _ _).2 ⟨getDomain_not_isEmpty I.asc hne, hq⟩)
      rw [lastUpTo_eq_none ((before_iff I.asc hne _).2 hn)]
      have hc' : (getDomain s.points).contains (.fin (fl (x - m))) (enforceEnd := false) = false := by
        simpa using hc
      simp [hc']

/-- **From a point to the next**: with a step of at least the given share of the distance to the next point, and no longer
than it, `x_next` moves on to it. -/
theorem C148_forward (R : Rounding fl u) {s : Pts ℚ} {e : ℕ → ℚ} (I : Indexed fl s e) {ms : Option ℚ} {m : ℚ}
    (hm : resolveMinStep s.minStep ms = some m) {k : ℕ} {p q : Pt ℚ} (hp : s.points[k]? = some p)
    (hq : s.points[k + 1]? = some q) (h1 : e k * (q.1 - p.1) + u * |p.1 + m| < m) (hq' : Machine fl q.1)
    (h2 : p.1 + m ≤ q.1) : s.xNextR fl p.1 ms = .ok (some q.1) := by
  have hpq := I.asc.lt hp hq (by omega)
  have he := mul_nonneg (I.nonneg k) (by linarith : 0 ≤ q.1 - p.1)
  have hz := R.err (p.1 + m)
  rw [abs_le] at hz
  have z1 : p.1 + e k * (q.1 - p.1) < fl (p.1 + m) := by linarith
  have z2 : fl (p.1 + m) ≤ q.1 := R.le_of hq' h2
  have first : firstFrom s.points (fl (p.1 + m)) = some q.1 := by
    refine firstFrom_eq_some I.asc hq z2 ?_
    intro i r hi hr
    have := I.asc.le hr hp (by omega)
    linarith
  rcases C148_next I hm p.1 with h | ⟨k', p', q', hp', hq', a1, a2, a3, a4⟩
  · rw [h, first]
  · have : k' = k := by
      by_contra hne
      rcases lt_or_gt_of_ne hne with hlt | hlt
      · have := I.asc.le hq' hp (by omega)
        linarith
      · have := I.asc.le hq hp' (by omega)
        linarith
    subst this
    rw [hp] at hp'
    rw [hq] at hq'
    cases hp'
    cases hq'
    linarith

/-- **From a point to the previous** one. -/
theorem C148_backward (R : Rounding fl u) {s : Pts ℚ} {e : ℕ → ℚ} (I : Indexed fl s e) {ms : Option ℚ} {m : ℚ}
    (hm : resolveMinStep s.minStep ms = some m) {k : ℕ} {p q : Pt ℚ} (hp : s.points[k]? = some p)
    (hq : s.points[k + 1]? = some q) (h1 : e k * (q.1 - p.1) + u * |q.1 - m| < m) (hp' : Machine fl p.1)
    (h2 : p.1 ≤ q.1 - m) : s.xPreviousR fl q.1 ms = .ok (some p.1) := by
  have hpq := I.asc.lt hp hq (by omega)
  have he := mul_nonneg (I.nonneg k) (by linarith : 0 ≤ q.1 - p.1)
  have hz := R.err (q.1 - m)
  rw [abs_le] at hz
  have z1 : fl (q.1 - m) < q.1 - e k * (q.1 - p.1) := by linarith
  have z2 : p.1 ≤ fl (q.1 - m) := R.ge_of hp' h2
  have last : lastUpTo s.points (fl (q.1 - m)) = some p.1 := by
    refine lastUpTo_eq_some I.asc hp z2 ?_
    intro i r hi hr
    have := I.asc.le hq hr (by omega)
    linarith
  rcases C148_previous I hm q.1 with h | ⟨k', p', q', hp', hq', a1, a2, a3, a4⟩
  · rw [h, last]
  · have : k' = k := by
      by_contra hne
      rcases lt_or_gt_of_ne hne with hlt | hlt
      · have := I.asc.le hq' hp (by omega)
        linarith
      · have := I.asc.le hq hp' (by omega)
        linarith
    subst this
    rw [hp] at hp'
    rw [hq] at hq'
    cases hp'
    cases hq'
    linarith

/-! ## Examples -/

/-- The hypotheses hold for three points at different distances and the step `10⁻⁵` of the library: from each point the
next one is reached, and back. -/
example : (oddSpaced .linear [(0, some 1), (1 / 2, some (-3)), (7, some 2)]).xNextR fl64 (1 / 2) (some (fl64 (1 / 10 ^ 5)))
      = .ok (some 7)
    ∧ (oddSpaced .linear [(0, some 1), (1 / 2, some (-3)), (7, some 2)]).xPreviousR fl64 (1 / 2)
      (some (fl64 (1 / 10 ^ 5))) = .ok (some 0) := by
  have I : Indexed fl64 (oddSpaced .linear [(0, some 1), (1 / 2, some (-3)), (7, some 2)])
      (fun k => ((k : ℚ) + 6) * (1 / 2 ^ 53)) := by
    refine indexed_gaps fl64_rounding rfl ?_ ?_ fun i hi => small_machine (by simp [oddSpaced] at hi; omega)
    · unfold oddSpaced Ascending
      norm_num
    · rw [← getDomain_eq_span]
      rfl
  have hb := fl64_rounding.bounds (by norm_num : (0 : ℚ) ≤ 1 / 10 ^ 5)
  constructor
  · refine C148_forward fl64_rounding I (m := fl64 (1 / 10 ^ 5)) rfl (k := 1) (p := (1 / 2, some (-3))) (q := (7, some 2))
      rfl rfl ?_ (by show fl64 _ = _; decide +kernel) ?_
    · rw [abs_of_nonneg (by linarith)]
      norm_num at hb ⊢
      linarith
    · norm_num at hb ⊢
      linarith
  · refine C148_backward fl64_rounding I (m := fl64 (1 / 10 ^ 5)) rfl (k := 0) (p := (0, some 1)) (q := (1 / 2, some (-3)))
      rfl rfl ?_ (by show fl64 _ = _; decide +kernel) ?_
    · have : (0 : ℚ) ≤ 1 / 2 - fl64 (1 / 10 ^ 5) := by
        norm_num at hb ⊢
        linarith
      rw [abs_of_nonneg this]
      norm_num at hb ⊢
      linarith
    · norm_num at hb ⊢
      linarith

/-- **No progress**: with points at `0`, `1` and `2 ^ 40` and the step `10⁻⁵` of the library the next point after `1` is
`1` again, since the small fraction of the distance is lost in the index. -/
theorem C148_negation :
    (do
      let s ← newR fl64 [(0, some 0), (1, some 1), (2 ^ 40, some 2)] .linear false
      s.xNextR fl64 1 (some (fl64 (1 / 10 ^ 5)))) = .ok (some 1) := by
  decide +kernel

/-- **No progress with a small step**: at `2 ^ 53` the step `1` is lost, and the point itself is its next one. -/
theorem C148_absorbed :
    (do
      let s ← newR fl64 [(0, some 0), (2 ^ 53, some 1), (2 ^ 55, some 2)] .linear false
      s.xNextR fl64 (2 ^ 53) (some 1)) = .ok (some (2 ^ 53)) := by
  decide +kernel

end Props
end Curvepy
