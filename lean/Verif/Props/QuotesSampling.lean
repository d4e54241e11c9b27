import Verif.Spec.QuotesSampling
import Verif.Props.Quotes
import Verif.Props.OffsetDuration
import Verif.Props.PointsSampling

/-!
# Property C138: sampling of quotes
-/

namespace Curvepy
namespace Props
open Spec Quotes

/-! ## Runs of whole periods -/

theorem Dur.period_le (D : Dur) {a b : ℚ} (h : a ≤ b) : D.period a ≤ D.period b := by
  by_contra hc
  have h1 := D.lt_next b
  have h2 := D.start_le a
  have h3 : D.start (D.period b + 1) ≤ D.start (D.period a) := D.mono.monotone (by omega)
  linarith

theorem Dur.start_le_iff (D : Dur) (k : ℤ) (x : ℚ) : D.start k ≤ x ↔ k ≤ D.period x := by
  constructor
  · intro h
    have := Dur.period_le D h
    rwa [Dur.period_start D] at this
  · intro h
    exact le_trans (D.mono.monotone h) (D.start_le x)

theorem Dur.lt_start_iff (D : Dur) (k : ℤ) (x : ℚ) : x < D.start k ↔ D.period x < k := by
  rw [← not_le, Dur.start_le_iff D, not_le]

theorem Dur.above_le_iff (D : Dur) (q : ℚ) (k : ℤ) : k < D.above q ↔ D.start k < q := by
  unfold Dur.above
  split
  · rename_i h
    rw [← D.mono.lt_iff_lt, h]
  · rename_i h
    rw [Int.lt_add_one_iff, ← Dur.start_le_iff D]
    constructor
    · intro hk
      refine lt_of_le_of_ne hk fun he => h ?_
      rw [← he, Dur.period_start D]
    · exact le_of_lt

theorem geLo_up {d : Iv} {a b : Ext} (h : a ≤ b) (ha : d.geLo a = true) : d.geLo b = true := by
  rw [Iv.geLo_iff] at ha ⊢
  rcases ha with ha | ⟨ha, ho⟩
  · exact Or.inl (lt_of_lt_of_le ha h)
  · rcases h.lt_or_eq with h | h
    · exact Or.inl (ha ▸ h)
    · exact Or.inr ⟨ha.trans h, ho⟩

theorem leHi_down {d : Iv} {a b : Ext} (h : b ≤ a) (ha : d.leHi a = true) : d.leHi b = true := by
  rw [Iv.leHi_iff] at ha ⊢
  rcases ha with ha | ⟨ha, ho⟩
  · exact Or.inl (lt_of_le_of_lt h ha)
  · rcases h.lt_or_eq with h | h
    · exact Or.inl (ha ▸ h)
    · exact Or.inr ⟨h.trans ha, ho⟩

/-- The lower bound of the run of whole periods. -/
theorem span_geLo (D : Dur) (d : Iv) (x : ℚ) :
    (D.span d).geLo (.fin x) = true ↔ ∃ z, D.period z = D.period x ∧ d.geLo (.fin z) = true := by
  simp only [Iv.geLo_iff]
  obtain ⟨lo, hi, lo', hi'⟩ := d
  cases lo with
  | ninf => simp [Dur.span]
  | pinf => simp [Dur.span]
  | fin a =>
    simp only [Dur.span, Dur.floor, Ext.fin_lt_fin, Ext.fin.injEq, and_true, ← le_iff_lt_or_eq, Dur.start_le_iff D]
    constructor
    · intro h
      by_cases hx : a < x
      · exact ⟨x, rfl, Or.inl hx⟩
      · have hk : D.period a = D.period x := le_antisymm h (Dur.period_le D (not_lt.1 hx))
        obtain ⟨z, h1, h2⟩ := exists_between (D.lt_next a)
        refine ⟨z, ?_, Or.inl h1⟩
        rw [← hk]
        exact Dur.period_eq D (le_trans (D.start_le a) h1.le) h2
    · rintro ⟨z, h1, h2⟩
      rw [← h1]
      exact Dur.period_le D (h2.elim le_of_lt fun h => h.1.le)

/-- The upper bound of the run of whole periods. -/
theorem span_leHi (D : Dur) (d : Iv) (x : ℚ) :
    (D.span d).leHi (.fin x) = true ↔ ∃ z, D.period z = D.period x ∧ d.leHi (.fin z) = true := by
  simp only [Iv.leHi_iff]
  obtain ⟨lo, hi, lo', hi'⟩ := d
  cases hi with
  | pinf => simp [Dur.span]
  | ninf => simp [Dur.span]
  | fin b =>
    cases hi' with
    | true =>
      simp only [Dur.span, Dur.ceil, Ext.fin_lt_fin, if_true, Dur.lt_start_iff D, Dur.above_le_iff D, Bool.true_eq_false, and_false, or_false]
      constructor
      · intro h
        exact ⟨D.start (D.period x), Dur.period_start D _, h⟩
      · rintro ⟨z, h1, h2⟩
        rw [← h1]
        exact lt_of_le_of_lt (D.start_le z) h2
    | false =>
      simp only [Dur.span, Dur.next, Ext.fin_lt_fin, Bool.false_eq_true, if_false, Dur.lt_start_iff D, Bool.true_eq_false, and_false, or_false,
        Ext.fin.injEq, and_true, ← le_iff_lt_or_eq, Int.lt_add_one_iff]
      constructor
      · intro h
        exact ⟨D.start (D.period x), Dur.period_start D _, (Dur.start_le_iff D _ _).2 h⟩
      · rintro ⟨z, h1, h2⟩
        rw [← h1]
        exact Dur.period_le D h2

theorem period_between (D : Dur) {a b c : ℚ} {k : ℤ} (h1 : a ≤ b) (h2 : b ≤ c) (ha : D.period a = k) (hc : D.period c = k) :
    D.period b = k :=
  le_antisymm (hc ▸ Dur.period_le D h2) (ha ▸ Dur.period_le D h1)

/-- The run of whole periods has an instant if the period of the instant meets the interval. -/
theorem C138_span (D : Dur) {d : Iv} (hd : d.isEmpty = false) (x : ℚ) :
    (D.span d).contains (.fin x) = true ↔ PeriodMeets D d x := by
  rw [Iv.contains_iff, span_geLo, span_leHi]
  unfold PeriodMeets
  simp only [Iv.contains_iff]
  constructor
  · rintro ⟨⟨u, hu, hu'⟩, v, hv, hv'⟩
    obtain ⟨w, hw⟩ := Iv.exists_mem d hd
    rw [Iv.contains_iff] at hw
    obtain ⟨hw1, hw2⟩ := hw
    by_cases c1 : w ≤ .fin u
    · by_cases c2 : w ≤ .fin v
      · by_cases c3 : u ≤ v
        · exact ⟨u, hu, hu', leHi_down ((Ext.fin_le_fin _ _).2 c3) hv'⟩
        · exact ⟨v, hv, geLo_up c2 hw1, hv'⟩
      · cases w with
        | ninf => simp at c2
        | pinf => simp at c1
        | fin w =>
          rw [Ext.fin_le_fin] at c1 c2
          exact ⟨w, period_between D (not_le.1 c2).le c1 hv hu, hw1, hw2⟩
    · have c1' := (not_le.1 c1).le
      by_cases c2 : w ≤ .fin v
      · cases w with
        | ninf => simp at c1
        | pinf => simp at c2
        | fin w =>
          rw [Ext.fin_le_fin] at c1' c2
          exact ⟨w, period_between D c1' c2 hu hv, hw1, hw2⟩
      · exact ⟨u, hu, hu', leHi_down c1' hw2⟩
  · rintro ⟨z, h, h1, h2⟩
    exact ⟨⟨z, h, h1⟩, z, h, h2⟩

/-! ## What is sampled -/

/-- **C138** Sampling gives, in order, the quotes whose period has an instant in common with the domain asked for. -/
theorem C138_sampled {q : Quotes} (h : QHonest q) (D : Dur) {domain : Option Iv} {m step : Option ℚ} (fuel : ℕ)
    (hd : (domain.getD Iv.infinite).isEmpty = false) (hr : Regular q.points.points m step) :
    ∃ l, q.samplePoints D domain m step fuel = some (.ok l) ∧ q.sample D domain m step fuel = some (.ok (l.map (·.2))) ∧
      l.Sublist q.points.points ∧ ∀ p ∈ q.points.points, p ∈ l ↔ PeriodMeets D (domain.getD Iv.infinite) p.1 := by
  have hh := (qhonest h).1
  have h1 : q.samplePoints D domain m step fuel = some (.ok (q.points.points.filter fun p =>
      (D.span (domain.getD Iv.infinite)).contains (.fin p.1))) := by
    unfold Quotes.samplePoints
    simp only [hd, Bool.false_eq_true, if_false]
    rw [C142_stored hh _ fuel hr]
    rfl
  refine ⟨_, h1, by rw [Quotes.sample, h1]; rfl, List.filter_sublist, fun p hp => ?_⟩
  rw [List.mem_filter, C138_span D hd]
  exact ⟨fun h => h.2, fun h => ⟨hp, h⟩⟩

/-- **C138** Nothing is sampled on an empty domain, and without a domain everything is. -/
theorem C138_all {q : Quotes} (h : QHonest q) (D : Dur) {m step : Option ℚ} (fuel : ℕ) :
    (∀ d : Iv, d.isEmpty = true → q.samplePoints D (some d) m step fuel = some (.ok []) ∧ q.sample D (some d) m step fuel = some (.ok [])) ∧
    (Regular q.points.points m step → q.samplePoints D none m step fuel = some (.ok q.points.points)) := by
  constructor
  · intro d hd
    have h1 : q.samplePoints D (some d) m step fuel = some (.ok []) := by
      unfold Quotes.samplePoints
      simp [hd]
    exact ⟨h1, by rw [Quotes.sample, h1]; rfl⟩
  · intro hr
    have hh := (qhonest h).1
    have hd : (Iv.infinite).isEmpty = false := by decide
    unfold Quotes.samplePoints
    simp only [Option.getD_none, hd, Bool.false_eq_true, if_false]
    rw [C142_stored hh _ fuel hr, List.filter_eq_self.2]
    intro p _
    rw [Option.getD_some, C138_span D hd]
    exact ⟨p.1, rfl, by simp⟩

/-! ## The domain of the quotes -/

theorem gapless_mem {D : Dur} : ∀ {l : List (Pt Quote)} {k : ℤ}, Gapless D k l →
    ∀ {i : ℕ} {p : Pt Quote}, l[i]? = some p → p.1 = D.start (k + i)
  | [], _, _, _, _, hp => by simp at hp
  | a :: l, k, h, 0, p, hp => by
    simp only [List.getElem?_cons_zero, Option.some.injEq] at hp
    rw [← hp, h.1]
    simp
  | a :: l, k, h, i + 1, p, hp => by
    rw [gapless_mem h.2 (by simpa using hp)]
    congr 1
    push_cast
    ring

theorem gapless_domain {D : Dur} {k : ℤ} {l : List (Pt Quote)} (hl : l ≠ []) (h : Gapless D k l) :
    Pts.getDomain l = Iv.closed (D.start k) (D.start (k + (l.length - 1 : ℕ))) := by
  cases l with
  | nil => exact absurd rfl hl
  | cons p ps =>
    have h1 := gapless_mem h (i := ps.length) (p := (p :: ps).getLast (by simp))
      (by rw [List.getLast_eq_getElem]; simp)
    simp only [Pts.getDomain]
    rw [h1, h.1]
    simp [Iv.closed]

/-- **C138** The domain of quotes without gaps runs from the beginning of the first period to the end of the last. -/
theorem C138_domain {q : Quotes} (h : QHonest q) {D : Dur} {k : ℤ} (hg : Gapless D k q.points.points) :
    (q.points.points = [] → (q.quoteDomain D).isEmpty = true) ∧
    (q.points.points ≠ [] → q.quoteDomain D = Iv.closedOpen (D.start k) (D.start (k + q.points.points.length))) ∧
    ∀ x, (q.quoteDomain D).contains (.fin x) = true ↔ ∃ p ∈ q.points.points, D.period p.1 = D.period x := by
  have hh := (qhonest h).1
  have hv := hh.base.domVal
  have he := Pts.getDomain_isEmpty_iff hh.base.asc
  have h1 : q.points.points = [] → (q.quoteDomain D).isEmpty = true := by
    intro hp
    have h2 := he.2 hp
    unfold quoteDomain
    simp [hv, h2]
  have h2 : q.points.points ≠ [] → q.quoteDomain D = Iv.closedOpen (D.start k) (D.start (k + q.points.points.length)) := by
    intro hp
    have h3 : (Pts.getDomain q.points.points).isEmpty = false := by
      rw [← Bool.not_eq_true]; exact fun hc => hp (he.1 hc)
    unfold quoteDomain
    simp only [hv, h3, Bool.false_eq_true, if_false]
    rw [gapless_domain hp hg]
    have : (k + ((q.points.points.length - 1 : ℕ) : ℤ)) + 1 = k + q.points.points.length := by
      have := List.length_pos_of_ne_nil hp
      omega
    simp [Dur.span, Iv.closed, Iv.closedOpen, Dur.floor, Dur.next, this]
  refine ⟨h1, h2, fun x => ?_⟩
  by_cases hp : q.points.points = []
  · constructor
    · intro hc
      rw [(Iv.isEmpty_iff_forall _).1 (h1 hp)] at hc
      cases hc
    · rintro ⟨p, hm, _⟩
      rw [hp] at hm
      cases hm
  · rw [h2 hp, Iv.contains_closedOpen]
    simp only [Bool.and_eq_true, decide_eq_true_eq, Dur.start_le_iff D, Dur.lt_start_iff D]
    constructor
    · rintro ⟨a, b⟩
      have hi : (D.period x - k).toNat < q.points.points.length := by omega
      refine ⟨q.points.points[(D.period x - k).toNat], List.getElem_mem hi, ?_⟩
      rw [gapless_mem hg (List.getElem?_eq_getElem hi), Dur.period_start D]
      omega
    · rintro ⟨p, hm, hx⟩
      obtain ⟨i, hi⟩ := List.getElem?_of_mem hm
      rw [gapless_mem hg hi, Dur.period_start D] at hx
      have := (List.getElem?_eq_some_iff.1 hi).1
      omega

/-- **C138** The first and the last quote. -/
theorem C138_ends {q : Quotes} (h : QHonest q) :
    (q.points.points = [] → q.firstQuote = .ok none ∧ q.lastQuote = .ok none) ∧
    ∀ p, (q.points.points.head? = some p → q.firstQuote = .ok p.2) ∧ (q.points.points.getLast? = some p → q.lastQuote = .ok p.2) := by
  have hh := (qhonest h).1
  have hv := hh.base.domVal
  have he := Pts.getDomain_isEmpty_iff hh.base.asc
  refine ⟨fun hp => ?_, fun p => ⟨fun hp => ?_, fun hp => ?_⟩⟩
  · have h2 : q.points.domVal.isEmpty = true := by rw [hv]; exact he.2 hp
    have := (Iv.isEmpty_iff_forall _).1 h2
    exact ⟨C64_outside h (this _), C64_outside h (this _)⟩
  · have hm := List.mem_of_mem_head? hp
    cases hc : q.points.points with
    | nil => rw [hc] at hp; cases hp
    | cons a l =>
      rw [hc] at hp
      cases hp
      unfold firstQuote
      rw [hv, hc]
      exact C01_stored_value hh hm
  · have hm := List.mem_of_getLast? hp
    cases hc : q.points.points with
    | nil => rw [hc] at hp; cases hp
    | cons a l =>
      rw [hc, List.getLast?_eq_some_getLast (by simp)] at hp
      cases hp
      unfold lastQuote
      rw [hv, hc]
      exact C01_stored_value hh hm

/-- **C138** Up to the beginning of the last period, the value at an instant is the quote of the period of the instant. -/
theorem C138_value_partial {q : Quotes} (h : QHonest q) {D : Dur} {k : ℤ} (hg : Gapless D k q.points.points) {x : ℚ} {p : Pt Quote}
    (hp : p ∈ q.points.points) (hx : D.period p.1 = D.period x) (hl : ∃ r ∈ q.points.points, x ≤ r.1) : q.y (.fin x) = .ok p.2 := by
  obtain ⟨i, hi⟩ := List.getElem?_of_mem hp
  have e1 := gapless_mem hg hi
  rw [e1, Dur.period_start D] at hx
  refine governs_y h ⟨p, hi, ?_, ?_⟩ hi
  · rw [e1, hx]; exact D.start_le x
  · cases hn : q.points.points[i + 1]? with
    | some r =>
      simp only
      rw [gapless_mem hg hn]
      have := D.lt_next x
      rw [← hx] at this
      refine lt_of_lt_of_le this (le_of_eq ?_)
      congr 1
      push_cast
      ring
    | none =>
      simp only
      obtain ⟨r, hr, hxr⟩ := hl
      obtain ⟨j, hj⟩ := List.getElem?_of_mem hr
      have h1 := (List.getElem?_eq_some_iff.1 hj).1
      have h2 := List.getElem?_eq_none_iff.1 hn
      refine le_antisymm (le_trans hxr ?_) (by rw [e1, hx]; exact D.start_le x)
      rw [e1, gapless_mem hg hj]
      exact D.mono.monotone (by omega)

/-- Three quotes, one for each second (`test/quotes_test.py:118-155`). -/
def secondQuotes : Quotes :=
  ((Quotes.new true none).set [(10, some [1, 2, 1, 2]), (11, some [2, 3, 2, 3]), (12, some [3, 5, 3, 5])] ⟨false, false⟩).st

theorem secondQuotes_points : secondQuotes.points.points =
    [(10, some [1, 2, 1, 2]), (11, some [2, 3, 2, 3]), (12, some [3, 5, 3, 5])] := by decide +kernel

theorem secondQuotes_honest : QHonest secondQuotes := by
  refine .edit (op := .set [(10, some [1, 2, 1, 2]), (11, some [2, 3, 2, 3]), (12, some [3, 5, 3, 5])]) (.new true none) ?_
    (by decide +kernel) ?_
  · intro es he
    have := (mapM_ok [((10 : ℚ), some [(1 : ℚ), 2, 1, 2]), (11, some [2, 3, 2, 3]), (12, some [3, 5, 3, 5])]).symm.trans he
    cases this
    norm_num [Ascending]
  · intro _
    refine ⟨1, ?_⟩
    have := secondQuotes_points
    unfold secondQuotes at this
    simp only [QOp.run]
    rw [this]
    norm_num

theorem secondQuotes_gapless : Gapless unitDur 10 secondQuotes.points.points := by
  rw [secondQuotes_points]
  norm_num [Gapless, unitDur]

theorem gapless_start {D : Dur} {k : ℤ} {l : List (Pt Quote)} (h : Gapless D k l) {n : ℤ} (h0 : k ≤ n) (h1 : n < k + l.length) :
    ∃ p ∈ l, p.1 = D.start n := by
  have hi : (n - k).toNat < l.length := by omega
  refine ⟨l[(n - k).toNat], List.getElem_mem hi, ?_⟩
  rw [gapless_mem h (List.getElem?_eq_getElem hi)]
  congr 1
  omega

theorem gapless_number {D : Dur} {k : ℤ} {l : List (Pt Quote)} (h : Gapless D k l) {p : Pt Quote} (hp : p ∈ l) :
    ∃ n : ℤ, k ≤ n ∧ n < k + l.length ∧ p.1 = D.start n := by
  obtain ⟨i, hi⟩ := List.getElem?_of_mem hp
  have := (List.getElem?_eq_some_iff.1 hi).1
  exact ⟨k + i, by omega, by omega, gapless_mem h hi⟩

/-- **C138** The next position is the beginning of the next period, or of the first one with a quote if that is later; none after the last.
The step must not reach beyond the beginning of the next period. -/
theorem C138_next {q : Quotes} (h : QHonest q) {D : Dur} {k : ℤ} (hg : Gapless D k q.points.points) {j : ℤ} {x m : ℚ}
    (h0 : D.start j < x + m) (h1 : x + m ≤ D.start (j + 1)) :
    q.xNext (.fin x) (some m) = .ok (if max (j + 1) k < k + q.points.points.length then some (.fin (D.start (max (j + 1) k))) else none) := by
  have hm : ∀ n : ℤ, k ≤ n → x + m ≤ D.start n → max (j + 1) k ≤ n := by
    intro n hn hx
    have : j < n := D.mono.lt_iff_lt.1 (lt_of_lt_of_le h0 hx)
    omega
  have hge : x + m ≤ D.start (max (j + 1) k) := le_trans h1 (D.mono.monotone (le_max_left _ _))
  unfold Quotes.xNext
  rcases C06_x_next (qhonest h).1 x m with ⟨z, e, ⟨p, hp, rfl, hx⟩, hl⟩ | ⟨e, hn⟩
  · obtain ⟨n, n0, n1, np⟩ := gapless_number hg hp
    have hle := hm n n0 (by rw [← np]; exact hx)
    obtain ⟨r, hr, hr1⟩ := gapless_start hg (n := max (j + 1) k) (le_max_right _ _) (by omega)
    have := hl ⟨r, hr, rfl, by rw [hr1]; exact hge⟩
    rw [e, if_pos (by omega), np]
    rw [np, hr1] at this
    have := D.mono.le_iff_le.1 this
    rw [show n = max (j + 1) k by omega]
  · rw [e, if_neg]
    intro hc
    obtain ⟨r, hr, hr1⟩ := gapless_start hg (n := max (j + 1) k) (le_max_right _ _) hc
    have := hn r hr
    rw [hr1] at this
    exact absurd hge (not_le.2 this)

/-- **C138** The previous position is the beginning of the period, or of the last one with a quote if that is earlier; none before the first. -/
theorem C138_previous {q : Quotes} (h : QHonest q) {D : Dur} {k : ℤ} (hg : Gapless D k q.points.points) {j : ℤ} {x m : ℚ}
    (h0 : D.start j ≤ x - m) (h1 : x - m < D.start (j + 1)) :
    q.xPrevious (.fin x) (some m) = .ok (if k ≤ min j (k + q.points.points.length - 1) then
      some (.fin (D.start (min j (k + q.points.points.length - 1)))) else none) := by
  have hm : ∀ n : ℤ, n < k + q.points.points.length → D.start n ≤ x - m → n ≤ min j (k + q.points.points.length - 1) := by
    intro n hn hx
    have : n < j + 1 := D.mono.lt_iff_lt.1 (lt_of_le_of_lt hx h1)
    omega
  have hge : D.start (min j (k + q.points.points.length - 1)) ≤ x - m := le_trans (D.mono.monotone (min_le_left _ _)) h0
  unfold Quotes.xPrevious
  rcases C07_x_previous (qhonest h).1 x m with ⟨z, e, ⟨p, hp, rfl, hx⟩, hl⟩ | ⟨e, hn⟩
  · obtain ⟨n, n0, n1, np⟩ := gapless_number hg hp
    have hle := hm n n1 (by rw [← np]; exact hx)
    obtain ⟨r, hr, hr1⟩ := gapless_start hg (n := min j (k + q.points.points.length - 1)) (by omega) (by omega)
    have := hl ⟨r, hr, rfl, by rw [hr1]; exact hge⟩
    rw [e, if_pos (by omega), np]
    rw [np, hr1] at this
    have := D.mono.le_iff_le.1 this
    rw [show n = min j (k + q.points.points.length - 1) by omega]
  · rw [e, if_neg]
    intro hc
    obtain ⟨r, hr, hr1⟩ := gapless_start hg (n := min j (k + q.points.points.length - 1)) hc (by omega)
    have := hn r hr
    rw [hr1] at this
    exact absurd hge (not_le.2 this)

example : secondQuotes.xNext (.fin (21 / 2)) (some (1 / 100000)) = .ok (some (.fin 11)) ∧
    secondQuotes.xNext (.fin 3) (some (1 / 100000)) = .ok (some (.fin 10)) ∧ secondQuotes.xNext (.fin 12) (some (1 / 100000)) = .ok none ∧
    secondQuotes.xPrevious (.fin 20) (some (1 / 100000)) = .ok (some (.fin 12)) := by
  refine ⟨?_, ?_, ?_, ?_⟩
  · rw [C138_next secondQuotes_honest secondQuotes_gapless (j := 10) (by norm_num [unitDur]) (by norm_num [unitDur])]; decide +kernel
  · rw [C138_next secondQuotes_honest secondQuotes_gapless (j := 3) (by norm_num [unitDur]) (by norm_num [unitDur])]; decide +kernel
  · rw [C138_next secondQuotes_honest secondQuotes_gapless (j := 12) (by norm_num [unitDur]) (by norm_num [unitDur])]; decide +kernel
  · rw [C138_previous secondQuotes_honest secondQuotes_gapless (j := 19) (by norm_num [unitDur]) (by norm_num [unitDur])]; decide +kernel

example : secondQuotes.sample unitDur (some (Iv.opened 11 12)) (some (1 / 100000)) none 0 = some (.ok [some [2, 3, 2, 3]]) ∧
    secondQuotes.samplePoints unitDur (some (Iv.openClosed 11 12)) (some (1 / 100000)) none 0 =
      some (.ok [(11, some [2, 3, 2, 3]), (12, some [3, 5, 3, 5])]) ∧
    secondQuotes.samplePoints unitDur (some (Iv.closed 13 14)) (some (1 / 100000)) none 0 = some (.ok []) ∧
    secondQuotes.quoteDomain unitDur = Iv.closedOpen 10 13 ∧ secondQuotes.lastQuote = .ok (some [3, 5, 3, 5]) :=
  ⟨by decide +kernel, by decide +kernel, by decide +kernel, by decide +kernel, by decide +kernel⟩

/-- C138 does not hold in the last period: it belongs to the domain of the quotes and is sampled, but there is no value after its beginning. -/
theorem C138_negation : QHonest secondQuotes ∧ Gapless unitDur 10 secondQuotes.points.points ∧
    (secondQuotes.quoteDomain unitDur).contains (.fin (25 / 2)) = true ∧
    secondQuotes.sample unitDur (some (Iv.point (25 / 2))) (some (1 / 100000)) none 0 = some (.ok [some [3, 5, 3, 5]]) ∧
    secondQuotes.y (.fin (25 / 2)) = .ok none :=
  ⟨secondQuotes_honest, secondQuotes_gapless, by decide +kernel, by decide +kernel, by decide +kernel⟩

/-! ### An instance of each theorem -/

-- `C138_span`: the period of 11.5 meets (11, 12)
example : (unitDur.span (Iv.opened 11 12)).contains (.fin (23 / 2)) = true ∧ PeriodMeets unitDur (Iv.opened 11 12) (23 / 2) :=
  have h : (unitDur.span (Iv.opened 11 12)).contains (.fin (23 / 2)) = true := by decide +kernel
  ⟨h, (C138_span unitDur (by decide +kernel) _).1 h⟩

-- `C138_all`: everything, and nothing
example : secondQuotes.samplePoints unitDur none none none 0 = some (.ok secondQuotes.points.points) ∧
    secondQuotes.samplePoints unitDur (some Iv.empty) (some 7) none 0 = some (.ok []) :=
  ⟨(C138_all secondQuotes_honest unitDur 0).2 fun _ _ => ⟨fun _ hm => by simp at hm, fun _ hm => by simp at hm⟩,
    ((C138_all secondQuotes_honest unitDur 0).1 Iv.empty rfl).1⟩

-- `C138_domain`
example : secondQuotes.quoteDomain unitDur = Iv.closedOpen (unitDur.start 10) (unitDur.start (10 + secondQuotes.points.points.length)) :=
  (C138_domain secondQuotes_honest secondQuotes_gapless).2.1 (by decide +kernel)

-- `C138_ends`
example : secondQuotes.firstQuote = .ok (some [1, 2, 1, 2]) ∧ secondQuotes.lastQuote = .ok (some [3, 5, 3, 5]) :=
  ⟨((C138_ends secondQuotes_honest).2 (10, some [1, 2, 1, 2])).1 (by decide +kernel),
    ((C138_ends secondQuotes_honest).2 (12, some [3, 5, 3, 5])).2 (by decide +kernel)⟩

-- `C138_value_partial`
example : secondQuotes.y (.fin (21 / 2)) = .ok (some [1, 2, 1, 2]) :=
  C138_value_partial secondQuotes_honest secondQuotes_gapless (p := (10, some [1, 2, 1, 2])) (by decide +kernel) (by decide +kernel)
    ⟨(12, some [3, 5, 3, 5]), by decide +kernel, by norm_num⟩

end Props
end Curvepy
