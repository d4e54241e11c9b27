import Verif.Props.TrendLine
import Verif.Props.TrendScan

/-!
# Properties of single trend lines: the choice of trend points
-/

namespace Curvepy
namespace Props
open Spec Trend

/-! ### Chains of points -/

/-- Slope from `a` to `b`. -/
def slope (a b : XY) : ℚ := (b.2 - a.2) / (b.1 - a.1)

/-- Value at `x` of the line through `a` and `b`. -/
def at_ (a b : XY) (x : ℚ) : ℚ := a.2 + slope a b * (x - a.1)

theorem at_right {a b : XY} (h : a.1 < b.1) : at_ a b b.1 = b.2 := by
  unfold at_ slope
  have : b.1 - a.1 ≠ 0 := (sub_pos.2 h).ne'
  field_simp
  ring

theorem at_from_right {a b : XY} (h : a.1 < b.1) (x : ℚ) : at_ a b x = b.2 + slope a b * (x - b.1) := by
  have := at_right h
  unfold at_ at this ⊢
  linear_combination this

/-- Each point in the middle of three neighbours is above the line through the two others. -/
def Arched : List XY → Prop
  | p :: q :: r :: rest => at_ p r q.1 < q.2 ∧ Arched (q :: r :: rest)
  | _ => True

theorem arched_tail {p : XY} {l : List XY} (h : Arched (p :: l)) : Arched l := by
  match l, h with
  | [], _ => trivial
  | [_], _ => trivial
  | q :: r :: rest, h => exact h.2

/-- Slopes of three points of which the middle one is on top. -/
theorem slope_lt {p q r : XY} (h1 : p.1 < q.1) (h2 : q.1 < r.1) (h : at_ p r q.1 < q.2) : slope q r < slope p q := by
  unfold at_ slope at h
  unfold slope
  have d1 : 0 < q.1 - p.1 := sub_pos.2 h1
  have d2 : 0 < r.1 - q.1 := sub_pos.2 h2
  have d3 : 0 < r.1 - p.1 := by linarith
  rw [div_lt_div_iff₀ d2 d1]
  have h' : (r.2 - p.2) * (q.1 - p.1) < (q.2 - p.2) * (r.1 - p.1) := by
    have : (r.2 - p.2) / (r.1 - p.1) * (q.1 - p.1) < q.2 - p.2 := by linarith
    rw [div_mul_eq_mul_div, div_lt_iff₀ d3] at this
    exact this
  nlinarith

/-- Slopes fall along the chain. -/
theorem arched_slopes : ∀ {rest : List XY} {p q : XY}, StrictX (p :: q :: rest) → Arched (p :: q :: rest) →
    ∀ a b, (a, b) ∈ (q :: rest).zip rest → slope a b ≤ slope p q
  | [], p, q, _, _, a, b, h => by simp at h
  | r :: rest, p, q, hs, ha, a, b, h => by
    have hpq : p.1 < q.1 := (List.pairwise_cons.1 hs).1 q (by simp)
    have hs' := (List.pairwise_cons.1 hs).2
    have hqr : q.1 < r.1 := (List.pairwise_cons.1 hs').1 r (by simp)
    have h1 := slope_lt hpq hqr ha.1
    simp only [List.zip_cons_cons, List.mem_cons, Prod.mk.injEq] at h
    rcases h with ⟨rfl, rfl⟩ | h
    · exact h1.le
    · exact (arched_slopes hs' ha.2 a b h).trans h1.le

theorem arched_right : ∀ {rest : List XY} {p q : XY}, StrictX (p :: q :: rest) → Arched (p :: q :: rest) →
    ∀ e ∈ rest, e.2 ≤ at_ p q e.1
  | [], p, q, _, _, e, h => by simp at h
  | r :: rest, p, q, hs, ha, e, h => by
    have hpq : p.1 < q.1 := (List.pairwise_cons.1 hs).1 q (by simp)
    have hs' := (List.pairwise_cons.1 hs).2
    have hqr : q.1 < r.1 := (List.pairwise_cons.1 hs').1 r (by simp)
    have hqe : q.1 < e.1 := (List.pairwise_cons.1 hs').1 e (by simpa using h)
    have h1 := slope_lt hpq hqr ha.1
    have he : e.2 ≤ at_ q r e.1 := by
      rcases List.mem_cons.1 h with rfl | h
      · exact (at_right hqr).ge
      · exact arched_right hs' ha.2 e h
    rw [at_from_right hpq]
    unfold at_ at he
    have := mul_nonneg (sub_nonneg.2 h1.le) (sub_pos.2 hqe).le
    linarith

/-- The line through two neighbours of the chain is above the whole chain. -/
theorem arched_all : ∀ {es : List XY}, StrictX es → Arched es → ∀ a b, (a, b) ∈ es.zip es.tail →
    ∀ e ∈ es, e.2 ≤ at_ a b e.1
  | [], _, _, a, b, h => by simp at h
  | [p], _, _, a, b, h => by simp at h
  | p :: q :: rest, hs, ha, a, b, h => by
    have hpq : p.1 < q.1 := (List.pairwise_cons.1 hs).1 q (by simp)
    have hs' := (List.pairwise_cons.1 hs).2
    simp only [List.tail_cons, List.zip_cons_cons, List.mem_cons, Prod.mk.injEq] at h
    rcases h with ⟨rfl, rfl⟩ | h
    · intro e he
      rcases List.mem_cons.1 he with rfl | he
      · simp [at_]
      · rcases List.mem_cons.1 he with rfl | he
        · exact (at_right hpq).ge
        · exact arched_right hs ha e he
    · have ih := arched_all hs' (arched_tail ha) a b h
      intro e he
      rcases List.mem_cons.1 he with rfl | he
      · have h1 := arched_slopes hs ha a b h
        have hq := ih q (by simp)
        have he : e.2 = q.2 + slope e q * (e.1 - q.1) := by
          rw [← at_from_right hpq]; simp [at_]
        have := mul_nonneg (sub_nonneg.2 h1) (sub_pos.2 hpq).le
        rw [he]
        unfold at_ at hq ⊢
        linarith
      · exact ih e he

/-! ### Points under a chain -/

/-- Every line above the points of `es` is above `q`. -/
def Shaded (es : List XY) (q : XY) : Prop := ∀ m c : ℚ, (∀ e ∈ es, e.2 ≤ m * e.1 + c) → q.2 ≤ m * q.1 + c

theorem shaded_mem {es : List XY} {q : XY} (h : q ∈ es) : Shaded es q := fun _ _ he => he q h

theorem shaded_trans {es fs : List XY} {q : XY} (h : Shaded es q) (hs : ∀ e ∈ es, Shaded fs e) : Shaded fs q :=
  fun m c hf => h m c fun e he => hs e he m c hf

/-- A point that is not above the line through a point before and a point after it. -/
theorem shaded_under {es : List XY} {p q r : XY} (hp : p ∈ es) (hr : r ∈ es) (h1 : p.1 < q.1) (h2 : q.1 < r.1)
    (h : q.2 ≤ at_ p r q.1) : Shaded es q := by
  intro m c he
  have h3 := he p hp
  have h4 := he r hr
  have d : 0 < r.1 - p.1 := by linarith
  have hq : q.2 ≤ p.2 + (r.2 - p.2) / (r.1 - p.1) * (q.1 - p.1) := h
  refine hq.trans ?_
  have e : p.2 + (r.2 - p.2) / (r.1 - p.1) * (q.1 - p.1) =
      (p.2 * (r.1 - q.1) + r.2 * (q.1 - p.1)) / (r.1 - p.1) := by
    field_simp; ring
  rw [e, div_le_iff₀ d]
  have h5 := mul_le_mul_of_nonneg_right h3 (sub_pos.2 h2).le
  have h6 := mul_le_mul_of_nonneg_right h4 (sub_pos.2 h1).le
  nlinarith

theorem shaded_arched {es : List XY} (hs : StrictX es) (ha : Arched es) {a b : XY} (h : (a, b) ∈ es.zip es.tail)
    {q : XY} (hq : Shaded es q) : q.2 ≤ at_ a b q.1 := by
  have := hq (slope a b) (a.2 - slope a b * a.1) (by
    intro e he
    have := arched_all hs ha a b h e he
    unfold at_ at this
    linarith)
  unfold at_
  linarith

/-! ### Pruning without a tolerance -/

/-- Lower lines look at the points upside down. -/
def flipIf (up : Bool) (p : XY) : XY := if up then p else (p.1, -p.2)

theorem flipIf_fst (up : Bool) (p : XY) : (flipIf up p).1 = p.1 := by unfold flipIf; split_ifs <;> rfl

theorem at_flip (up : Bool) (p r : XY) (x : ℚ) :
    at_ (flipIf up p) (flipIf up r) x = if up then at_ p r x else -at_ p r x := by
  unfold flipIf at_ slope
  split_ifs
  · rfl
  · simp only; ring

theorem strict_flip {up : Bool} {es : List XY} : StrictX (es.map (flipIf up)) ↔ StrictX es := by
  unfold StrictX
  rw [List.pairwise_map]
  simp only [flipIf_fst]

theorem lineY_at {p r : XY} (h : p.1 < r.1) (x : ℚ) : lineY (p, r) x = some (at_ p r x) := by
  unfold lineY at_ slope
  rw [if_neg h.ne']

/-- The tolerance is zero. -/
structure Sharp (t : TLine) : Prop where
  rel : t.yRel = none
  abs : t.yAbs = some 0

/-- The point is not beyond the line through the two others. -/
def Inside (up : Bool) (p q r : XY) : Prop := (flipIf up q).2 ≤ at_ (flipIf up p) (flipIf up r) q.1

theorem on_iff {t : TLine} (ht : Sharp t) {p q r : XY} (h : p.1 < r.1) :
    pointOnLine (p, r) q t.yRel t.yAbs = decide (q.2 = at_ p r q.1) := by
  unfold pointOnLine within
  rw [lineY_at h, ht.rel, ht.abs]
  simp only [Bool.false_eq_true, if_false]
  by_cases h1 : q.2 = at_ p r q.1
  · simp [h1]
  · rw [if_pos (by simpa using abs_pos.2 (sub_ne_zero.2 h1))]
    simp [h1]

theorem convex_iff {t : TLine} (ht : Sharp t) {p q r : XY} (h : p.1 < r.1) :
    convex [p, q, r] t.yRel t.yAbs = .ok (decide (q.2 ≤ at_ p r q.1)) := by
  unfold convex
  simp only [lineY_at h, ht.rel, ht.abs, Bool.false_eq_true, if_false]
  by_cases h1 : q.2 ≤ at_ p r q.1
  · rw [if_neg (by simpa using h1)]
    simp [h1]
  · rw [if_pos (by simpa using h1)]
    simp [h1]

theorem pruneAt_sharp {t : TLine} {s u : TLine.Prune} {i : ℕ} {p q r : XY} {rest : List XY} (ht : Sharp t)
    (hpr : p.1 < r.1) (hd : s.extremas.drop i = p :: q :: r :: rest) (h : t.pruneAt s i = .ok u) :
    (Inside t.upper p q r ∧ u.extremas = s.extremas.eraseIdx (i + 1) ∧ u.removed = true) ∨
      (¬ Inside t.upper p q r ∧ u = s) := by
  unfold TLine.pruneAt at h
  rw [hd] at h
  simp only [List.take_succ_cons, List.take_zero, coincident, on_iff ht hpr, convex_iff ht hpr] at h
  simp only [bind, Except.bind] at h
  have hin : Inside t.upper p q r ↔
      (decide (q.2 = at_ p r q.1) || decide (q.2 ≤ at_ p r q.1) == t.upper) = true := by
    unfold Inside
    rw [at_flip]
    cases t.upper
    · simp [flipIf]
      constructor
      · intro h; rcases eq_or_lt_of_le h with h | h
        · exact .inl h.symm
        · exact .inr h
      · rintro (h | h)
        · exact h.ge
        · exact h.le
    · simp [flipIf]
      intro h; exact h.le
  by_cases h1 : (decide (q.2 = at_ p r q.1) || decide (q.2 ≤ at_ p r q.1) == t.upper) = true
  · rw [if_pos h1] at h
    refine .inl ⟨hin.2 h1, ?_⟩
    split at h
    · cases h
    · have := pure_inv h
      subst this
      exact ⟨rfl, rfl⟩
  · rw [if_neg h1] at h
    exact .inr ⟨fun h => h1 (hin.1 h), (pure_inv h).symm⟩

theorem triple_of_drop {es : List XY} {i : ℕ} (h : i + 2 < es.length) :
    ∃ p q r rest, es.drop i = p :: q :: r :: rest := by
  refine ⟨es[i], es[i + 1], es[i + 2], es.drop (i + 3), ?_⟩
  rw [List.drop_eq_getElem_cons (by omega), List.drop_eq_getElem_cons (by omega),
    List.drop_eq_getElem_cons (by omega)]

theorem erase_mid {es : List XY} {i : ℕ} {p q r : XY} {rest : List XY} (h : es.drop i = p :: q :: r :: rest) :
    es = es.take i ++ p :: q :: r :: rest ∧ es.eraseIdx (i + 1) = es.take i ++ p :: r :: rest := by
  have h1 : es = es.take i ++ p :: q :: r :: rest := by
    rw [← h]; exact (List.take_append_drop i es).symm
  refine ⟨h1, ?_⟩
  have hi : i ≤ es.length := by
    by_contra hc
    rw [List.drop_eq_nil_of_le (by omega)] at h
    cases h
  conv_lhs => rw [h1]
  rw [List.eraseIdx_append_of_length_le (by simp)]
  simp [Nat.min_eq_left hi]

/-- What holds while pruning. -/
structure Hulls (up : Bool) (bs es : List XY) : Prop where
  strict : StrictX es
  shade : ∀ b ∈ bs, Shaded (es.map (flipIf up)) (flipIf up b)

theorem hulls_erase {up : Bool} {bs es : List XY} {i : ℕ} {p q r : XY} {rest : List XY}
    (h : Hulls up bs es) (hd : es.drop i = p :: q :: r :: rest) (hin : Inside up p q r) :
    Hulls up bs (es.eraseIdx (i + 1)) := by
  obtain ⟨h1, h2⟩ := erase_mid hd
  have hs := h.strict
  have hord : p.1 < q.1 ∧ q.1 < r.1 := by
    rw [h1] at hs
    have := (List.pairwise_append.1 hs).2.1
    rw [List.pairwise_cons] at this
    refine ⟨this.1 q (by simp), ?_⟩
    have := this.2
    rw [List.pairwise_cons] at this
    exact this.1 r (by simp)
  refine ⟨hs.sublist (List.eraseIdx_sublist _ _), fun b hb => shaded_trans (h.shade b hb) ?_⟩
  intro e he
  obtain ⟨e', he', rfl⟩ := List.mem_map.1 he
  by_cases heq : e' = q
  · subst heq
    rw [h2]
    refine shaded_under (p := flipIf up p) (r := flipIf up r) (List.mem_map.2 ⟨p, by simp, rfl⟩)
      (List.mem_map.2 ⟨r, by simp, rfl⟩) ?_ ?_ ?_
    · simpa only [flipIf_fst] using hord.1
    · simpa only [flipIf_fst] using hord.2
    · rw [flipIf_fst]; exact hin
  · refine shaded_mem (List.mem_map.2 ⟨e', ?_, rfl⟩)
    rw [h1] at he'
    rw [h2]
    simp only [List.mem_append, List.mem_cons] at he' ⊢
    tauto

theorem drop_order {es : List XY} (hs : StrictX es) {i : ℕ} {p q r : XY} {rest : List XY}
    (hd : es.drop i = p :: q :: r :: rest) : p.1 < r.1 := by
  have : StrictX (es.drop i) := hs.sublist (List.drop_sublist _ _)
  rw [hd] at this
  exact (List.pairwise_cons.1 this).1 r (by simp)

theorem pass_removed {t : TLine} : ∀ {n : ℕ} {s u : TLine.Prune}, t.prunePass n s = .ok u → s.removed = true →
    u.removed = true
  | 0, s, u, h, hr => by have := pure_inv h; subst this; exact hr
  | n + 1, s, u, h, hr => by
    rw [TLine.prunePass] at h
    obtain ⟨v, h1, h⟩ := bind_inv h
    refine pass_removed h ?_
    unfold TLine.pruneAt at h1
    obtain ⟨c, -, h1⟩ := bind_inv h1
    obtain ⟨w, -, h1⟩ := bind_inv h1
    by_cases hc : (c || w == t.upper) = true
    · rw [if_pos hc] at h1
      split at h1
      · cases h1
      · have := pure_inv h1; subst this; rfl
    · rw [if_neg hc] at h1
      have := pure_inv h1; subst this; exact hr

/-- A pass keeps every boundary point in the shade.  If it removes nothing, there is nothing to remove. -/
theorem pass_sharp {t : TLine} {bs : List XY} (ht : Sharp t) : ∀ {n : ℕ} {s u : TLine.Prune},
    t.prunePass n s = .ok u → n + 2 ≤ s.extremas.length ∨ n = 0 → Hulls t.upper bs s.extremas →
    Hulls t.upper bs u.extremas ∧ u.extremas.length ≤ s.extremas.length ∧
      (s.removed = false → u.removed = true → u.extremas.length < s.extremas.length) ∧
      (u.removed = false → u = s ∧ ∀ i, i < n → ∀ p q r rest, s.extremas.drop i = p :: q :: r :: rest →
        ¬ Inside t.upper p q r)
  | 0, s, u, h, _, hs => by
    have := pure_inv h
    subst this
    exact ⟨hs, le_refl _, fun h h' => (by rw [h] at h'; cases h'), fun _ => ⟨rfl, fun i hi => by omega⟩⟩
  | n + 1, s, u, h, hn, hs => by
    rw [TLine.prunePass] at h
    obtain ⟨v, h1, h⟩ := bind_inv h
    have hn : n + 1 + 2 ≤ s.extremas.length := by omega
    obtain ⟨p, q, r, rest, hd⟩ := triple_of_drop (es := s.extremas) (i := n) (by omega)
    rcases pruneAt_sharp ht (drop_order hs.strict hd) hd h1 with ⟨hin, e1, e2⟩ | ⟨hin, hv⟩
    · have hl : v.extremas.length + 1 = s.extremas.length := by
        rw [e1, List.length_eraseIdx_of_lt (by omega)]; omega
      obtain ⟨a1, a2, -, -⟩ := pass_sharp ht h (.inl (by omega)) (by rw [e1]; exact hulls_erase hs hd hin)
      refine ⟨a1, by omega, fun _ _ => by omega, fun hr => ?_⟩
      rw [pass_removed h e2] at hr; cases hr
    · rw [hv] at h
      obtain ⟨a1, a2, a3, a4⟩ := pass_sharp ht h (.inl (by omega)) hs
      refine ⟨a1, a2, a3, fun hr => ?_⟩
      obtain ⟨a5, a6⟩ := a4 hr
      refine ⟨a5, fun i hi p' q' r' rest' hd' => ?_⟩
      rcases Nat.lt_or_ge i n with h | h
      · exact a6 i h p' q' r' rest' hd'
      · obtain rfl : i = n := by omega
        rw [hd] at hd'
        simp only [List.cons.injEq] at hd'
        obtain ⟨rfl, rfl, rfl, -⟩ := hd'
        exact hin

theorem arched_of {up : Bool} : ∀ {es : List XY},
    (∀ i p q r rest, es.drop i = p :: q :: r :: rest → ¬ Inside up p q r) → Arched (es.map (flipIf up))
  | [], _ => trivial
  | [_], _ => trivial
  | [_, _], _ => trivial
  | p :: q :: r :: rest, h => by
    refine ⟨?_, arched_of (es := q :: r :: rest) fun i p' q' r' rest' hd => h (i + 1) p' q' r' rest' hd⟩
    have := h 0 p q r rest rfl
    unfold Inside at this
    rw [flipIf_fst]
    exact not_le.1 this

theorem loop_sharp {t : TLine} {bs : List XY} (ht : Sharp t) : ∀ {n : ℕ} {s u : TLine.Prune},
    t.pruneLoop n s = .ok u → s.extremas.length ≤ n → Hulls t.upper bs s.extremas →
    Hulls t.upper bs u.extremas ∧ Arched (u.extremas.map (flipIf t.upper))
  | 0, s, u, h, hn, hs => by
    have := pure_inv h
    subst this
    have : s.extremas = [] := List.eq_nil_of_length_eq_zero (by omega)
    exact ⟨hs, by rw [this]; trivial⟩
  | n + 1, s, u, h, hn, hs => by
    rw [TLine.pruneLoop] at h
    obtain ⟨v, h1, h⟩ := bind_inv h
    obtain ⟨a1, a2, a3, a4⟩ := pass_sharp (bs := bs) ht h1 (by simp only; omega) hs
    split_ifs at h with h2
    · exact loop_sharp ht h (by have := a3 rfl h2; simp only at this; omega) a1
    · have := pure_inv h
      subst this
      refine ⟨a1, arched_of fun i p q r rest hd => ?_⟩
      obtain ⟨a5, a6⟩ := a4 (by simpa using h2)
      rw [a5] at hd
      refine a6 i ?_ p q r rest hd
      have := congrArg List.length hd
      simp only [List.length_drop, List.length_cons] at this ⊢
      omega

/-! ### The line -/

theorem polyfit_on {ps : List XY} {m c : ℚ} (h : ∀ p ∈ ps, p.2 = m * p.1 + c) {f : ℚ × ℚ}
    (e : polyfit ps = .ok f) : f = (m, c) := by
  have H : ∀ ps : List XY, (∀ p ∈ ps, p.2 = m * p.1 + c) →
      (ps.map (·.2)).sum = m * (ps.map (·.1)).sum + c * ps.length ∧
      (ps.map fun p => p.1 * p.2).sum = m * (ps.map fun p => p.1 * p.1).sum + c * (ps.map (·.1)).sum := by
    intro ps
    induction ps with
    | nil => intro _; simp
    | cons p ps ih =>
      intro h
      obtain ⟨h1, h2⟩ := ih fun q hq => h q (List.mem_cons_of_mem _ hq)
      have hp := h p List.mem_cons_self
      simp only [List.map_cons, List.sum_cons, h1, h2, hp, List.length_cons, Nat.cast_add, Nat.cast_one]
      constructor <;> ring
  obtain ⟨h1, h2⟩ := H ps h
  unfold polyfit at e
  simp only [h1, h2] at e
  split_ifs at e with hd
  simp only [Except.ok.injEq] at e
  have hn : (ps.length : ℚ) ≠ 0 := by
    intro h0
    have : ps = [] := List.eq_nil_of_length_eq_zero (by exact_mod_cast h0)
    subst this
    simp at hd
  have hm : ((ps.length : ℚ) * (m * (ps.map fun p => p.1 * p.1).sum + c * (ps.map (·.1)).sum) -
      (ps.map (·.1)).sum * (m * (ps.map (·.1)).sum + c * ps.length)) /
      ((ps.length : ℚ) * (ps.map fun p => p.1 * p.1).sum - (ps.map (·.1)).sum * (ps.map (·.1)).sum) = m := by
    rw [div_eq_iff hd]; ring
  rw [hm] at e
  rw [← e, Prod.mk.injEq]
  refine ⟨rfl, ?_⟩
  rw [div_eq_iff hn]; ring

/-- The fit of points on a line is that line. -/
theorem fit_on {ps : List XY} {m c : ℚ} (h : ∀ p ∈ ps, p.2 = m * p.1 + c) {l : Chord}
    (e : lineFit ps = .ok (some l)) : l.1.2 = m * l.1.1 + c ∧ l.2.2 = m * l.2.1 + c := by
  match ps, h, e with
  | [], _, e => simp [lineFit] at e
  | [_], _, e => simp [lineFit] at e
  | [p, q], h, e =>
    simp only [lineFit, Except.ok.injEq, Option.some.injEq] at e
    subst e
    exact ⟨h p (by simp), h q (by simp)⟩
  | p :: q :: r :: rest, h, e =>
    simp only [lineFit] at e
    obtain ⟨f, e1, e⟩ := bind_inv e
    have := pure_inv e
    simp only [Option.some.injEq] at this
    subst this
    rw [polyfit_on h e1]
    exact ⟨rfl, rfl⟩

theorem thin_id {t : TLine} (ht : t.minDist ≤ 0) {es : List XY} (hs : StrictX es) : ∀ n, t.thin n es = es
  | 0 => rfl
  | n + 1 => by
    have : t.thinAt es n = es := by
      unfold TLine.thinAt
      split
      · rename_i p q r h1 h2 h3
        obtain ⟨i1, rfl⟩ := List.getElem?_eq_some_iff.1 h1
        obtain ⟨i2, rfl⟩ := List.getElem?_eq_some_iff.1 h2
        obtain ⟨i3, rfl⟩ := List.getElem?_eq_some_iff.1 h3
        have g1 := List.pairwise_iff_getElem.1 hs n (n + 1) i1 i2 (by omega)
        have g2 := List.pairwise_iff_getElem.1 hs (n + 1) (n + 2) i2 i3 (by omega)
        rw [if_neg]
        simp only [Bool.or_eq_true, decide_eq_true_eq, not_or, not_lt]
        constructor <;> linarith
      · rfl
    rw [TLine.thin, this, thin_id ht hs n]

theorem zip_map_tail (f : XY → XY) : ∀ {es : List XY} {a b : XY}, (a, b) ∈ es.zip es.tail →
    (f a, f b) ∈ (es.map f).zip (es.map f).tail
  | [], a, b, h => by simp at h
  | [_], a, b, h => by simp at h
  | p :: q :: rest, a, b, h => by
    simp only [List.tail_cons, List.zip_cons_cons, List.mem_cons, Prod.mk.injEq, List.map_cons] at h ⊢
    rcases h with ⟨rfl, rfl⟩ | h
    · exact .inl ⟨rfl, rfl⟩
    · exact .inr (by simpa using zip_map_tail f (es := q :: rest) h)

/-- C76 for one call, without a tolerance: no boundary point is above an upper line, or below a lower one. -/
theorem C76_choice_partial {t u : TLine} (ht : Sharp t) (hd : t.minDist ≤ 0) (hb : StrictX t.boundary)
    (h : t.setTrend = .ok u) {l : Chord} (hl : lineFit u.trend = .ok (some l)) :
    ∀ b ∈ t.boundary, ∃ y, lineY l b.1 = some y ∧ if t.upper then b.2 ≤ y else y ≤ b.2 := by
  unfold TLine.setTrend at h
  obtain ⟨s, h1, h⟩ := bind_inv h
  obtain ⟨fin, h2, h⟩ := bind_inv h
  obtain ⟨ts, h3, h⟩ := bind_inv h
  have := (pure_inv h).symm
  subst this
  obtain ⟨hH, hA⟩ := loop_sharp (bs := t.boundary) ht h1 (le_refl _)
    ⟨hb, fun b hb => shaded_mem (List.mem_map_of_mem hb)⟩
  rw [thin_id hd hH.strict] at h2
  have hpair : ∀ p q, fin = [p, q] → (p, q) ∈ s.extremas.zip s.extremas.tail := by
    rintro p q rfl
    unfold TLine.finalLine at h2
    split_ifs at h2 with h4
    · obtain ⟨r, hr, h2⟩ := bind_inv h2
      cases r with
      | none =>
        have := pure_inv h2
        rw [this] at h4; simp at h4
      | some r =>
        have := pure_inv h2
        have h5 := TLine.fittest_mem (f := r.2) hr
        simp only [List.cons.injEq, and_true] at this
        rw [← this.1, ← this.2]
        exact h5
    · have := pure_inv h2
      rw [this]; simp
  match fin, h3, hpair with
  | [], h3, _ =>
    simp only [TLine.addCoincident, Except.ok.injEq] at h3; subst h3
    simp [lineFit] at hl
  | [p], h3, _ =>
    simp only [TLine.addCoincident, Except.ok.injEq] at h3; subst h3
    simp [lineFit] at hl
  | _ :: _ :: _ :: _, h3, _ => simp [TLine.addCoincident] at h3
  | [p, q], h3, hpair =>
    simp only [TLine.addCoincident, Except.ok.injEq] at h3
    have hmem := hpair p q rfl
    have hpq : p.1 < q.1 := by
      have := hH.strict.sublist (TLine.zip_tail_sublist hmem)
      exact (List.pairwise_cons.1 this).1 q (by simp)
    have hon : ∀ e ∈ ts, e.2 = slope p q * e.1 + (p.2 - slope p q * p.1) := by
      intro e he
      rw [← h3] at he
      simp only [List.cons_append, List.mem_cons, List.mem_append, List.mem_filter, List.not_mem_nil,
        or_false] at he
      have key : e.2 = at_ p q e.1 := by
        rcases he with rfl | he | rfl
        · simp [at_]
        · have := he.2
          rw [on_iff ht hpq] at this
          simpa using this
        · exact (at_right hpq).symm
      rw [key]; unfold at_; ring
    obtain ⟨f1, f2⟩ := fit_on hon hl
    obtain ⟨p', q', rest, e0, e1, e2⟩ := lineFit_ends hl
    have e1' : l.1.1 = p.1 := by
      rw [e1]
      simp only at e0
      rw [← h3] at e0
      simp only [List.cons_append, List.cons.injEq] at e0
      rw [e0.1]
    have e2' : l.2.1 = q.1 := by
      have : (p' :: q' :: rest).getLast? = some q := by
        rw [← e0, ← h3, List.getLast?_append]; rfl
      rw [e2]
      rw [List.getLast?_cons_cons, List.getLast?_eq_some_getLast (by simp)] at this
      rw [Option.some.inj this]
    intro b hb
    have hsh := shaded_arched (strict_flip.2 hH.strict) hA (zip_map_tail (flipIf t.upper) hmem) (hH.shade b hb)
    refine ⟨at_ p q b.1, ?_, ?_⟩
    · have : lineY (l.1, l.2) b.1 = some (at_ l.1 l.2 b.1) := lineY_at (by rw [e1', e2']; exact hpq) _
      rw [show l = (l.1, l.2) from rfl, this]
      congr 1
      have hsl : slope l.1 l.2 = slope p q := by
        have hne : q.1 - p.1 ≠ 0 := (sub_pos.2 hpq).ne'
        change (l.2.2 - l.1.2) / (l.2.1 - l.1.1) = slope p q
        rw [f1, f2, e1', e2', div_eq_iff hne]
        ring
      unfold at_
      rw [hsl, f1, e1']
      ring
    · rw [flipIf_fst, at_flip] at hsh
      unfold flipIf at hsh
      split_ifs at hsh ⊢ with hu
      · exact hsh
      · simpa using hsh

/-- C76, without a tolerance: appending to a line that is not valid leaves no point above an upper line, or
below a lower one.  Missing: tolerances, and points a valid line does not take. -/
theorem C76_partial {t u : TLine} {p : XY} {ps : List XY} {b : Bool} (hg : Grown t) (hw : 0 < t.minWidth)
    (ht : Sharp t) (hd : t.minDist ≤ 0) (hv : t.isValid = false) (h : t.didAppend p ps = .ok (u, b)) (hb : b = true)
    {l : Chord} (hl : u.line = some l) :
    ∃ bs, insort t.boundary p (noRepeat := true) = .ok bs ∧
      ∀ q ∈ bs, ∃ y, lineY l q.1 = some y ∧ if t.upper then q.2 ≤ y else y ≤ q.2 := by
  subst hb
  unfold TLine.didAppend at h
  split_ifs at h with h1
  · simp at h
  · obtain ⟨bs, e1, h⟩ := bind_inv h
    obtain ⟨w, e2, h⟩ := bind_inv h
    have := pure_inv h
    simp only [Prod.mk.injEq, and_true] at this
    subst this
    refine ⟨bs, e1, ?_⟩
    obtain ⟨v, l', up, lo, i, a, e, s, d, g1, g2, -, -, rfl⟩ := TLine.updateTrend_eq e2
    simp only at hl
    subst hl
    have hsb := insort_strict (grown_kept hg hw).strict e1
    unfold TLine.renew at g1
    have hv' : TLine.isValid { t with boundary := bs } = false := hv
    rw [if_pos (by simp [hv'])] at g1
    exact C76_choice_partial (t := { t with boundary := bs }) ⟨ht.rel, ht.abs⟩ hd hsb g1 g2
  · simp [hv] at *

/-- An upper line without tolerance over a hump. -/
example : (appendedD (TLine.new 3 true 3 0 10 none (some 0) (8 / 5))
      [(0, 0), (1, 2), (2, 1), (3, 4), (4, 0)]).boundary =
        [(0, 0), (1, 2), (3, 4), (4, 0)] ∧
    (appendedD (TLine.new 3 true 3 0 10 none (some 0) (8 / 5))
      [(0, 0), (1, 2), (2, 1), (3, 4), (4, 0)]).line = some ((1, 2), (3, 4)) := by
  decide +kernel

/-- Disagreement with C76: with the tolerance 1 the upper line passes more than 1 below the point `(2, 7)`. -/
theorem C76_negation : ∃ (t u : TLine) (p : XY) (ps : List XY) (l : Chord) (y : ℚ), Grown t ∧ t.upper = true ∧
    t.isValid = false ∧ t.yRel = none ∧ t.yAbs = some 1 ∧ t.minDist = 0 ∧ t.didAppend p ps = .ok (u, true) ∧
    u.line = some l ∧ (2, 7) ∈ t.boundary ∧ lineY l 2 = some y ∧ y + 1 < 7 := by
  refine ⟨appendedD (TLine.new 20 true 3 0 10 none (some 1) (8 / 5)) [(0, 7), (1, 7), (2, 7)],
    appendedD (TLine.new 20 true 3 0 10 none (some 1) (8 / 5)) [(0, 7), (1, 7), (2, 7), (3, 5)],
    (3, 5), [(0, 7), (1, 7), (2, 7), (3, 5)], _, _, appendedD_grown (Grown.new _ _ _ _ _ _ _ _) _,
    by decide +kernel, by decide +kernel, by decide +kernel, by decide +kernel, by decide +kernel, by decide +kernel,
    show _ = some ((0, 51 / 7), (3, 36 / 7)) by decide +kernel, by decide +kernel, show _ = some (41 / 7) by decide +kernel,
    by norm_num⟩

/-- Disagreement with C76: two boundary points are deleted where one is to be deleted twice, because the positions
are those of a list from which points in line were deleted before.  The point `(2, 3)` was above the line
through its new neighbours. -/
theorem C76_negation_boundary : ∃ t : TLine, t.upper = true ∧ t.yRel = none ∧ t.yAbs = some (1 / 10) ∧
    t.minDist = 0 ∧ t.boundary = [(0, 3), (1, 3), (2, 3), (3, 1), (4, 2), (5, 2)] ∧
    t.setTrend.map (·.boundary) = .ok [(0, 3), (1, 3), (4, 2), (5, 2)] ∧
    lineY ((1, 3), (4, 2)) 2 = some (8 / 3) := by
  refine ⟨{ TLine.new 20 true 3 0 10 none (some (1 / 10)) (8 / 5) with
      boundary := [(0, 3), (1, 3), (2, 3), (3, 1), (4, 2), (5, 2)] }, rfl, rfl, rfl, rfl, rfl, ?_, ?_⟩
  · decide +kernel
  · decide +kernel

/-! ### Order of the trend points -/

/-- The line is the one fitted to the trend points. -/
theorem grown_fit {t : TLine} (hg : Grown t) : lineFit t.trend = .ok t.line := by
  have key : ∀ {t u : TLine} {ps : List XY}, t.updateTrend ps = .ok u → lineFit u.trend = .ok u.line := by
    intro t u ps h
    obtain ⟨v, l, up, lo, i, a, e, s, d, -, h2, -, -, rfl⟩ := TLine.updateTrend_eq h
    exact h2
  induction hg with
  | new w u m d s r a g => rfl
  | append h e ih =>
    rcases append_cases e with rfl | ⟨bs, ts, -, -, e⟩ | ⟨-, -, v, c, e1, e2⟩
    · exact ih
    · exact key e
    · obtain ⟨i, a, e, s, h6⟩ := TLine.updatePoi_eq e1
      obtain ⟨d, h7⟩ := TLine.updatePrediction_eq e2
      rw [h7, h6]
      exact ih
  | update h e ih =>
    rcases update_cases e with rfl | ⟨bs, ts, i, a, e, -, -, h⟩
    · exact ih
    · exact key h

/-- C75, for the ends: the line goes from the first to the last trend point, and these are in order.
Missing: the points between, see `C75_negation`. -/
theorem C75_partial {t : TLine} (hg : Grown t) (hw : 0 < t.minWidth) {l : Chord} (hl : t.line = some l) :
    ∃ p q, t.trend.head? = some p ∧ t.trend.getLast? = some q ∧ l.1.1 = p.1 ∧ l.2.1 = q.1 ∧ p.1 < q.1 := by
  have hf := grown_fit hg
  rw [hl] at hf
  obtain ⟨p, q, rest, hp, e1, e2⟩ := lineFit_ends hf
  have hasc := (grown_kept hg hw).asc l hl
  refine ⟨p, (q :: rest).getLast (by simp), by rw [hp]; rfl, ?_, e1, e2, by rw [← e1, ← e2]; exact hasc⟩
  rw [hp, List.getLast?_cons_cons, List.getLast?_eq_getLast_of_ne_nil (by simp)]

/-- Disagreement with C75: the trend points of a valid line out of order. -/
theorem C75_negation : ∃ t : TLine, Grown t ∧ t.isValid = true ∧ Tolerant t ∧ ¬ SortedX t.trend := by
  refine ⟨appendedD (TLine.new 3 true 3 0 10 none (some (1 / 2)) (8 / 5)) [(1, 3), (2, 3), (3, 3), (7, 3)],
    appendedD_grown (Grown.new _ _ _ _ _ _ _ _) _, by decide +kernel, ?_, ?_⟩
  · have e1 : (appendedD (TLine.new 3 true 3 0 10 none (some (1 / 2)) (8 / 5))
        [(1, 3), (2, 3), (3, 3), (7, 3)]).yAbs = some (1 / 2) := by decide +kernel
    have e2 : (appendedD (TLine.new 3 true 3 0 10 none (some (1 / 2)) (8 / 5))
        [(1, 3), (2, 3), (3, 3), (7, 3)]).yRel = none := by decide +kernel
    refine ⟨fun a h => ?_, fun r h => ?_⟩
    · rw [e1] at h; cases h; norm_num
    · rw [e2] at h; cases h
  · have : (appendedD (TLine.new 3 true 3 0 10 none (some (1 / 2)) (8 / 5)) [(1, 3), (2, 3), (3, 3), (7, 3)]).trend
        = [(1, 3), (3, 3), (2, 3), (7, 3)] := by decide +kernel
    rw [this]
    simp [SortedX]
    norm_num

/-! ### Distance of the trend points -/

theorem distance_chain {d : ℚ} {m : ℕ} : ∀ (ps : List XY) (p : XY) (n : ℕ), SortedX (p :: ps) →
    ∃ qs : List XY, (p :: qs).Sublist (p :: ps) ∧ (p :: qs).Pairwise (fun a b => d ≤ b.1 - a.1) ∧
      TLine.distanceLoop d m n (p :: ps) = n + qs.length := by
  intro ps
  induction ps with
  | nil => intro p n _; exact ⟨[], List.Sublist.refl _, by simp, rfl⟩
  | cons q ps ih =>
    intro p n hs
    have hpq : p.1 ≤ q.1 := (List.pairwise_cons.1 hs).1 q (by simp)
    have hs' := (List.pairwise_cons.1 hs).2
    rw [TLine.distanceLoop]
    by_cases h1 : q.1 - p.1 ≥ d
    · rw [if_pos h1]
      by_cases h2 : n + 1 ≥ m
      · rw [if_pos h2]
        exact ⟨[q], by simp, by simpa using h1, rfl⟩
      · rw [if_neg h2]
        obtain ⟨qs, a1, a2, a3⟩ := ih q (n + 1) hs'
        refine ⟨q :: qs, List.Sublist.cons_cons _ a1, List.pairwise_cons.2 ⟨?_, a2⟩, ?_⟩
        · intro r hr
          rcases List.mem_cons.1 hr with rfl | hr
          · exact h1
          · have := (List.pairwise_cons.1 a2).1 r hr
            linarith
        · rw [a3, List.length_cons]; omega
    · rw [if_neg h1]
      obtain ⟨qs, a1, a2, a3⟩ := ih q n hs'
      refine ⟨qs, List.Sublist.cons_cons _ ((List.cons_sublist_cons.1 a1).cons q), List.pairwise_cons.2 ⟨?_, ?_⟩, a3⟩
      · intro r hr
        have := (List.pairwise_cons.1 a2).1 r hr
        linarith
      · exact (List.pairwise_cons.1 a2).2

/-- C77, for sorted trend points: a valid line has as many trend points as required at the distance required, and
is as wide as required.
Missing: unsorted points (C75), and that a trend passes the distance on to its lines (see `C77_negation`). -/
theorem C77_partial {t : TLine} (hv : t.isValid = true) (hs : SortedX t.trend) :
    (∃ qs : List XY, qs.Sublist t.trend ∧ t.minPoints ≤ qs.length ∧
      qs.Pairwise (fun a b => t.minDist ≤ b.1 - a.1)) ∧ t.minWidth ≤ t.width := by
  unfold TLine.isValid at hv
  split_ifs at hv with h1 h2
  simp only [Bool.or_eq_true, Bool.not_eq_true', decide_eq_true_eq, not_or, not_lt] at h1 h2
  obtain ⟨⟨-, hw⟩, hn⟩ := h1
  refine ⟨?_, hw⟩
  cases ht : t.trend with
  | nil => rw [ht] at hn; exact ⟨[], List.Sublist.refl _, hn, List.Pairwise.nil⟩
  | cons p ps =>
    rw [ht] at hs h2
    obtain ⟨qs, a1, a2, a3⟩ := distance_chain (d := t.minDist) (m := t.minPoints) ps p 1 hs
    refine ⟨p :: qs, a1, ?_, a2⟩
    rw [List.length_cons]; omega

/-- C77 the other way round: points in a row at these distances suffice. -/
theorem C77_enough {t : TLine} (hr : t.line.isSome = true) (hw : t.minWidth ≤ t.width)
    (hn : t.minPoints ≤ t.trend.length) (hd : t.trend.IsChain (fun a b => t.minDist ≤ b.1 - a.1)) :
    t.isValid = true := by
  have key : ∀ (ps : List XY) (p : XY) (n : ℕ), (p :: ps).IsChain (fun a b => t.minDist ≤ b.1 - a.1) →
      t.minPoints ≤ n + ps.length → t.minPoints ≤ TLine.distanceLoop t.minDist t.minPoints n (p :: ps) := by
    intro ps
    induction ps with
    | nil => intro p n _ h; simpa [TLine.distanceLoop] using h
    | cons q ps ih =>
      intro p n hc h
      rw [List.isChain_cons_cons] at hc
      rw [TLine.distanceLoop, if_pos hc.1]
      by_cases h2 : n + 1 ≥ t.minPoints
      · rw [if_pos h2]; exact h2
      · rw [if_neg h2]
        exact ih q (n + 1) hc.2 (by rw [List.length_cons] at h; omega)
  unfold TLine.isValid TLine.isReady
  rw [hr]
  cases ht : t.trend with
  | nil =>
    rw [ht] at hn
    have : t.minPoints = 0 := by simpa using hn
    simp [this, hw]
  | cons p ps =>
    rw [ht] at hn hd
    have := key ps p 1 hd (by rw [List.length_cons] at hn; omega)
    rw [if_neg, if_neg (not_lt.2 this)]
    simp only [List.length_cons] at hn ⊢
    simp [hw, hn]

/-- Disagreement with C77: a trend does not pass the distance on to its lines. -/
theorem C77_negation : ∃ s : Trd, TrdScanned s ∧ s.minDist = 5 ∧ ∃ ls ∈ s.upper, ∃ t ∈ ls, t.isValid = true ∧
    ∀ p ∈ t.trend, ∀ q ∈ t.trend, q.1 - p.1 < 5 := by
  refine ⟨scanned (Trd.new 3 3 5 10 none (some (1 / 2)) (8 / 5)) [(1, 3), (2, 3), (3, 3), (4, 3), (5, 3)],
    scanned_scanned (TrdScanned.new _ _ _ _ _ _ _) _, by decide +kernel, ?_⟩
  have : ∃ ls ∈ (scanned (Trd.new 3 3 5 10 none (some (1 / 2)) (8 / 5)) [(1, 3), (2, 3), (3, 3), (4, 3), (5, 3)]).upper,
      ∃ t ∈ ls, t.isValid = true ∧ ∀ p ∈ t.trend, ∀ q ∈ t.trend, q.1 - p.1 < 5 := by decide +kernel
  exact this

example : ∃ t : TLine, Grown t ∧ t.isValid = true ∧ SortedX t.trend ∧ t.minDist = 2 ∧ t.minPoints = 3 ∧
    t.trend = [(1, 3), (3, 3), (7, 3)] := by
  refine ⟨appendedD (TLine.new 3 true 3 2 10 none (some (1 / 2)) (8 / 5)) [(1, 3), (3, 3), (7, 3)],
    appendedD_grown (Grown.new _ _ _ _ _ _ _ _) _, by decide +kernel, ?_, by decide +kernel, by decide +kernel,
    by decide +kernel⟩
  have : (appendedD (TLine.new 3 true 3 2 10 none (some (1 / 2)) (8 / 5)) [(1, 3), (3, 3), (7, 3)]).trend
      = [(1, 3), (3, 3), (7, 3)] := by decide +kernel
  rw [this]
  simp [SortedX]
  norm_num
/-! ## An instance of each theorem -/

/-- Three points on the trend and one below it. -/
def archedLine : TLine := appendedD (TLine.new 3 true 3 2 10 none (some (1 / 2)) (8 / 5)) [(1, 3), (3, 3), (7, 3)]

theorem archedLine_grown : Grown archedLine := appendedD_grown (Grown.new _ _ _ _ _ _ _ _) _

theorem archedLine_trend : archedLine.trend = [(1, 3), (3, 3), (7, 3)] := by decide +kernel

example : ∃ p q, archedLine.trend.head? = some p ∧ archedLine.trend.getLast? = some q ∧ (1 : ℚ) = p.1 ∧ (7 : ℚ) = q.1 ∧ p.1 < q.1 :=
  C75_partial (l := ((1, 3), (7, 3))) archedLine_grown (by decide +kernel) (by decide +kernel)

example : (∃ qs : List XY, qs.Sublist archedLine.trend ∧ 3 ≤ qs.length ∧ qs.Pairwise (fun a b => 2 ≤ b.1 - a.1)) ∧
    3 ≤ archedLine.width := by
  have h := C77_partial (t := archedLine) (by decide +kernel) (by rw [archedLine_trend]; simp [SortedX]; norm_num)
  have h1 : archedLine.minPoints = 3 := by decide +kernel
  have h2 : archedLine.minDist = 2 := by decide +kernel
  have h3 : archedLine.minWidth = 3 := by decide +kernel
  rwa [h1, h2, h3] at h

example : archedLine.isValid = true :=
  C77_enough (by decide +kernel) (by decide +kernel) (by decide +kernel) (by
    have h : archedLine.minDist = 2 := by decide +kernel
    rw [archedLine_trend, h]
    norm_num)

end Props
end Curvepy
