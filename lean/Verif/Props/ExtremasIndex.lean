import Verif.Model.ExtremasIndex
import Verif.Props.Extremas

/-!
# C135: the index of a position among extremas
-/

namespace Curvepy
namespace Props
open Extr

variable {es : List (ℚ × ℚ)}

/-- Ascending positions. -/
abbrev Rising (es : List (ℚ × ℚ)) : Prop := es.Pairwise fun e f => e.1 < f.1

/-- There is an index exactly from the first to the last extremum. -/
theorem C135_where (hne : es ≠ []) (x : ℚ) (h : x < (es.head hne).1 ∨ (es.getLast hne).1 < x) : index es x = .ok none := by
  unfold index
  rw [interval_eq es hne]
  have : (Iv.closed (es.head hne).1 (es.getLast hne).1).contains (.fin x) = false := by
    rw [Iv.contains_closed]
    rcases h with h | h
    · simp [not_le.2 h]
    · simp [not_le.2 h]
  rw [this]
  rfl

theorem C135_none (x : ℚ) : index [] x = .ok none := rfl

/-- It is 0 at the first, and the number of extremas less one at the last. -/
theorem C135_ends (h : Rising es) (hne : es ≠ []) :
    index es (es.head hne).1 = .ok (some 0) ∧ index es (es.getLast hne).1 = .ok (some ((es.length : ℚ) - 1)) := by
  have hle : (es.head hne).1 ≤ (es.getLast hne).1 := by
    cases es with
    | nil => exact absurd rfl hne
    | cons e es =>
      cases es with
      | nil => exact le_refl _
      | cons f es => exact (List.rel_of_pairwise_cons h (List.getLast_mem (by simp))).le
  unfold index
  rw [interval_eq es hne]
  constructor
  · have : (Iv.closed (es.head hne).1 (es.getLast hne).1).contains (.fin (es.head hne).1) = true := by
      rw [Iv.contains_closed]; simp [hle]
    rw [this]
    simp [Iv.closed]
  · have hc : (Iv.closed (es.head hne).1 (es.getLast hne).1).contains (.fin (es.getLast hne).1) = true := by
      rw [Iv.contains_closed]; simp [hle]
    rw [hc]
    by_cases he : (es.getLast hne).1 = (es.head hne).1
    · have h1 : es.length = 1 := by
        cases es with
        | nil => exact absurd rfl hne
        | cons e es =>
          cases es with
          | nil => rfl
          | cons f es => exact absurd he (List.rel_of_pairwise_cons h (List.getLast_mem (by simp))).ne'
      simp [Iv.closed, he, h1]
    · simp [Iv.closed, he]

/-- From an extremum on to the next, but for the first and the last one, it is one more than the number of that extremum (counted from 0)
and the part of the way. -/
theorem C135_between {pre post : List (ℚ × ℚ)} {p q : ℚ × ℚ} (h : Rising (pre ++ p :: q :: post)) {x : ℚ} (h1 : p.1 ≤ x) (h2 : x < q.1)
    (hx : pre = [] → p.1 < x) :
    index (pre ++ p :: q :: post) x = .ok (some ((pre.length : ℚ) + 1 + (x - p.1) / (q.1 - p.1))) := by
  have hne : pre ++ p :: q :: post ≠ [] := by simp
  obtain ⟨hp, hpq, hcross⟩ := List.pairwise_append.1 h
  have hlow : ∀ e ∈ pre, e.1 < p.1 := fun e he => hcross e he p (by simp)
  have hq : ∀ e ∈ post, q.1 < e.1 := fun e he => List.rel_of_pairwise_cons (List.pairwise_cons.1 hpq).2 he
  have hhead : ((pre ++ p :: q :: post).head hne).1 < x := by
    cases pre with
    | nil => exact hx rfl
    | cons e pre => exact lt_of_lt_of_le (hlow e (by simp)) h1
  have hlast : x < ((pre ++ p :: q :: post).getLast hne).1 := by
    rw [List.getLast_append_of_ne_nil hne (List.cons_ne_nil _ _)]
    have : (p :: q :: post).getLast (by simp) = (q :: post).getLast (by simp) := by simp
    rw [this]
    cases post with
    | nil => exact h2
    | cons e post => exact h2.trans (hq _ (by simpa using List.getLast_mem (l := e :: post) (by simp)))
  have hb : bisectRight (pre ++ p :: q :: post) x = pre.length + 1 := by
    unfold bisectRight
    rw [List.takeWhile_append_of_pos (fun e he => decide_eq_true ((hlow e he).le.trans h1))]
    simp [List.takeWhile_cons, h1, not_le.2 h2]
  have g1 : pyGet (pre ++ p :: q :: post) (((pre.length + 1 : ℕ) : ℤ) - 1) = .ok p := by
    unfold pyGet
    simp
  have g2 : pyGet (pre ++ p :: q :: post) ((pre.length + 1 : ℕ) : ℤ) = .ok q := by
    unfold pyGet
    rw [if_pos (by omega)]
    simp
  unfold index
  rw [interval_eq _ hne]
  have hc : (Iv.closed ((pre ++ p :: q :: post).head hne).1 ((pre ++ p :: q :: post).getLast hne).1).contains (.fin x) = true := by
    rw [Iv.contains_closed]; exact Bool.and_eq_true_iff.2 ⟨decide_eq_true hhead.le, decide_eq_true hlast.le⟩
  rw [hc, hb]
  have n1 : x ≠ ((pre ++ p :: q :: post).head hne).1 := hhead.ne'
  have n2 : x ≠ ((pre ++ p :: q :: post).getLast hne).1 := hlast.ne
  have n3 : q.1 - p.1 ≠ 0 := by linarith
  simp only [Iv.closed, Bool.not_true, Bool.false_eq_true, if_false, Ext.fin.injEq, n1, n2, g1, g2, n3]
  simp [bind, Except.bind, pure, Except.pure, n3]

/-- So the index of an extremum is not its number, unless it is the first or the last. -/
theorem C135_negation {pre post : List (ℚ × ℚ)} {p : ℚ × ℚ} (h : Rising (pre ++ p :: post)) (h1 : pre ≠ []) (h2 : post ≠ []) :
    index (pre ++ p :: post) p.1 = .ok (some ((pre.length : ℚ) + 1)) := by
  cases post with
  | nil => exact absurd rfl h2
  | cons q post =>
    have hpq : p.1 < q.1 := List.rel_of_pairwise_cons (List.pairwise_append.1 h).2.1 (by simp)
    rw [C135_between h (le_refl _) hpq (fun hc => absurd hc h1)]
    simp

/-- And it falls at the last extremum. -/
theorem C135_negation_falls {pre : List (ℚ × ℚ)} {p q : ℚ × ℚ} (h : Rising (pre ++ [p, q])) {x : ℚ} (h1 : p.1 < x) (h2 : x < q.1) :
    ∃ a b : ℚ, index (pre ++ [p, q]) x = .ok (some a) ∧ index (pre ++ [p, q]) q.1 = .ok (some b) ∧ b < a := by
  have hpq : 0 < q.1 - p.1 := by linarith
  refine ⟨_, (pre.length : ℚ) + 1, C135_between h h1.le h2 fun _ => h1, ?_, ?_⟩
  · have := (C135_ends h (by simp)).2
    rw [show ((pre ++ [p, q]).getLast (by simp)) = q by simp] at this
    rw [this]
    simp
    ring
  · have : 0 < (x - p.1) / (q.1 - p.1) := div_pos (by linarith) hpq
    linarith

example : index [(0, 5), (2, 1), (4, 6), (8, 2)] 0 = .ok (some 0) ∧ index [(0, 5), (2, 1), (4, 6), (8, 2)] 1 = .ok (some (3/2)) ∧
    index [(0, 5), (2, 1), (4, 6), (8, 2)] 2 = .ok (some 2) ∧ index [(0, 5), (2, 1), (4, 6), (8, 2)] 7 = .ok (some (15/4)) ∧
    index [(0, 5), (2, 1), (4, 6), (8, 2)] 8 = .ok (some 3) := by decide +kernel

/-! ### An instance of each theorem -/

theorem four_rising : Rising [(0, 5), (2, 1), (4, 6), (8, 2)] := by
  unfold Rising
  decide +kernel

-- `C135_where`
example : index [(0, 5), (2, 1), (4, 6), (8, 2)] 9 = .ok none ∧ index [(0, 5), (2, 1), (4, 6), (8, 2)] (-1) = .ok none :=
  ⟨C135_where (by simp) 9 (.inr (by simp; norm_num)), C135_where (by simp) (-1) (.inl (by simp))⟩

-- `C135_ends`
example : index [(0, 5), (2, 1), (4, 6), (8, 2)] 8 = .ok (some (4 - 1)) := (C135_ends four_rising (by simp)).2

-- `C135_between`: between `4` and `8`, two extremes before
example : index [(0, 5), (2, 1), (4, 6), (8, 2)] 5 = .ok (some (2 + 1 + (5 - 4) / (8 - 4))) :=
  C135_between (pre := [(0, 5), (2, 1)]) (p := (4, 6)) (q := (8, 2)) (post := []) four_rising (by norm_num) (by norm_num) (by simp)

end Props
end Curvepy
