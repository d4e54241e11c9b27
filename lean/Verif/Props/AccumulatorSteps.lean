import Verif.Props.Averages
import Verif.Props.ExtremasScan

/-!
# Property C98: stepping along an accumulator
-/

namespace Curvepy
namespace Props
open Spec Pts Accum

variable {t : Tfm} {g : Rule} {m : ℚ} {i : Interp} {u : Bool} {A : Accum} {seen todo : List (Pt ℚ)}

theorem resolve_max (h : Sound g m i u A seen todo) (a : ℚ) :
    resolveMinStep (some A.minStep) (some a) = some (max a m) := by simp [resolveMinStep, h.step]

theorem acc_mem (h : Sound g m i u A seen todo) (z : ℚ) :
    (∃ p ∈ A.acc.points, p.1 = z) ↔ ∃ p ∈ seen, p.1 = z := by
  have hx := h.accXs
  constructor
  · rintro ⟨p, hp, rfl⟩
    have : p.1 ∈ A.acc.points.map Prod.fst := List.mem_map_of_mem hp
    rw [hx] at this
    obtain ⟨q, hq, hqp⟩ := List.mem_map.1 this
    exact ⟨q, hq, hqp⟩
  · rintro ⟨p, hp, rfl⟩
    have : p.1 ∈ seen.map Prod.fst := List.mem_map_of_mem hp
    rw [← hx] at this
    obtain ⟨q, hq, hqp⟩ := List.mem_map.1 this
    exact ⟨q, hq, hqp⟩

theorem sound_next (h : Sound g m i u A seen todo) (x a : ℚ) :
    A.xNext (.fin x) a = A.src.xNext (.fin x) (some (max a m)) := by
  unfold Accum.xNext
  rw [resolve_max h a]
  show (_ >>= _) = _
  have hasc := h.asc
  rcases C06_x_next h.acc x (max a m) with ⟨z, h1, ⟨r, hr, hrz, hz⟩, hl⟩ | ⟨h1, _⟩
  · rw [h1]
    show pyOr (some (.fin z)) _ = _
    obtain ⟨q, hq, hqz⟩ := (acc_mem h z).1 ⟨r, hr, hrz⟩
    have hsrc : A.src.xNext (.fin x) (some (max a m)) = .ok (some (.fin z)) := by
      rcases C06_x_next h.src x (max a m) with ⟨v, g1, ⟨s, hs, hsv, hv⟩, gl⟩ | ⟨_, g2⟩
      · rw [g1]
        congr 3
        refine le_antisymm (gl ⟨q, by rw [h.pts]; simp [hq], hqz, hz⟩) ?_
        rw [h.pts] at hs
        rcases List.mem_append.1 hs with hs | hs
        · obtain ⟨c, hc, hcv⟩ := (acc_mem h v).2 ⟨s, hs, hsv⟩
          exact hl ⟨c, hc, hcv, hv⟩
        · have := (List.pairwise_append.1 hasc).2.2 q hq s hs
          linarith
      · have := g2 q (by rw [h.pts]; simp [hq])
        linarith
    unfold pyOr
    simp only
    split
    · exact hsrc ▸ rfl
    · exact hsrc.symm
  · rw [h1]
    rfl

theorem sound_previous (h : Sound g m i u A seen todo) (x a : ℚ)
    (hq : seen = [] ∨ ∀ p ∈ todo, x - max a m < p.1) :
    A.xPrevious (.fin x) a = A.src.xPrevious (.fin x) (some (max a m)) := by
  unfold Accum.xPrevious
  rw [resolve_max h a]
  show (_ >>= _) = _
  have hasc := h.asc
  rcases C07_x_previous h.acc x (max a m) with ⟨z, h1, ⟨r, hr, hrz, hz⟩, hl⟩ | ⟨h1, _⟩
  · rw [h1]
    show pyOr (some (.fin z)) _ = _
    obtain ⟨q, hq', hqz⟩ := (acc_mem h z).1 ⟨r, hr, hrz⟩
    rcases hq with hq | hq
    · rw [hq] at hq'; cases hq'
    have hsrc : A.src.xPrevious (.fin x) (some (max a m)) = .ok (some (.fin z)) := by
      rcases C07_x_previous h.src x (max a m) with ⟨v, g1, ⟨s, hs, hsv, hv⟩, gl⟩ | ⟨_, g2⟩
      · rw [g1]
        congr 3
        refine le_antisymm ?_ (gl ⟨q, by rw [h.pts]; simp [hq'], hqz, hz⟩)
        rw [h.pts] at hs
        rcases List.mem_append.1 hs with hs | hs
        · obtain ⟨c, hc, hcv⟩ := (acc_mem h v).2 ⟨s, hs, hsv⟩
          exact hl ⟨c, hc, hcv, hv⟩
        · have := hq s hs
          linarith
      · have := g2 q (by rw [h.pts]; simp [hq'])
        linarith
    unfold pyOr
    simp only
    split
    · exact hsrc ▸ rfl
    · exact hsrc.symm
  · rw [h1]
    rfl

/-- C98, forwards: after any history, the next position of an accumulator is the least position of its source that is at
least a step further, also if it was not scanned yet. -/
theorem C98_next (hf : Follows m t g) (hm : 0 < m) (h : Used t m i u A) (x a : ℚ) :
    (∃ z, A.xNext (.fin x) a = .ok (some (.fin z)) ∧
      IsLeast {z | ∃ p ∈ A.src.points, p.1 = z ∧ x + max a m ≤ z} z) ∨
    (A.xNext (.fin x) a = .ok none ∧ ∀ p ∈ A.src.points, p.1 < x + max a m) := by
  obtain ⟨_, _, hs⟩ := Used.sound hf hm h
  rw [sound_next hs]
  exact C06_x_next hs.src x (max a m)

/-- C98, backwards (partial: nothing was scanned yet, or no point that was not scanned is in reach): the previous position of
an accumulator is the greatest position of its source that is at least a step back.
Missing: other positions, see `C98_negation`. -/
theorem C98_previous_partial (hf : Follows m t g) (hm : 0 < m) (h : Used t m i u A) (x a : ℚ)
    (hx : ∀ c, A.current = some c → ∀ p ∈ A.src.points, c < p.1 → x - max a m < p.1) :
    (∃ z, A.xPrevious (.fin x) a = .ok (some (.fin z)) ∧
      IsGreatest {z | ∃ p ∈ A.src.points, p.1 = z ∧ z ≤ x - max a m} z) ∨
    (A.xPrevious (.fin x) a = .ok none ∧ ∀ p ∈ A.src.points, x - max a m < p.1) := by
  obtain ⟨seen, todo, hs⟩ := Used.sound hf hm h
  rw [sound_previous hs]
  · exact C07_x_previous hs.src x (max a m)
  · cases hl : seen.getLast? with
    | none => left; simpa using hl
    | some q =>
      right
      intro p hp
      refine hx q.1 (by rw [hs.cur, hl]; rfl) p (by rw [hs.pts]; simp [hp]) ?_
      exact (List.pairwise_append.1 hs.asc).2.2 q (List.mem_of_getLast? hl) p hp

/-- C98, backwards: in all cases the answer is a position of the source that is at least a step back, and there is one if
and only if the source has one. -/
theorem C98_previous_some (hf : Follows m t g) (hm : 0 < m) (h : Used t m i u A) (x a : ℚ) :
    (∃ z, A.xPrevious (.fin x) a = .ok (some (.fin z)) ∧ ∃ p ∈ A.src.points, p.1 = z ∧ z ≤ x - max a m) ∨
    (A.xPrevious (.fin x) a = .ok none ∧ ∀ p ∈ A.src.points, x - max a m < p.1) := by
  obtain ⟨seen, todo, hs⟩ := Used.sound hf hm h
  have hsrc : (∃ z, A.src.xPrevious (.fin x) (some (max a m)) = .ok (some (.fin z)) ∧
      ∃ p ∈ A.src.points, p.1 = z ∧ z ≤ x - max a m) ∨
      (A.src.xPrevious (.fin x) (some (max a m)) = .ok none ∧ ∀ p ∈ A.src.points, x - max a m < p.1) := by
    rcases C07_x_previous hs.src x (max a m) with ⟨z, h1, h2, _⟩ | h1
    · exact .inl ⟨z, h1, h2⟩
    · exact .inr h1
  unfold Accum.xPrevious
  rw [resolve_max hs a]
  simp only
  rcases C07_x_previous hs.acc x (max a m) with ⟨z, h1, ⟨r, hr, hrz, hz⟩, hl⟩ | ⟨h1, _⟩
  · rw [h1]
    obtain ⟨q, hq, hqz⟩ := (acc_mem hs z).1 ⟨r, hr, hrz⟩
    by_cases h0 : z = 0
    · subst h0; exact hsrc
    · refine .inl ⟨z, ?_, q, by rw [hs.pts]; simp [hq], hqz, hz⟩
      show pyOr (some (.fin z)) _ = _
      simp [pyOr, h0]
  · rw [h1]
    exact hsrc

/-- The previous position of an accumulator after some queries. -/
def previousAfter (t : Tfm) (A : Accum) (before : List Ext) (x : ℚ) : Option (Except Err (Option Ext)) :=
  (queries t A before).map fun r => r.1.xPrevious (.fin x) 1

/-- Points with a gap of 1. -/
def fivePts : List (Pt ℚ) := [(1, some 1), (2, some 3), (3, some 2), (4, some 7), (5, some 1)]

theorem five_honest : Honest (loose fivePts) :=
  loose_honest (by norm_num [Ascending, fivePts]) ⟨1, by norm_num [fivePts]⟩ (by decide +kernel)

theorem five_fit : Fit 1 true (loose fivePts).points := by
  have h : (loose fivePts).points = fivePts := by decide +kernel
  rw [h]
  refine ⟨by norm_num [Gapped, fivePts], ?_, fun _ => ⟨1, by norm_num [fivePts]⟩⟩
  rintro pre p q r hp _
  exact EquallySpaced.prefix hp ⟨1, by norm_num [fivePts]⟩

/-- Disagreement with C98: asked for the position before 5, an average that has not been used says 4; after a query at 2 it
says 2. -/
theorem C98_negation :
    Used (emaTfm (some (1/2)) none none 1) 1 .linear true (Accum.new (loose fivePts) 1) ∧
    previousAfter (emaTfm (some (1/2)) none none 1) (Accum.new (loose fivePts) 1) [] 5 =
      some (.ok (some (.fin 4))) ∧
    previousAfter (emaTfm (some (1/2)) none none 1) (Accum.new (loose fivePts) 1) [.fin 2] 5 =
      some (.ok (some (.fin 2))) := by
  refine ⟨.new five_honest five_fit, ?_, ?_⟩ <;> decide +kernel

/-- Forwards it does not matter. -/
example : ((queries (emaTfm (some (1/2)) none none 1) (Accum.new (loose fivePts) 1) [.fin 2]).map fun r =>
    r.1.xNext (.fin 3) 1) = some (.ok (some (.fin 4))) ∧
    (Accum.new (loose fivePts) 1).xNext (.fin 3) 1 = .ok (some (.fin 4)) ∧
    previousAfter (emaTfm (some (1/2)) none none 1) (Accum.new (loose fivePts) 1) [.fin 4] 5 =
      some (.ok (some (.fin 4))) := by
  refine ⟨?_, ?_, ?_⟩ <;> decide +kernel
/-! ## An instance of each theorem -/

theorem five_used : Used (emaTfm (some (1/2)) none none 1) 1 .linear true (Accum.new (loose fivePts) 1) :=
  .new five_honest five_fit

/-- Asked for a step of `3/2` from `2`: the point at `4`. -/
example : (∃ z, (Accum.new (loose fivePts) 1).xNext (.fin 2) (3/2) = .ok (some (.fin z)) ∧
      IsLeast {z | ∃ p ∈ (Accum.new (loose fivePts) 1).src.points, p.1 = z ∧ 2 + max (3/2) 1 ≤ z} z) ∨
    ((Accum.new (loose fivePts) 1).xNext (.fin 2) (3/2) = .ok none ∧
      ∀ p ∈ (Accum.new (loose fivePts) 1).src.points, p.1 < 2 + max (3/2) 1) :=
  C98_next (ema_follows_alpha (1/2) none 1) (by norm_num) five_used 2 (3/2)

example : (∃ z, (Accum.new (loose fivePts) 1).xPrevious (.fin 5) (3/2) = .ok (some (.fin z)) ∧
      IsGreatest {z | ∃ p ∈ (Accum.new (loose fivePts) 1).src.points, p.1 = z ∧ z ≤ 5 - max (3/2) 1} z) ∨
    ((Accum.new (loose fivePts) 1).xPrevious (.fin 5) (3/2) = .ok none ∧
      ∀ p ∈ (Accum.new (loose fivePts) 1).src.points, 5 - max (3/2) 1 < p.1) :=
  C98_previous_partial (ema_follows_alpha (1/2) none 1) (by norm_num) five_used 5 (3/2) (by intro c hc; cases hc)

example : (Accum.new (loose fivePts) 1).xNext (.fin 2) (3/2) = .ok (some (.fin 4)) ∧
    (Accum.new (loose fivePts) 1).xPrevious (.fin 5) (3/2) = .ok (some (.fin 3)) := by
  constructor <;> decide +kernel

end Props
end Curvepy
