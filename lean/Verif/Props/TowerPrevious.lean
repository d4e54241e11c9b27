import Verif.Props.Tower
import Verif.Props.AccumulatorSteps

/-!
# C126: previous positions of accumulators over accumulators
-/

namespace Curvepy
namespace Props
open Spec Pts Accum

variable {t : Tfm} {g : Rule} {m : ℚ} {i : Interp} {u : Bool} {pts : List (Pt ℚ)} {ls : List Storey}

/-- The answer is a position of the points at least `a` back; and if there is none, no point is `b` back. -/
def Back (pts : List (Pt ℚ)) (x a b : ℚ) (v : Option Ext) : Prop :=
  (∃ z, v = some (.fin z) ∧ ∃ p ∈ pts, p.1 = z ∧ z ≤ x - a) ∨ (v = none ∧ ∀ p ∈ pts, x - b < p.1)

theorem Back.weaken {x a a' b b' : ℚ} {v : Option Ext} (h : Back pts x a b v) (ha : a' ≤ a) (hb : b ≤ b') : Back pts x a' b' v := by
  rcases h with ⟨z, h1, p, h2, h3, h4⟩ | ⟨h1, h2⟩
  · exact .inl ⟨z, h1, p, h2, h3, by linarith⟩
  · exact .inr ⟨h1, fun p hp => by have := h2 p hp; linarith⟩

theorem resolve_fin (m a : ℚ) : Crv.resolve (some (.fin m)) (some (.fin a)) = some (.fin (max a m)) := by
  simp only [Crv.resolve, Ext.fin_lt_fin, Option.some.injEq]
  split
  · rw [max_eq_right (by linarith)]
  · rw [max_eq_left (by linarith)]

/-- The accumulator over the points. -/
theorem base_back {A : Accum} {seen todo : List (Pt ℚ)} (hs : Accum.Sound g m i u A seen todo) (x a : ℚ) :
    ∃ v, A.xPreviousBy (.fin x) (some (.fin a)) = .ok v ∧ Back A.src.points x (max a m) (max a m) v := by
  have hsrc : ∃ v, A.src.xPrevious (.fin x) (some (max a m)) = .ok v ∧ Back A.src.points x (max a m) (max a m) v := by
    rcases C07_x_previous hs.src x (max a m) with ⟨z, h1, h2, _⟩ | ⟨h1, h2⟩
    · exact ⟨_, h1, .inl ⟨z, rfl, h2⟩⟩
    · exact ⟨_, h1, .inr ⟨rfl, h2⟩⟩
  unfold Accum.xPreviousBy
  rw [hs.step, resolve_fin]
  simp only
  unfold Accum.xPrevious
  rw [resolve_max hs, max_assoc, max_self]
  simp only
  rcases C07_x_previous hs.acc x (max a m) with ⟨z, h1, ⟨r, hr, hrz, hz⟩, hl⟩ | ⟨h1, _⟩
  · rw [h1]
    obtain ⟨q, hq, hqz⟩ := (acc_mem hs z).1 ⟨r, hr, hrz⟩
    by_cases h0 : z = 0
    · subst h0; exact hsrc
    · refine ⟨some (.fin z), ?_, .inl ⟨z, rfl, q, by rw [hs.pts]; simp [hq], hqz, hz⟩⟩
      show pyOr (some (.fin z)) _ = _
      simp [pyOr, h0]
  · rw [h1]
    exact hsrc

theorem tower_back (hg : NeverRaises g) (l : Option Ext) (x : ℚ) : ∀ {ls : List Storey} {s : TowerState ls} (a : ℚ),
    TowerFine g m i u ls pts s → ∃ v s', (tower t ls).machine.xPrevious (.fin x) (some (.fin a)) l s = some (.ok v, s') ∧
      Back pts x (max a (towerStep m ls)) (max a (towerWidest m ls)) v
  | [], A, a, h => by
    obtain ⟨h1, seen, todo, hs⟩ := h
    obtain ⟨v, h2, h3⟩ := base_back hs x a
    subst h1
    exact ⟨v, A, congrArg some (Prod.ext h2 rfl), h3⟩
  | S :: ls, (L, s), a, h => by
    obtain ⟨⟨hi, seen, todo, hp, hL⟩, hs⟩ := h
    obtain ⟨v, s', h1, h2⟩ := tower_back hg l x (max a S.minStep) hs
    have hb : ∃ v s', Layer.below ((tower t ls).machine.xPrevious (.fin x) (some (.fin (max a S.minStep))) l) (L, s) = some (.ok v, s') ∧
        Back pts x (max a S.minStep) (max a (max S.minStep (towerWidest m ls))) v := by
      refine ⟨v, (L, s'), by simp only [Layer.below, h1, Option.map_some], h2.weaken (le_max_left _ _) (by rw [max_assoc])⟩
    show ∃ v s', Layer.xPrevious (tower t ls).machine (.fin x) (some (.fin a)) l (L, s) = some (.ok v, s') ∧ _
    have hstep : L.scan.minStep = S.minStep := hL.step
    simp only [Layer.xPrevious, run_bind, Layer.get, Option.bind_some, hstep, resolve_fin, Layer.ownPrevious, Run.lift]
    show ∃ v s', _ ∧ Back pts x (max a S.minStep) (max a (max S.minStep (towerWidest m ls))) v
    rcases C07_x_previous hL.acc x (max a S.minStep) with ⟨z, g1, ⟨r, hr, hrz, hz⟩, -⟩ | ⟨g1, -⟩
    · rw [g1]
      simp only [Layer.orElse]
      split
      · exact hb
      · refine ⟨some (.fin z), _, rfl, .inl ⟨z, rfl, ?_⟩⟩
        have : z ∈ L.scan.acc.points.map Prod.fst := List.mem_map.2 ⟨r, hr, hrz⟩
        rw [hL.accXs] at this
        have : z ∈ (towerKnots g ls pts).map Prod.fst := by
          rw [← hp, List.map_append]; exact List.mem_append_left _ this
        rw [towerKnots_xs hg] at this
        obtain ⟨p, hp1, hp2⟩ := List.mem_map.1 this
        exact ⟨p, hp1, hp2, hz⟩
    · rw [g1]
      exact hb

/-- C126, backwards (partial: not the greatest such position, see `C126_negation_previous`): after any history the previous position
is a position of the points, at least the step of the highest accumulator back.  There is one, if a point is as far back as the largest
step. -/
theorem C126_previous_partial (hf : Follows m t g) (hm : 0 < m) (hg : NeverRaises g) (hS : ∀ S ∈ ls, 0 < S.minStep)
    {s : TowerState ls} (h : TowerUsed t m i u ls s) (x a : ℚ) (l : Option Ext) :
    ∃ v, ((tower t ls).machine.xPrevious (.fin x) (some (.fin a)) l s).map Prod.fst = some (.ok v) ∧
      ((∃ z, v = some (.fin z) ∧ ∃ p ∈ ((tower t ls).src s).points, p.1 = z ∧ z ≤ x - max a (towerStep m ls)) ∨
        (v = none ∧ ∀ p ∈ ((tower t ls).src s).points, x - max a (towerWidest m ls) < p.1)) := by
  obtain ⟨v, s', h1, h2⟩ := tower_back (t := t) hg l x a (tower_used hf hm hg hS h)
  exact ⟨v, by rw [h1]; rfl, h2⟩

/-- Not read before. -/
example : ((tower (emaTfm (some (1/2)) none none 1) [halfEma 1]).machine.xPrevious (.fin (7/2)) (some (.fin 1)) none twice).map Prod.fst =
    some (.ok (some (.fin 2))) := by decide +kernel

example : ∃ v, ((tower (emaTfm (some (1/2)) none none 1) [halfEma 1]).machine.xPrevious (.fin (7/2)) (some (.fin 1)) none twice).map
    Prod.fst = some (.ok v) ∧ v ≠ none := by
  obtain ⟨v, h1, h2⟩ := C126_previous_partial (ema_follows_alpha (m := 1) (1/2) none 1) one_pos (stepRule_neverRaises _) halfEma_pos
    twice_used (7/2) 1 none
  refine ⟨v, h1, ?_⟩
  rintro rfl
  rcases h2 with ⟨z, h, -⟩ | ⟨-, h⟩
  · cases h
  · rw [show ((tower (emaTfm (some (1/2)) none none 1) [halfEma 1]).src twice).points = fivePts by decide +kernel] at h
    have := h _ (List.head_mem (l := fivePts) (by decide))
    revert this
    decide +kernel

/-- C126: the previous position is not determined by the points: before `5` it is `4`, and after a read at `2` it is `2`. -/
theorem C126_negation_previous :
    ∃ s' : TowerState [halfEma 1], TowerMove (emaTfm (some (1/2)) none none 1) [halfEma 1] twice s' ∧
      ((tower (emaTfm (some (1/2)) none none 1) [halfEma 1]).machine.xPrevious (.fin 5) (some (.fin 1)) none twice).map Prod.fst =
        some (.ok (some (.fin 4))) ∧
      ((tower (emaTfm (some (1/2)) none none 1) [halfEma 1]).machine.xPrevious (.fin 5) (some (.fin 1)) none s').map Prod.fst =
        some (.ok (some (.fin 2))) := by
  have key : (((tower (emaTfm (some (1/2)) none none 1) [halfEma 1]).machine.y (.fin 2) twice).bind fun r =>
      ((tower (emaTfm (some (1/2)) none none 1) [halfEma 1]).machine.xPrevious (.fin 5) (some (.fin 1)) none r.2).map Prod.fst) =
        some (.ok (some (.fin 2))) := by decide +kernel
  obtain ⟨⟨v, s'⟩, hs, key⟩ := Option.bind_eq_some_iff.1 key
  exact ⟨s', .inl (.inl ⟨_, _, hs⟩), by decide +kernel, key⟩

end Props
end Curvepy
