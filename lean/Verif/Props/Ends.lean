import Verif.Model.Ends
import Verif.Props.Quotes
import Verif.Props.Averages

/-!
# The ends of curves

`C152`: `y_start`, `y_end`, `first_point` and `last_point`.
-/

namespace Curvepy
namespace Props
open Spec Pts Accum

variable {V : Type} [Lerp V]

theorem ends_domain {s : Pts V} (h : Honest s) :
    (s.points = [] ∧ s.domVal = Iv.empty)
      ∨ ∃ p q, s.points.head? = some p ∧ s.points.getLast? = some q ∧ p ∈ s.points ∧ q ∈ s.points
        ∧ s.domVal = Iv.closed p.1 q.1 ∧ s.domVal.isEmpty = false := by
  rw [h.wf.domVal]
  by_cases hne : s.points = []
  · left
    rw [hne]
    exact ⟨rfl, rfl⟩
  · right
    have h1 := getDomain_not_isEmpty h.wf.asc hne
    obtain ⟨p, ps, hp⟩ := List.exists_cons_of_ne_nil hne
    refine ⟨p, s.points.getLast hne, by rw [hp]; rfl, List.getLast?_eq_some_getLast hne, by rw [hp]; simp,
      List.getLast_mem hne, ?_, h1⟩
    simp only [hp, getDomain]

/-- **The ends of points**: `y_start` and `y_end` are the first and the last value, `None` without points, and what `y` gives
at the ends of the domain. -/
theorem C152_values {s : Pts V} (h : Honest s) :
    s.yStart = .ok (s.points.head?.bind Prod.snd) ∧ s.yEnd = .ok (s.points.getLast?.bind Prod.snd)
      ∧ s.y s.domVal.lo = s.yStart ∧ s.y s.domVal.hi = s.yEnd := by
  rcases ends_domain h with ⟨h1, h2⟩ | ⟨p, q, h1, h2, hp, hq, h3, h4⟩
  · have e1 : s.yStart = .ok none := by unfold Pts.yStart; rw [h2]; rfl
    have e2 : s.yEnd = .ok none := by unfold Pts.yEnd; rw [h2]; rfl
    have e3 : ∀ x, s.y x = .ok none := by
      intro x
      unfold Pts.y
      rw [h2]
      have : Iv.empty.contains x = false := by cases x <;> rfl
      rw [this]
      rfl
    rw [e1, e2, e3, e3, h1]
    exact ⟨rfl, rfl, rfl, rfl⟩
  · have e1 : s.yStart = .ok p.2 := by
      unfold Pts.yStart
      rw [h4]
      have : pyGet s.points 0 = .ok p := by
        obtain ⟨ps, hps⟩ := List.head?_eq_some_iff.1 h1
        rw [hps]
        rfl
      rw [this]
      rfl
    have e2 : s.yEnd = .ok q.2 := by
      unfold Pts.yEnd
      rw [h4]
      have : pyGet s.points (-1) = .ok q := by
        obtain ⟨ps, hps⟩ := List.getLast?_eq_some_iff.1 h2
        rw [hps]
        simp [pyGet]
      rw [this]
      rfl
    have e3 : s.y s.domVal.lo = .ok p.2 := by
      rw [h3]
      exact C01_stored_value h hp
    have e4 : s.y s.domVal.hi = .ok q.2 := by
      rw [h3]
      exact C01_stored_value h hq
    rw [e1, e2, e3, e4, h1, h2]
    exact ⟨rfl, rfl, rfl, rfl⟩

/-- `first_point` and `last_point` are the first and last stored point. -/
theorem C152_points {s : Pts V} (h : Honest s) :
    s.firstPoint = .ok (s.points.head?.map fun p => (.fin p.1, p.2))
      ∧ s.lastPoint = .ok (s.points.getLast?.map fun p => (.fin p.1, p.2)) := by
  rcases ends_domain h with ⟨h1, h2⟩ | ⟨p, q, h1, h2, hp, hq, h3, h4⟩
  · unfold firstPoint lastPoint
    rw [h2, h1]
    exact ⟨rfl, rfl⟩
  · have e3 : s.y s.domVal.lo = .ok p.2 := by
      rw [h3]
      exact C01_stored_value h hp
    have e4 : s.y s.domVal.hi = .ok q.2 := by
      rw [h3]
      exact C01_stored_value h hq
    unfold firstPoint lastPoint
    rw [h4, e3, e4, h1, h2, h3]
    exact ⟨rfl, rfl⟩

/-- **Accumulators**: at the start the accumulation of the first point, at the end that of all points, whatever happened
before. -/
theorem C152_accumulator {f : Option (Pt ℚ) → Option ℚ → Pt ℚ → Option ℚ} {t : Tfm} {m : ℚ} {i : Interp} {u : Bool}
    {A : Accum} (hf : Follows m t (stepRule f)) (hm : 0 < m) (h : Used t m i u A) :
    (A.yStart t).map Out.res = some (.ok (stepFold f none none (A.src.points.take 1)))
      ∧ (A.yEnd t).map Out.res = some (.ok (stepFold f none none A.src.points)) := by
  obtain ⟨seen, todo, hs⟩ := Used.sound hf hm h
  have hd : A.domVal = getDomain A.src.points := by rw [hs.dom, hs.pts]
  have hp : A.touch.src.points = A.src.points := touch_points A
  have asc : Ascending A.src.points := hs.src.wf.asc
  unfold Accum.yStart Accum.yEnd
  rw [hd]
  by_cases hne : A.src.points = []
  · have key : ∀ x, (A.touch.query t x).map Out.res = some (.ok none) := by
      intro x
      obtain ⟨o, h1, h2, _⟩ := C46_fold_partial hf hm (.read h) x
      rw [h1, Option.map_some, h2, hp, hne]
      cases x <;> rfl
    rw [key, key, hne]
    exact ⟨rfl, rfl⟩
  · have key : ∀ (k : ℕ) (p : Pt ℚ), A.src.points[k]? = some p →
        (A.touch.query t (.fin p.1)).map Out.res = some (.ok (stepFold f none none (A.src.points.take (k + 1)))) := by
      intro k p hk
      obtain ⟨o, h1, h2, _⟩ := C46_fold_partial hf hm (.read h) (.fin p.1)
      rw [h1, Option.map_some, h2, hp, accumulatedAt_step f i asc hk]
    obtain ⟨p, ps, hps⟩ := List.exists_cons_of_ne_nil hne
    have e1 : getDomain A.src.points = Iv.closed p.1 (A.src.points.getLast hne).1 := by simp only [hps, getDomain]
    rw [e1]
    refine ⟨?_, ?_⟩
    · exact key 0 p (by rw [hps]; rfl)
    · have hl := key (A.src.points.length - 1) (A.src.points.getLast hne)
        (by rw [List.getLast_eq_getElem]; exact List.getElem?_eq_getElem _)
      have hpos := List.length_pos_iff.2 hne
      rw [Nat.sub_add_cancel hpos, List.take_length] at hl
      exact hl

/-- **All curves**: with a closed domain the first point is where the domain begins, with the value there. -/
theorem C152_curves (c : Crv) :
    (c.dom.isEmpty = true → c.firstPoint = .ok none ∧ c.lastPoint = .ok none)
      ∧ (c.dom.isEmpty = false → ∀ y, (c.yStart = .ok y → c.firstPoint = .ok (some (c.dom.lo, y)))
        ∧ (c.yEnd = .ok y → c.lastPoint = .ok (some (c.dom.hi, y)))) := by
  unfold Crv.firstPoint Crv.lastPoint Crv.yStart Crv.yEnd
  refine ⟨fun h => by rw [h]; exact ⟨rfl, rfl⟩, fun h y => ⟨fun e => ?_, fun e => ?_⟩⟩ <;> rw [h, e] <;> rfl

/-! ## Examples -/

example : (demo .linear).yStart = .ok (some 1) ∧ (demo .linear).yEnd = (demo .linear).y (demo .linear).domVal.hi :=
  ⟨by decide +kernel, ((C152_values (demo_honest .linear)).2.2.2).symm⟩

example : (even .linear).firstPoint = .ok (some (.fin 0, some 1)) ∧ (even .linear).lastPoint = .ok (some (.fin 4, some 4)) := by
  decide +kernel

example : ((Accum.new (even .linear) 1).yEnd (emaTfm (some (1 / 2)) none none 1)).map Out.res = some (.ok (some (7 / 2)))
    ∧ Follows 1 (emaTfm (some (1 / 2)) none none 1) (stepRule (emaStep (fun _ _ => 1 / 2) none)) :=
  ⟨by decide +kernel, ema_follows_alpha _ _ _⟩

/-- **An open end has no value**: `y_end` of a curve restricted to an open domain is `None`, and `last_point` is not on the
curve. -/
theorem C152_negation :
    let c := Crv.subset (Crv.constant (.fin 1)) ⟨.fin 0, .fin 1, false, true⟩
    c.dom.isEmpty = false ∧ c.yStart = .ok (some (.fin 1)) ∧ c.yEnd = .ok none
      ∧ c.lastPoint = .ok (some (.fin 1, none)) := by
  refine ⟨?_, ?_, ?_, ?_⟩ <;> decide +kernel

end Props
end Curvepy
