import Verif.Props.PointsSampling
import Verif.Props.QuotesSampling
import Verif.Props.ExtremasScan

/-!
# Property C142: windows and quotes sampled in steps
-/

namespace Curvepy
namespace Props
open Spec Pts Accum

/-! ### Windows of a period -/

/-- **C142** If the average gap is below the step, a window of a period holds the values of the curve at the beginning of the window and at the
points met from there in steps; the point itself once more, if it is met.  (Partial: no position met is an odd multiple of
half the step.) -/
theorem C142_window_partial {src : Pts ℚ} {m : ℚ} (h : Honest src) (hm : 0 < m) {p : Pt ℚ} {ps : List (Pt ℚ)}
    (hp : src.points = p :: ps) {g : ℚ} (hg : IsAverageGap src.points g) (hgm : g < m) {per x : ℚ} (hper : 0 < per) (h1 : p.1 ≤ x - per)
    (h2 : x ≤ ((p :: ps).getLast (by simp)).1)
    (hh : ∀ z ∈ stepsFrom m (x - per) (src.points.map Prod.fst), z ≤ x → NotHalfway m z) :
    windowBefore src none (some per) m x = .ok ((stepPositions m (x - per) x false (src.points.map Prod.fst)).map
      (valueAt src.interp src.points)).reverse := by
  have hd : (Iv.closedOpen (x - per) x).isEmpty = false := by
    unfold Iv.closedOpen Iv.isEmpty
    simp [hper.le, hper.ne', hper]
  have hb := between_some src h hp hd rfl rfl h1 h2
  have := C142_steps_partial h hb hm hg hgm hh (Or.inl rfl) (Nat.lt_succ_self _)
  simp only [windowBefore, this]
  simp [withValues, withEnd, Iv.closedOpen, Function.comp_def]

/-- **C142** Sampling a window ends, with a result or an exception. -/
theorem C142_window_ends {src : Pts ℚ} {m : ℚ} (h : Honest src) (hm : 0 < m) (per x : ℚ) :
    ∃ r, src.samplePoints (some (Iv.closedOpen (x - per) x)) (some m) none (src.points.length + 1) = some r :=
  Option.isSome_iff_exists.1 (C142_ends h hm _)

/-! ### Quotes -/

/-- **C142** Quotes are sampled in steps from the beginning of the first period asked for, or from the first quote: each position with the
quote that begins last at or before it.  (Partial: as for points.) -/
theorem C142_quotes_partial {q : Quotes} (h : QHonest q) (D : Dur) {domain : Option Iv} {d : Iv} {a b m : ℚ}
    (hdom : (domain.getD Iv.infinite).isEmpty = false) (hd : Between q.points (some (D.span (domain.getD Iv.infinite))) d a b)
    (hm : 0 < m) {g : ℚ} (hg : IsAverageGap q.points.points g) (hgm : g < m)
    (hh : ∀ x ∈ stepsFrom m a (q.points.points.map Prod.fst), x ≤ b → NotHalfway m x) (hlo : d.loOpen = false) {fuel : ℕ}
    (hf : q.points.points.length < fuel) :
    q.sample D domain (some m) none fuel = some (.ok ((withEnd b d.hiOpen
      (stepPositions m a b false (q.points.points.map Prod.fst))).map (valueAt .previous q.points.points))) := by
  have h1 := C142_steps_partial (qhonest h).1 hd hm hg hgm hh (Or.inr (by rw [hlo]; simp [stepPositions])) hf
  rw [hlo, (qhonest h).2.1] at h1
  unfold Quotes.sample Quotes.samplePoints
  simp only [hdom, Bool.false_eq_true, if_false, h1]
  simp [withValues, Except.map]

/-- **C142** The same on a grid. -/
theorem C142_quotes_grid {q : Quotes} (h : QHonest q) (D : Dur) {domain : Option Iv} {d : Iv} {a b st : ℚ}
    (hdom : (domain.getD Iv.infinite).isEmpty = false) (hd : Between q.points (some (D.span (domain.getD Iv.infinite))) d a b)
    (hst : 0 < st) {g : ℚ} (hg : IsAverageGap q.points.points g) (hgs : st ≠ g) {m : Option ℚ} (hms : m ≠ some 0) {fuel : ℕ}
    (hf : ⌊(b - a) / st⌋₊ < fuel) :
    q.sample D domain m (some st) fuel =
      some (.ok ((gridPositions st a b d.loOpen).map (valueAt .previous q.points.points))) := by
  have h1 := C142_grid (qhonest h).1 hd hst hg hgs hms hf
  rw [(qhonest h).2.1] at h1
  unfold Quotes.sample Quotes.samplePoints
  simp only [hdom, Bool.false_eq_true, if_false, h1]
  simp [withValues, Except.map]

example : secondQuotes.sample unitDur none (some 2) none 4 = some (.ok [some [1, 2, 1, 2], some [3, 5, 3, 5]]) ∧
    secondQuotes.samplePoints unitDur (some (Iv.closed 10 11)) none (some (3/2)) 4 =
      some (.ok [(10, some [1, 2, 1, 2]), (23/2, some [2, 3, 2, 3])]) :=
  ⟨by decide +kernel, by decide +kernel⟩

/-! ### Concrete cases -/

/-- Points one apart. -/
def rowPts : Pts ℚ := loose [(0, some 0), (1, some 2), (2, some 4), (3, some 6), (4, some 8), (5, some 10), (6, some 12)]

example : rowPts.samplePoints (some (Iv.closed (1/2) 5)) (some 2) none 8 =
      some (.ok [(1/2, some 1), (3, some 6), (5, some 10)]) ∧
    rowPts.samplePoints (some (Iv.closed (1/2) (9/2))) (some 2) none 8 = some (.ok [(1/2, some 1), (3, some 6), (9/2, some 9)]) ∧
    rowPts.samplePoints (some (Iv.openClosed 0 3)) none (some (3/2)) 8 = some (.ok [(3/2, some 3), (3, some 6)]) ∧
    rowPts.samplePoints (some (Iv.openClosed 0 3)) (some 1) none 0 = some (.ok [(1, some 2), (2, some 4), (3, some 6)]) ∧
    IsAverageGap rowPts.points 1 :=
  ⟨by decide +kernel, by decide +kernel, by decide +kernel, by decide +kernel, (0, some 0), _, (6, some 12), rfl, rfl, by norm_num⟩

/-- C142: the end of a domain that is open there is sampled if it is met, and on a grid; positions that are odd multiples of half the step raise an
exception; so does a domain open at its beginning and closed at its end that has no point to meet. -/
theorem C142_negation :
    rowPts.samplePoints (some (Iv.closedOpen 0 2)) (some 2) none 8 = some (.ok [(0, some 0), (2, some 4)]) ∧
    rowPts.samplePoints (some (Iv.closedOpen 0 3)) none (some (3/2)) 8 = some (.ok [(0, some 0), (3/2, some 3), (3, some 6)]) ∧
    rowPts.samplePoints (some (Iv.closed 1 6)) (some 2) none 8 = some (.error .exception) ∧
    rowPts.samplePoints (some (Iv.openClosed 0 1)) (some 2) none 8 = some (.error .index) ∧
    rowPts.samplePoints (some (Iv.closed 0 1)) (some 2) none 8 = some (.ok [(0, some 0), (1, some 2)]) :=
  ⟨by decide +kernel, by decide +kernel, by decide +kernel, by decide +kernel, by decide +kernel⟩

/-- The window of the period `2` before `4` is sampled at `2` and `4`; so `4` counts twice. -/
example : windowBefore rowPts none (some 2) 2 4 = .ok [some 8, some 4] ∧ windowBefore rowPts none (some 2) 1 4 = .ok [some 6, some 4] ∧
    windowBefore rowPts none (some (5/2)) 2 4 = .ok [some 8, some 3] :=
  ⟨by decide +kernel, by decide +kernel, by decide +kernel⟩

end Props
end Curvepy
