import Verif.Model.RoundedPoints
import Verif.Lemmas.Rounding
import Verif.Lemmas.PointsIndex
import Verif.Props.Float

/-!
# Values of points with rounded arithmetic

`C146`: the values of points at any distances when every operation rounds.
-/

namespace Curvepy
namespace Props
open Spec Pts

/-! ## Without rounding -/

theorem xIndexR_id (s : Pts ℚ) (x : ℚ) : s.xIndexR id x = s.xIndex x := by
  unfold xIndexR xIndex
  simp only [id]
  by_cases hu : s.isUniform = true
  · simp only [hu, if_true]
    cases s.interval with
    | none => rfl
    | some d => cases s.points <;> rfl
  · simp only [hu]
    by_cases h0 : bisect s.points x = 0
    · simp [h0]
    · by_cases h1 : s.points.length ≤ bisect s.points x
      · simp [h0, h1]
      · simp only [h0, h1, if_false, Bool.false_eq_true]
        cases s.points[bisect s.points x - 1]? with
        | none => rfl
        | some p => cases s.points[bisect s.points x]? <;> rfl

/-- The rounded functions are those of `Model/Points` when nothing is rounded. -/
theorem yR_id (s : Pts ℚ) (x : ℚ) : s.yR id x = s.y (.fin x) := by
  unfold yR Pts.y
  rw [xIndexR_id]
  by_cases h : s.domVal.contains (.fin x) = true
  · simp only [h, Bool.not_true, Bool.false_eq_true, if_false]
    cases s.xIndex x with
    | error e => rfl
    | ok i =>
      simp only [bind, Except.bind]
      by_cases hm : pyMod1 i = 0
      · simp only [hm, if_true]
      · simp only [hm, if_false]
        cases s.interp with
        | linear =>
          cases pyGet s.points (pyInt i) with
          | error e => rfl
          | ok p =>
            cases pyGet s.points (pyInt i + 1) with
            | error e => rfl
            | ok q =>
              rcases p with ⟨px, _ | py⟩ <;> rcases q with ⟨qx, _ | qy⟩ <;> rfl
        | previous => rfl
        | next => rfl
  · simp [h]

theorem xNextR_id (s : Pts ℚ) (x : ℚ) (m : Option ℚ) :
    (s.xNextR id x m).map (Option.map Ext.fin) = s.xNext (.fin x) m := by
  unfold xNextR Pts.xNext
  by_cases h : s.domVal.isEmpty = true
  · simp [h, Except.map]
  · simp only [h]
    cases resolveMinStep s.minStep m with
    | none => rfl
    | some m =>
      simp only [id, xIndexR_id, Ext.addQ]
      by_cases hc : s.domVal.contains (.fin (x + m)) false = true
      · simp only [hc, Bool.not_true, Bool.false_eq_true, if_false]
        cases hx : s.xIndex (x + m) with
        | error e => rfl
        | ok i =>
          cases hg : pyGet s.points (max 0 ⌈i⌉) with
          | error e => simp [bind, Except.bind, hg, Except.map]
          | ok p => simp [bind, Except.bind, hg, Except.map, pure, Except.pure]
      · simp [hc, Except.map]

theorem xPreviousR_id (s : Pts ℚ) (x : ℚ) (m : Option ℚ) :
    (s.xPreviousR id x m).map (Option.map Ext.fin) = s.xPrevious (.fin x) m := by
  unfold xPreviousR Pts.xPrevious
  by_cases h : s.domVal.isEmpty = true
  · simp [h, Except.map]
  · simp only [h]
    cases resolveMinStep s.minStep m with
    | none => rfl
    | some m =>
      simp only [id, xIndexR_id, Ext.addQ, ← sub_eq_add_neg]
      by_cases hc : s.domVal.contains (.fin (x - m)) true false = true
      · simp only [hc, Bool.not_true, Bool.false_eq_true, if_false]
        cases hx : s.xIndex (x - m) with
        | error e => rfl
        | ok i =>
          cases hg : pyGet s.points (min ((s.points.length : ℤ) - 1) ⌊i⌋) with
          | error e => simp [bind, Except.bind, hg, Except.map]
          | ok p => simp [bind, Except.bind, hg, Except.map, pure, Except.pure]
      · simp [hc, Except.map]

theorem intervalR_id (pts : List (Pt ℚ)) : intervalR id pts = intervalOf pts := by
  match pts with
  | [] => rfl
  | [_] => rfl
  | p :: q :: ps => rfl

theorem equallySpacedR_id (d : Option ℚ) (old new : List (Pt ℚ)) :
    equallySpacedR id d old new = pointsEquallySpaced d old new := by
  unfold equallySpacedR pointsEquallySpaced
  simp only [id]
  cases d <;> rfl

/-! ## The index -/

variable {fl : ℚ → ℚ} {u : ℚ}

theorem xIndexR_gap (R : Rounding fl u) {s : Pts ℚ} (hu : s.isUniform = false) (asc : Ascending s.points)
    (hm : ∀ i : ℕ, i < s.points.length → Machine fl i) {k : ℕ} {p q : Pt ℚ} {x : ℚ}
    (hp : s.points[k]? = some p) (hq : s.points[k + 1]? = some q) (hpx : p.1 < x) (hxq : x ≤ q.1) :
    s.xIndexR fl x = .ok (fl ((k : ℚ) + fl (fl (x - p.1) / fl (q.1 - p.1)))) := by
  have hlen : k + 1 < s.points.length := (List.getElem?_eq_some_iff.1 hq).1
  have ⟨hb1, hb2⟩ := bisect_spec s.points x asc
  have h1 : k < bisect s.points x := (hb2 k p hp).2 hpx
  have h2 : ¬ k + 1 < bisect s.points x := fun h => by
    have := (hb2 (k + 1) q hq).1 h; linarith
  have hb : bisect s.points x = k + 1 := by omega
  unfold xIndexR
  simp only [hu, hb, Bool.false_eq_true, if_false, Nat.add_sub_cancel]
  rw [if_neg (by omega), if_neg (by omega), hp, hq]
  have hne : fl (q.1 - p.1) ≠ 0 := (R.pos (by linarith)).ne'
  simp only [hne, if_false]
  rw [hm k (by omega)]

theorem xIndexR_first {s : Pts ℚ} (hu : s.isUniform = false) (asc : Ascending s.points) {p : Pt ℚ} {x : ℚ}
    (hp : s.points[0]? = some p) (hx : x ≤ p.1) : s.xIndexR fl x = .ok 0 := by
  have ⟨hb1, hb2⟩ := bisect_spec s.points x asc
  have hb : bisect s.points x = 0 := by
    by_contra h
    have := (hb2 0 p hp).1 (by omega)
    linarith
  unfold xIndexR
  simp [hu, hb]

/-- The index of a point is its place in the list. -/
theorem xIndexR_knot (R : Rounding fl u) {s : Pts ℚ} (hu : s.isUniform = false) (asc : Ascending s.points)
    (hm : ∀ i : ℕ, i < s.points.length → Machine fl i) {k : ℕ} {p : Pt ℚ} (hp : s.points[k]? = some p) :
    s.xIndexR fl p.1 = .ok (k : ℚ) := by
  cases k with
  | zero => simpa using xIndexR_first hu asc hp le_rfl
  | succ k =>
    have hlen : k + 1 < s.points.length := (List.getElem?_eq_some_iff.1 hp).1
    have h0 : s.points[k]? = some s.points[k] := List.getElem?_eq_getElem (by omega)
    have hlt := asc.lt h0 hp (by omega)
    rw [xIndexR_gap R hu asc hm h0 hp hlt le_rfl, div_self (R.pos (by linarith)).ne', R.one]
    have := hm (k + 1) hlen
    push_cast at this
    rw [this]
    push_cast
    rfl

/-! ## Values -/

theorem yR_out (s : Pts ℚ) (x : ℚ) (h : s.domVal.contains (.fin x) = false) : s.yR fl x = .ok none := by
  unfold yR
  simp [h]

theorem yR_whole {s : Pts ℚ} {x : ℚ} (h : s.domVal.contains (.fin x) = true) {k : ℕ} (hi : s.xIndexR fl x = .ok (k : ℚ))
    {p : Pt ℚ} (hp : s.points[k]? = some p) : s.yR fl x = .ok p.2 := by
  unfold yR
  have e1 : pyMod1 (k : ℚ) = 0 := by simp [pyMod1]
  have e2 : pyInt (k : ℚ) = k := by simp [pyInt]
  simp only [h, hi, Bool.not_true, Bool.false_eq_true, if_false, bind, Except.bind, e1, e2, if_true, pyGet_nat hp, pure,
    Except.pure]

/-- What is read between two points whose index is a fraction. -/
def betweenR (fl : ℚ → ℚ) (mode : Interp) (t : ℚ) (p q : Pt ℚ) : Option ℚ :=
  match mode with
  | .previous => p.2
  | .next => q.2
  | .linear =>
    match p.2, q.2 with
    | some a, some b => some (lerpR fl t a b)
    | _, _ => none

theorem yR_part {s : Pts ℚ} {x : ℚ} (h : s.domVal.contains (.fin x) = true) {k : ℕ} {t : ℚ} (t0 : 0 < t) (t1 : t < 1)
    (hi : s.xIndexR fl x = .ok ((k : ℚ) + t)) {p q : Pt ℚ} (hp : s.points[k]? = some p)
    (hq : s.points[k + 1]? = some q) : s.yR fl x = .ok (betweenR fl s.interp t p q) := by
  unfold yR
  have hq' : pyGet s.points ((k : ℤ) + 1) = .ok q := by
    have := pyGet_nat hq; push_cast at this; exact this
  simp only [h, hi, Bool.not_true, Bool.false_eq_true, if_false, bind, Except.bind, pyMod1_nat_add t0.le t1,
    pyInt_nat_add t0.le t1, t0.ne', pyGet_nat hp, hq', pure, Except.pure]
  cases s.interp with
  | linear => rcases p with ⟨px, _ | py⟩ <;> rcases q with ⟨qx, _ | qy⟩ <;> simp [betweenR]
  | previous => simp [betweenR]
  | next => simp [betweenR]

/-- **At its points** a list gives back the values exactly, whatever the interpolation. -/
theorem C146_knot (R : Rounding fl u) {s : Pts ℚ} (hu : s.isUniform = false) (asc : Ascending s.points)
    (hd : s.domVal = span s.points) (hm : ∀ i : ℕ, i < s.points.length → Machine fl i) {p : Pt ℚ} (hp : p ∈ s.points) :
    s.yR fl p.1 = .ok p.2 := by
  obtain ⟨k, hk, rfl⟩ := List.mem_iff_getElem.1 hp
  have hk' : s.points[k]? = some s.points[k] := List.getElem?_eq_getElem hk
  refine yR_whole ?_ (xIndexR_knot R hu asc hm hk') hk'
  rw [hd, ← getDomain_eq_span]
  exact contains_of_idx asc hk' hk' le_rfl le_rfl

/-- What is read at `x` between the points `p` and `q`, when the index found is `k + t`. -/
structure ReadAt (fl : ℚ → ℚ) (s : Pts ℚ) (k : ℕ) (p q : Pt ℚ) (x t : ℚ) : Prop where
  nonneg : 0 ≤ t
  le_one : t ≤ 1
  idx : s.xIndexR fl x = .ok ((k : ℚ) + t)
  first : t = 0 → s.yR fl x = .ok p.2
  second : t = 1 → s.yR fl x = .ok q.2
  part : 0 < t → t < 1 → s.yR fl x = .ok (betweenR fl s.interp t p q)

theorem readAt {s : Pts ℚ} (asc : Ascending s.points) (hd : s.domVal = span s.points) {k : ℕ} {p q : Pt ℚ} {x r : ℚ}
    (hp : s.points[k]? = some p) (hq : s.points[k + 1]? = some q) (hpx : p.1 ≤ x) (hxq : x ≤ q.1)
    (hi : s.xIndexR fl x = .ok r) (h0 : (k : ℚ) ≤ r) (h1 : r ≤ (k : ℚ) + 1) : ReadAt fl s k p q x (r - k) := by
  have hc : s.domVal.contains (.fin x) = true := by
    rw [hd, ← getDomain_eq_span]
    exact contains_of_idx asc hp hq hpx hxq
  refine ⟨by linarith, by linarith, by rw [hi]; congr 1; ring, fun h => ?_, fun h => ?_, fun h0 h1 => ?_⟩
  · have : r = (k : ℚ) := by linarith
    rw [this] at hi
    exact yR_whole hc hi hp
  · have : r = ((k + 1 : ℕ) : ℚ) := by push_cast; linarith
    rw [this] at hi
    exact yR_whole hc hi hq
  · have : r = (k : ℚ) + (r - k) := by ring
    rw [this] at hi
    exact yR_part hc h0 h1 hi hp hq

theorem ReadAt.linear (R : Rounding fl u) {s : Pts ℚ} (hl : s.interp = .linear) {k : ℕ} {p q : Pt ℚ} {x t a b M e : ℚ}
    (h : ReadAt fl s k p q x t) (te : |t - (x - p.1) / (q.1 - p.1)| ≤ e) (ha : p.2 = some a) (hb : q.2 = some b)
    (haM : |a| ≤ M) (hbM : |b| ≤ M) :
    ∃ v, s.yR fl x = .ok (some v) ∧ |v - (a + (x - p.1) / (q.1 - p.1) * (b - a))| ≤ 4 * u * M + e * |b - a| := by
  set w := (x - p.1) / (q.1 - p.1) with hw
  have hM : 0 ≤ M := le_trans (abs_nonneg _) haM
  have hu0 := R.nonneg
  have h4 : 0 ≤ 4 * u * M := by positivity
  have t0 := h.nonneg
  have t1 := h.le_one
  have key : |((1 - t) * a + t * b) - (a + w * (b - a))| ≤ e * |b - a| := by
    have : ((1 - t) * a + t * b) - (a + w * (b - a)) = (t - w) * (b - a) := by ring
    rw [this, abs_mul]
    gcongr
  rcases eq_or_lt_of_le t0 with e' | e'
  · refine ⟨a, by rw [h.first e'.symm, ha], ?_⟩
    rw [← e'] at key
    simp only [sub_zero, one_mul, zero_mul, add_zero] at key
    linarith
  rcases eq_or_lt_of_le t1 with e'' | e''
  · refine ⟨b, by rw [h.second e'', hb], ?_⟩
    rw [e''] at key
    simp only [sub_self, one_mul, zero_mul, zero_add] at key
    linarith
  refine ⟨lerpR fl t a b, by rw [h.part e' e'', hl]; simp [betweenR, ha, hb], ?_⟩
  have hl := R.lerp t0 t1 haM hbM
  have := abs_add_le (fl (fl (fl (1 - t) * a) + fl (t * b)) - ((1 - t) * a + t * b))
    (((1 - t) * a + t * b) - (a + w * (b - a)))
  rw [sub_add_sub_cancel] at this
  unfold lerpR
  linarith

theorem ReadAt.step {s : Pts ℚ} (asc : Ascending s.points) (hl : s.interp ≠ .linear) {k : ℕ} {p q : Pt ℚ} {x t e : ℚ}
    (hp : s.points[k]? = some p) (hq : s.points[k + 1]? = some q) (h : ReadAt fl s k p q x t) (he : 0 ≤ e)
    (te : |t - (x - p.1) / (q.1 - p.1)| ≤ e) (h0 : e * (q.1 - p.1) < x - p.1) (h1 : e * (q.1 - p.1) < q.1 - x) :
    s.yR fl x = .ok (valueAt s.interp s.points x) := by
  have hpq := asc.lt hp hq (by omega)
  have hg : 0 < q.1 - p.1 := by linarith
  have hn : 0 ≤ e * (q.1 - p.1) := by positivity
  rw [valueAt_gap _ asc hp hq (by linarith) (by linarith)]
  rw [abs_le] at te
  have e0 : e < (x - p.1) / (q.1 - p.1) := (lt_div_iff₀ hg).2 h0
  have e1 : (x - p.1) / (q.1 - p.1) < 1 - e := by
    rw [div_lt_iff₀ hg]
    linarith
  rw [h.part (by linarith) (by linarith)]
  cases hi : s.interp with
  | linear => exact absurd hi hl
  | previous => rfl
  | next => rfl

theorem ReadAt.either {s : Pts ℚ} (hl : s.interp ≠ .linear) {k : ℕ} {p q : Pt ℚ} {x t : ℚ}
    (h : ReadAt fl s k p q x t) : s.yR fl x = .ok p.2 ∨ s.yR fl x = .ok q.2 := by
  rcases eq_or_lt_of_le h.nonneg with e | e
  · exact .inl (h.first e.symm)
  rcases eq_or_lt_of_le h.le_one with e' | e'
  · exact .inr (h.second e')
  rw [h.part e e']
  cases hi : s.interp with
  | linear => exact absurd hi hl
  | previous => exact .inl rfl
  | next => exact .inr rfl

/-- Between two points the place `t` found is off by at most `(k + 6) u`, where `k` is the index of the first one. -/
theorem readAt_gap (R : Rounding fl u) {s : Pts ℚ} (hu : s.isUniform = false) (asc : Ascending s.points)
    (hd : s.domVal = span s.points) (hm : ∀ i : ℕ, i < s.points.length → Machine fl i) {k : ℕ} {p q : Pt ℚ} {x : ℚ}
    (hp : s.points[k]? = some p) (hq : s.points[k + 1]? = some q) (hpx : p.1 < x) (hxq : x ≤ q.1) :
    ∃ t, ReadAt fl s k p q x t ∧ |t - (x - p.1) / (q.1 - p.1)| ≤ ((k : ℚ) + 6) * u := by
  have hlen : k + 1 < s.points.length := (List.getElem?_eq_some_iff.1 hq).1
  have m1 := hm (k + 1) hlen
  push_cast at m1
  obtain ⟨i0, i1, i2⟩ := R.index (a := x - p.1) (d := q.1 - p.1) (by positivity : (0 : ℚ) ≤ (k : ℚ)) (hm k (by omega)) m1
    (by linarith) (by linarith) (by linarith)
  have hi := xIndexR_gap R hu asc hm hp hq hpx hxq
  exact ⟨_, readAt asc hd hp hq hpx.le hxq hi i0 i1, i2⟩

/-- **Linear interpolation** is off by little: the last digits of the values, and the place between the points, which is
the less exact the further back in the list the points are. -/
theorem C146_linear (R : Rounding fl u) {s : Pts ℚ} (hu : s.isUniform = false) (asc : Ascending s.points)
    (hd : s.domVal = span s.points) (hm : ∀ i : ℕ, i < s.points.length → Machine fl i) (hl : s.interp = .linear) {k : ℕ}
    {p q : Pt ℚ} {x a b M : ℚ} (hp : s.points[k]? = some p) (hq : s.points[k + 1]? = some q) (hpx : p.1 < x)
    (hxq : x < q.1) (ha : p.2 = some a) (hb : q.2 = some b) (haM : |a| ≤ M) (hbM : |b| ≤ M) :
    ∃ v, s.yR fl x = .ok (some v)
      ∧ |v - (a + (x - p.1) / (q.1 - p.1) * (b - a))| ≤ 4 * u * M + ((k : ℚ) + 6) * u * |b - a| := by
  obtain ⟨t, h, te⟩ := readAt_gap R hu asc hd hm hp hq hpx hxq.le
  exact h.linear R hl te ha hb haM hbM

/-- **All values** of a list of `n` points with values up to `M` are within `(2 n + 12) u M` of those without rounding, and
there is a value exactly where there is one without rounding. -/
theorem C146_close (R : Rounding fl u) {s : Pts ℚ} (hu : s.isUniform = false) (asc : Ascending s.points)
    (hd : s.domVal = span s.points) (hm : ∀ i : ℕ, i < s.points.length → Machine fl i) (hl : s.interp = .linear) {M : ℚ}
    (hv : ∀ p ∈ s.points, ∃ y, p.2 = some y ∧ |y| ≤ M) (x : ℚ) :
    (s.yR fl x = .ok none ∧ valueAt .linear s.points x = none)
      ∨ ∃ v w, s.yR fl x = .ok (some v) ∧ valueAt .linear s.points x = some w
        ∧ |v - w| ≤ (2 * (s.points.length : ℚ) + 12) * u * M := by
  have hu0 := R.nonneg
  cases locate s.points asc x with
  | before hb =>
    refine .inl ⟨yR_out s x ?_, valueAt_before _ hb⟩
    rw [hd, ← getDomain_eq_span]
    exact not_contains_before hb
  | after ha =>
    refine .inl ⟨yR_out s x ?_, valueAt_after _ ha⟩
    rw [hd, ← getDomain_eq_span]
    exact not_contains_after ha
  | knot k p hk hx =>
    have hp : p ∈ s.points := List.mem_of_getElem? hk
    obtain ⟨y, hy, hM⟩ := hv p hp
    have hM0 : 0 ≤ M := le_trans (abs_nonneg _) hM
    refine .inr ⟨y, y, ?_, ?_, ?_⟩
    · rw [hx, C146_knot R hu asc hd hm hp, hy]
    · rw [hx, valueAt_knot _ asc hk, hy]
    · rw [sub_self, abs_zero]
      positivity
  | gap k p q hp hq hpx hxq =>
    obtain ⟨a, ha, haM⟩ := hv p (List.mem_of_getElem? hp)
    obtain ⟨b, hb, hbM⟩ := hv q (List.mem_of_getElem? hq)
    have hM0 : 0 ≤ M := le_trans (abs_nonneg _) haM
    obtain ⟨v, e, h⟩ := C146_linear R hu asc hd hm hl hp hq hpx hxq ha hb haM hbM
    refine .inr ⟨v, (1 - (x - p.1) / (q.1 - p.1)) * a + (x - p.1) / (q.1 - p.1) * b, e, ?_, ?_⟩
    · rw [valueAt_gap _ asc hp hq hpx hxq]
      rcases p with ⟨px, py⟩
      rcases q with ⟨qx, qy⟩
      simp only at ha hb
      subst ha hb
      rfl
    · have hlen : k + 1 < s.points.length := (List.getElem?_eq_some_iff.1 hq).1
      have hk : (k : ℚ) + 2 ≤ (s.points.length : ℚ) := by exact_mod_cast hlen
      have hba : |b - a| ≤ 2 * M := by
        have := abs_sub b a
        linarith
      have e1 : ((k : ℚ) + 6) * u * |b - a| ≤ ((s.points.length : ℚ) + 4) * u * (2 * M) := by
        gcongr ?_ * u * ?_
        · linarith
      have e2 : (1 - (x - p.1) / (q.1 - p.1)) * a + (x - p.1) / (q.1 - p.1) * b
        = a + (x - p.1) / (q.1 - p.1) * (b - a) := by ring
      rw [e2]
      have e3 : 4 * u * M + ((s.points.length : ℚ) + 4) * u * (2 * M) = (2 * (s.points.length : ℚ) + 12) * u * M := by
        ring
      linarith

/-- **Steps** (`previous` and `next`) are read as without rounding, unless the position is within `(k + 6) u` of the
distance to one of the neighbours. -/
theorem C146_step (R : Rounding fl u) {s : Pts ℚ} (hu : s.isUniform = false) (asc : Ascending s.points)
    (hd : s.domVal = span s.points) (hm : ∀ i : ℕ, i < s.points.length → Machine fl i) (hl : s.interp ≠ .linear) {k : ℕ}
    {p q : Pt ℚ} {x : ℚ} (hp : s.points[k]? = some p) (hq : s.points[k + 1]? = some q)
    (h0 : ((k : ℚ) + 6) * u * (q.1 - p.1) < x - p.1) (h1 : ((k : ℚ) + 6) * u * (q.1 - p.1) < q.1 - x) :
    s.yR fl x = .ok (valueAt s.interp s.points x) := by
  have hpq := asc.lt hp hq (by omega)
  have hg : 0 < q.1 - p.1 := by linarith
  have hu0 := R.nonneg
  have hn : 0 ≤ ((k : ℚ) + 6) * u * (q.1 - p.1) := by positivity
  obtain ⟨t, h, te⟩ := readAt_gap R hu asc hd hm hp hq (by linarith) (by linarith : x ≤ q.1)
  exact h.step asc hl hp hq (by positivity) te h0 h1

/-- Even within that distance the value is that of one of the two points. -/
theorem C146_either (R : Rounding fl u) {s : Pts ℚ} (hu : s.isUniform = false) (asc : Ascending s.points)
    (hd : s.domVal = span s.points) (hm : ∀ i : ℕ, i < s.points.length → Machine fl i) (hl : s.interp ≠ .linear) {k : ℕ}
    {p q : Pt ℚ} {x : ℚ} (hp : s.points[k]? = some p) (hq : s.points[k + 1]? = some q) (hpx : p.1 < x) (hxq : x < q.1) :
    s.yR fl x = .ok p.2 ∨ s.yR fl x = .ok q.2 := by
  obtain ⟨t, h, te⟩ := readAt_gap R hu asc hd hm hp hq hpx hxq.le
  exact h.either hl

/-! ## Examples -/

/-- A list that is not equally spaced. -/
def oddSpaced (i : Interp) (pts : List (Pt ℚ)) : Pts ℚ :=
  { interp := i, force := false, equal := false, interval := intervalR fl64 pts, points := pts, minStep := none,
    cache := none, bIv := Iv.empty, eIv := Iv.empty }

theorem small_machine {n : ℕ} (h : n ≤ 1000) : Machine fl64 (n : ℚ) := by
  have : |((n : ℤ) : ℤ)| ≤ 2 ^ 53 := by
    rw [abs_of_nonneg (by positivity)]
    have : (n : ℤ) ≤ 1000 := by exact_mod_cast h
    omega
  have := fl64_int this
  simpa using this

/-- The hypotheses hold for a list with different distances; its values are off by less than `10⁻¹⁴`. -/
example (x : ℚ) :
    (oddSpaced .linear [(0, some 1), (1 / 2, some (-3)), (7, some 2)]).yR fl64 (1 / 2) = .ok (some (-3))
    ∧ (((oddSpaced .linear [(0, some 1), (1 / 2, some (-3)), (7, some 2)]).yR fl64 x = .ok none
        ∧ valueAt .linear [(0, some 1), (1 / 2, some (-3 : ℚ)), (7, some 2)] x = none)
      ∨ ∃ v w, (oddSpaced .linear [(0, some 1), (1 / 2, some (-3)), (7, some 2)]).yR fl64 x = .ok (some v)
        ∧ valueAt .linear [(0, some 1), (1 / 2, some (-3)), (7, some 2)] x = some w ∧ |v - w| ≤ 1 / 10 ^ 14) := by
  have hu : (oddSpaced .linear [(0, some 1), (1 / 2, some (-3)), (7, some 2)]).isUniform = false := rfl
  have asc : Ascending (oddSpaced .linear [(0, some 1), (1 / 2, some (-3)), (7, some 2)]).points := by
    unfold oddSpaced Ascending
    norm_num
  have hm : ∀ i : ℕ, i < (oddSpaced .linear [(0, some 1), (1 / 2, some (-3)), (7, some 2)]).points.length →
      Machine fl64 i := fun i hi => small_machine (by simp [oddSpaced] at hi; omega)
  have hd : (oddSpaced .linear [(0, some 1), (1 / 2, some (-3)), (7, some 2)]).domVal
      = span (oddSpaced .linear [(0, some 1), (1 / 2, some (-3)), (7, some 2)]).points := by
    rw [← getDomain_eq_span]
    rfl
  refine ⟨C146_knot fl64_rounding hu asc hd hm (p := (1 / 2, some (-3))) (by simp [oddSpaced]), ?_⟩
  rcases C146_close fl64_rounding hu asc hd hm rfl (M := 3) (by norm_num [oddSpaced]) x with h | ⟨v, w, h1, h2, h3⟩
  · exact .inl h
  · refine .inr ⟨v, w, h1, h2, h3.trans ?_⟩
    simp [oddSpaced]
    norm_num

/-- **The value between two equal values is not theirs**: through `(0, 3)`, `(5, 3)` and `(7, 3)` the value at `1` is
above `3`.  Interpolated values can lie outside the values of the points. -/
theorem C146_negation :
    (do
      let s ← newR fl64 [(0, some 3), (5, some 3), (7, some 3)] .linear false
      s.yR fl64 1) = .ok (some (3 + 1 / 2 ^ 51)) := by
  decide +kernel

/-- **The value of a point can show before the point**: right before `0` the value of the point at `0` is read, with the
interpolation `previous`. -/
theorem C146_early :
    Machine fl64 (- 1 / 2 ^ 53) ∧
    (do
      let s ← newR fl64 [(-10, some 1), (-5, some 2), (-1, some 3), (0, some 4)] .previous false
      s.yR fl64 (- 1 / 2 ^ 53)) = .ok (some 4) := by
  refine ⟨?_, ?_⟩
  · show fl64 _ = _
    decide +kernel
  · decide +kernel

/-! ### An instance of each theorem -/

/-- Three points at odd distances. -/
def threeOdd (i : Interp) : Pts ℚ := oddSpaced i [(0, some 1), (1 / 2, some (-3)), (7, some 2)]

theorem threeOdd_asc (i : Interp) : Ascending (threeOdd i).points := by
  unfold threeOdd oddSpaced Ascending
  norm_num

theorem threeOdd_machine (i : Interp) : ∀ k : ℕ, k < (threeOdd i).points.length → Machine fl64 k :=
  fun k hk => small_machine (by simp [threeOdd, oddSpaced] at hk; omega)

theorem threeOdd_span (i : Interp) : (threeOdd i).domVal = span (threeOdd i).points := by
  rw [← getDomain_eq_span]
  rfl

-- `C146_linear`, between the second point and the third
example : ∃ v, (threeOdd .linear).yR fl64 3 = .ok (some v) ∧ |v - (-3 + (3 - 1 / 2) / (7 - 1 / 2) * (2 - -3))| ≤ 1 / 10 ^ 14 := by
  obtain ⟨v, h1, h2⟩ := C146_linear fl64_rounding (s := threeOdd .linear) rfl (threeOdd_asc _) (threeOdd_span _)
    (threeOdd_machine _) rfl (k := 1) (x := 3) (M := 3) rfl rfl (by norm_num) (by norm_num) rfl rfl (by norm_num) (by norm_num)
  exact ⟨v, h1, h2.trans (by norm_num)⟩

-- `C146_step`, away from the points
example : (threeOdd .previous).yR fl64 3 = .ok (valueAt .previous (threeOdd .previous).points 3)
    ∧ (threeOdd .previous).yR fl64 3 = .ok (some (-3)) :=
  ⟨C146_step fl64_rounding (s := threeOdd .previous) rfl (threeOdd_asc _) (threeOdd_span _) (threeOdd_machine _) (by decide)
    (k := 1) rfl rfl (by norm_num) (by norm_num), by decide +kernel⟩

-- `C146_either`, as near to a point as can be
example : (threeOdd .next).yR fl64 (7 - 1 / 2 ^ 50) = .ok (some (-3)) ∨ (threeOdd .next).yR fl64 (7 - 1 / 2 ^ 50) = .ok (some 2) :=
  C146_either fl64_rounding (s := threeOdd .next) rfl (threeOdd_asc _) (threeOdd_span _) (threeOdd_machine _) (by decide)
    (k := 1) rfl rfl (by norm_num) (by norm_num)

-- without rounding
example : (threeOdd .linear).yR id 3 = (threeOdd .linear).y (.fin 3)
    ∧ (threeOdd .linear).yR id 3 = .ok (some (-14 / 13))
    ∧ (threeOdd .linear).xIndexR id 3 = .ok (18 / 13)
    ∧ ((threeOdd .linear).xNextR id (1 / 2) (some 1)).map (Option.map Ext.fin) = (threeOdd .linear).xNext (.fin (1 / 2)) (some 1)
    ∧ (threeOdd .linear).xNextR id (1 / 2) (some 1) = .ok (some 7)
    ∧ ((threeOdd .linear).xPreviousR id 7 (some 1)).map (Option.map Ext.fin) = (threeOdd .linear).xPrevious (.fin 7) (some 1)
    ∧ (threeOdd .linear).xPreviousR id 7 (some 1) = .ok (some (1 / 2))
    ∧ intervalR id (threeOdd .linear).points = intervalOf (threeOdd .linear).points
    ∧ intervalR id (threeOdd .linear).points = some (7 / 2) := by
  refine ⟨yR_id _ _, by decide +kernel, by decide +kernel, xNextR_id _ _ _, by decide +kernel, xPreviousR_id _ _ _,
    by decide +kernel, intervalR_id _, by decide +kernel⟩

end Props
end Curvepy
