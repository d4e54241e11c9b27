import Verif.Props.RoundedPoints
import Verif.Lemmas.PointsEdit

/-!
# Equally spaced points with rounded arithmetic

`C147`: equally spaced points, as a new list takes them, when every operation rounds.
-/

namespace Curvepy
namespace Props
open Spec Pts

variable {fl : ℚ → ℚ} {u : ℚ}

theorem Grid_asc {pts : List (Pt ℚ)} {x0 h : ℚ} (g : Grid fl (pts.map Prod.fst) x0 h) : Ascending pts := by
  unfold Ascending
  rw [List.pairwise_iff_getElem]
  intro i j hi hj hij
  have a := g.at_ i pts[i].1 (by simp [hi])
  have b := g.at_ j pts[j].1 (by simp [hj])
  rw [a, b]
  have : (i : ℚ) < j := by exact_mod_cast hij
  have := mul_lt_mul_of_pos_right this g.pos
  linarith

theorem Grid_at {pts : List (Pt ℚ)} {x0 h : ℚ} (g : Grid fl (pts.map Prod.fst) x0 h) {k : ℕ} {p : Pt ℚ}
    (hp : pts[k]? = some p) : p.1 = x0 + k * h := g.at_ k p.1 (by simp [hp])

/-- **A new list** takes such points as equally spaced, and finds their distance exactly. -/
theorem C147_new (R : Rounding fl u) {pts : List (Pt ℚ)} {x0 h : ℚ} (g : Grid fl (pts.map Prod.fst) x0 h)
    (hl : 2 ≤ pts.length) (i : Interp) (force : Bool) :
    ∃ s, newR fl pts i force = .ok s ∧ s.isUniform = true ∧ s.interval = some h ∧ s.points = pts ∧ s.interp = i
      ∧ s.domVal = span pts ∧ s.minStep = none := by
  match pts, hl with
  | p :: q :: ps, _ =>
    have e0 := Grid_at g (k := 0) (p := p) rfl
    have e1 := Grid_at g (k := 1) (p := q) rfl
    have hlast : (p :: q :: ps)[ps.length + 1]? = some ((q :: ps).getLast (by simp)) := by
      rw [List.getLast_eq_getElem]
      simp
    have el := Grid_at g hlast
    push_cast at e0 e1 el
    have ml := g.position ((q :: ps).getLast (by simp)).1 (by
      have := List.mem_of_getElem? hlast
      exact List.mem_map.2 ⟨_, this, rfl⟩)
    have m1 : fl h = h := by
      have : fl _ = _ := g.multiple 1 (by simp)
      simpa using this
    have mn : fl (((ps.length : ℚ) + 1) * h) = ((ps.length : ℚ) + 1) * h := by
      have : fl _ = _ := g.multiple (ps.length + 1) (by simp)
      push_cast at this
      exact this
    have hn : ((ps.length : ℚ) + 1) ≠ 0 := by positivity
    have hint : intervalR fl (p :: q :: ps) = some h := by
      simp only [intervalR, List.length_cons]
      rw [el, e0]
      push_cast
      have a1 : x0 + ((ps.length : ℚ) + 1) * h - (x0 + 0 * h) = ((ps.length : ℚ) + 1) * h := by ring
      rw [a1, mn, mul_div_cancel_left₀ _ hn, m1]
    have heq : equallySpacedR fl none [] (p :: q :: ps) = .ok true := by
      have hg : pyGet (p :: q :: ps) (-1) = .ok ((q :: ps).getLast (by simp)) := by
        rw [pyGet_last (by simp)]
        simp
      have hg1 : pyGet (p :: q :: ps) 1 = .ok q := rfl
      unfold equallySpacedR
      rw [if_neg (by simp)]
      simp only [hg, hg1, pyGet_zero, bind, Except.bind, List.length_nil, ne_eq, not_true_eq_false, if_false, pure,
        Except.pure, List.length_cons]
      rw [if_neg (by decide)]
      simp only [Except.ok.injEq, decide_eq_true_eq]
      rw [el, e1, e0]
      push_cast
      have a1 : x0 + 1 * h - (x0 + 0 * h) = h := by ring
      have a2 : h * ((ps.length : ℚ) + 1 + 1 - 1) = ((ps.length : ℚ) + 1) * h := by ring
      have a3 : x0 + 0 * h + ((ps.length : ℚ) + 1) * h = x0 + ((ps.length : ℚ) + 1) * h := by ring
      rw [a1, m1, a2, mn, a3]
      rw [el] at ml
      exact ml.symm
    have hnew : newR fl (p :: q :: ps) i force
        = .ok { interp := i, force := force, equal := true, interval := some h, points := p :: q :: ps, minStep := none,
                cache := none, bIv := Iv.empty, eIv := Iv.empty } := by
      unfold newR
      rw [heq, hint]
      simp only [bind, Except.bind, Bool.not_true, Bool.and_false, Bool.false_eq_true, if_false, pure, Except.pure]
    refine ⟨_, hnew, ?_, rfl, rfl, rfl, ?_, rfl⟩
    · simp [isUniform]
    · rw [← getDomain_eq_span]
      rfl

theorem xIndexR_grid (R : Rounding fl u) {s : Pts ℚ} (hu : s.isUniform = true) {x0 h : ℚ}
    (g : Grid fl (s.points.map Prod.fst) x0 h) (hi : s.interval = some h) {k : ℕ} {p q : Pt ℚ} {x : ℚ}
    (hp : s.points[k]? = some p) (hq : s.points[k + 1]? = some q) (hpx : p.1 ≤ x) (hxq : x ≤ q.1) :
    ∃ r, s.xIndexR fl x = .ok r ∧ (k : ℚ) ≤ r ∧ r ≤ (k : ℚ) + 1
      ∧ |r - k - (x - p.1) / (q.1 - p.1)| ≤ 3 * ((k : ℚ) + 1) * u := by
  have hlen : k + 1 < s.points.length := (List.getElem?_eq_some_iff.1 hq).1
  have ep := Grid_at g hp
  have eq := Grid_at g hq
  push_cast at eq
  match hpts : s.points, hlen with
  | p0 :: ps, _ =>
    have e0 := Grid_at g (k := 0) (p := p0) (by rw [hpts]; rfl)
    push_cast at e0
    have h0 : p0.1 = x0 := by rw [e0]; ring
    have hh := g.pos
    refine ⟨fl (fl (x - x0) / h), ?_, ?_, ?_, ?_⟩
    · unfold xIndexR
      simp only [hu, if_true, hi, hpts, hh.ne', if_false, h0]
    · have := R.ge_of (g.multiple k (by simp; omega)) (by linarith : (k : ℚ) * h ≤ x - x0)
      exact R.ge_of (g.index k (by simp; omega)) ((le_div_iff₀ hh).2 this)
    · have m1 := g.multiple (k + 1) (by simp; omega)
      have m2 := g.index (k + 1) (by simp; omega)
      push_cast at m1 m2
      have := R.le_of m1 (by linarith : x - x0 ≤ ((k : ℚ) + 1) * h)
      exact R.le_of m2 ((div_le_iff₀ hh).2 this)
    · have hk : (0 : ℚ) ≤ (k : ℚ) * h := by positivity
      have a0 : 0 ≤ x - x0 := by linarith
      have hu0 := R.nonneg
      have hs := R.small
      have b0 : 0 ≤ (x - x0) / h := div_nonneg a0 hh.le
      have b1 : (x - x0) / h ≤ (k : ℚ) + 1 := by
        rw [div_le_iff₀ hh]
        linarith
      have c1 : |fl (x - x0) / h - (x - x0) / h| ≤ u * ((x - x0) / h) := by
        rw [← sub_div, abs_div, abs_of_pos hh, ← mul_div_assoc]
        have := R.err (x - x0)
        rw [abs_of_nonneg a0] at this
        gcongr
      have c2 := R.product c1
      rw [abs_of_nonneg b0] at c2
      have c3 : (x - x0) / h = k + (x - p.1) / (q.1 - p.1) := by
        have : q.1 - p.1 = h := by rw [eq, ep]; ring
        rw [this, ep]
        field_simp
        ring
      rw [c3] at c2
      have c4 : fl (fl (x - x0) / h) - k - (x - p.1) / (q.1 - p.1)
          = fl (fl (x - x0) / h) - (k + (x - p.1) / (q.1 - p.1)) := by ring
      rw [c4]
      rw [c3] at b0 b1
      set w := (k : ℚ) + (x - p.1) / (q.1 - p.1) with hw
      have d1 : u * (u * w) ≤ 1 / 64 * (u * w) := mul_le_mul_of_nonneg_right hs (mul_nonneg hu0 b0)
      have d2 : u * w ≤ u * ((k : ℚ) + 1) := mul_le_mul_of_nonneg_left b1 hu0
      have d3 : 0 ≤ u * w := mul_nonneg hu0 b0
      nlinarith

theorem readAt_grid (R : Rounding fl u) {s : Pts ℚ} (hu : s.isUniform = true) {x0 h : ℚ}
    (g : Grid fl (s.points.map Prod.fst) x0 h) (hi : s.interval = some h) (hd : s.domVal = span s.points) {k : ℕ}
    {p q : Pt ℚ} {x : ℚ} (hp : s.points[k]? = some p) (hq : s.points[k + 1]? = some q) (hpx : p.1 ≤ x) (hxq : x ≤ q.1) :
    ∃ t, ReadAt fl s k p q x t ∧ |t - (x - p.1) / (q.1 - p.1)| ≤ 3 * ((k : ℚ) + 1) * u := by
  obtain ⟨r, h1, h2, h3, h4⟩ := xIndexR_grid R hu g hi hp hq hpx hxq
  exact ⟨_, readAt (Grid_asc g) hd hp hq hpx hxq h1 h2 h3, h4⟩

theorem xIndexR_grid_knot (R : Rounding fl u) {s : Pts ℚ} (hu : s.isUniform = true) {x0 h : ℚ}
    (g : Grid fl (s.points.map Prod.fst) x0 h) (hi : s.interval = some h) {k : ℕ} {p : Pt ℚ}
    (hp : s.points[k]? = some p) : s.xIndexR fl p.1 = .ok (k : ℚ) := by
  have hlen : k < s.points.length := (List.getElem?_eq_some_iff.1 hp).1
  match hpts : s.points, hlen with
  | p0 :: ps, _ =>
    have e0 := Grid_at g (k := 0) (p := p0) (by rw [hpts]; rfl)
    have ep := Grid_at g hp
    push_cast at e0
    have hh := g.pos
    unfold xIndexR
    simp only [hu, if_true, hi, hpts, hh.ne', if_false]
    have : p.1 - p0.1 = k * h := by rw [ep, e0]; ring
    have m1 : fl _ = _ := g.multiple k (by simp; omega)
    have m2 : fl _ = _ := g.index k (by simp; omega)
    rw [this, m1, mul_div_cancel_right₀ _ hh.ne', m2]

/-- **At its points** an equally spaced list gives back the values exactly. -/
theorem C147_knot (R : Rounding fl u) {s : Pts ℚ} (hu : s.isUniform = true) {x0 h : ℚ}
    (g : Grid fl (s.points.map Prod.fst) x0 h) (hi : s.interval = some h) (hd : s.domVal = span s.points) {p : Pt ℚ}
    (hp : p ∈ s.points) : s.yR fl p.1 = .ok p.2 := by
  obtain ⟨k, hk, rfl⟩ := List.mem_iff_getElem.1 hp
  have hk' : s.points[k]? = some s.points[k] := List.getElem?_eq_getElem hk
  refine yR_whole ?_ (xIndexR_grid_knot R hu g hi hk') hk'
  rw [hd, ← getDomain_eq_span]
  exact contains_of_idx (Grid_asc g) hk' hk' le_rfl le_rfl

/-- **Linear interpolation** between equally spaced points is off by little. -/
theorem C147_linear (R : Rounding fl u) {s : Pts ℚ} (hu : s.isUniform = true) {x0 h : ℚ}
    (g : Grid fl (s.points.map Prod.fst) x0 h) (hi : s.interval = some h) (hd : s.domVal = span s.points)
    (hl : s.interp = .linear) {k : ℕ} {p q : Pt ℚ} {x a b M : ℚ} (hp : s.points[k]? = some p)
    (hq : s.points[k + 1]? = some q) (hpx : p.1 ≤ x) (hxq : x ≤ q.1) (ha : p.2 = some a) (hb : q.2 = some b)
    (haM : |a| ≤ M) (hbM : |b| ≤ M) :
    ∃ v, s.yR fl x = .ok (some v)
      ∧ |v - (a + (x - p.1) / (q.1 - p.1) * (b - a))| ≤ 4 * u * M + 3 * ((k : ℚ) + 1) * u * |b - a| := by
  obtain ⟨t, h, te⟩ := readAt_grid R hu g hi hd hp hq hpx hxq
  exact h.linear R hl te ha hb haM hbM

/-- **All values** of `n` equally spaced points with values up to `M` are within `(6 n + 4) u M` of those without
rounding, and there is a value exactly where there is one without rounding. -/
theorem C147_close (R : Rounding fl u) {s : Pts ℚ} (hu : s.isUniform = true) {x0 h : ℚ}
    (g : Grid fl (s.points.map Prod.fst) x0 h) (hi : s.interval = some h) (hd : s.domVal = span s.points)
    (hl : s.interp = .linear) {M : ℚ} (hv : ∀ p ∈ s.points, ∃ y, p.2 = some y ∧ |y| ≤ M) (x : ℚ) :
    (s.yR fl x = .ok none ∧ valueAt .linear s.points x = none)
      ∨ ∃ v w, s.yR fl x = .ok (some v) ∧ valueAt .linear s.points x = some w
        ∧ |v - w| ≤ (6 * (s.points.length : ℚ) + 4) * u * M := by
  have hu0 := R.nonneg
  have asc := Grid_asc g
  cases locate s.points asc x with
  | before hb =>
    refine .inl ⟨yR_out s x ?_, valueAt_before _ hb⟩
    rw [hd, ← getDomain_eq_span]
    exact not_contains_before hb
  | after ha =>
    refine .inl ⟨yR_out s x ?_, valueAt_after _ ha⟩
    rw [hd, ← getDomain_eq_span]
    exact not_contains_after ha
  | knot k p hk hx =>
    have hp : p ∈ s.points := List.mem_of_getElem? hk
    obtain ⟨y, hy, hM⟩ := hv p hp
    have hM0 : 0 ≤ M := le_trans (abs_nonneg _) hM
    refine .inr ⟨y, y, ?_, ?_, ?_⟩
    · rw [hx, C147_knot R hu g hi hd hp, hy]
    · rw [hx, valueAt_knot _ asc hk, hy]
    · rw [sub_self, abs_zero]
      positivity
  | gap k p q hp hq hpx hxq =>
    obtain ⟨a, ha, haM⟩ := hv p (List.mem_of_getElem? hp)
    obtain ⟨b, hb, hbM⟩ := hv q (List.mem_of_getElem? hq)
    have hM0 : 0 ≤ M := le_trans (abs_nonneg _) haM
    obtain ⟨v, e, h⟩ := C147_linear R hu g hi hd hl hp hq hpx.le hxq.le ha hb haM hbM
    refine .inr ⟨v, (1 - (x - p.1) / (q.1 - p.1)) * a + (x - p.1) / (q.1 - p.1) * b, e, ?_, ?_⟩
    · rw [valueAt_gap _ asc hp hq hpx hxq]
      rcases p with ⟨px, py⟩
      rcases q with ⟨qx, qy⟩
      simp only at ha hb
      subst ha hb
      rfl
    · have hlen : k + 1 < s.points.length := (List.getElem?_eq_some_iff.1 hq).1
      have hk : (k : ℚ) + 1 ≤ (s.points.length : ℚ) := by exact_mod_cast hlen.le
      have hba : |b - a| ≤ 2 * M := by
        have := abs_sub b a
        linarith
      have e1 : 3 * ((k : ℚ) + 1) * u * |b - a| ≤ 3 * (s.points.length : ℚ) * u * (2 * M) := by
        gcongr
      have e2 : (1 - (x - p.1) / (q.1 - p.1)) * a + (x - p.1) / (q.1 - p.1) * b
        = a + (x - p.1) / (q.1 - p.1) * (b - a) := by ring
      rw [e2]
      have e3 : 4 * u * M + 3 * (s.points.length : ℚ) * u * (2 * M) = (6 * (s.points.length : ℚ) + 4) * u * M := by
        ring
      linarith

/-- **Steps** are read as without rounding, unless the position is within `3 (k + 1) u` of the distance to one of the
neighbours; and there the value is that of one of them. -/
theorem C147_step (R : Rounding fl u) {s : Pts ℚ} (hu : s.isUniform = true) {x0 h : ℚ}
    (g : Grid fl (s.points.map Prod.fst) x0 h) (hi : s.interval = some h) (hd : s.domVal = span s.points)
    (hl : s.interp ≠ .linear) {k : ℕ} {p q : Pt ℚ} {x : ℚ} (hp : s.points[k]? = some p)
    (hq : s.points[k + 1]? = some q) (hpx : p.1 ≤ x) (hxq : x ≤ q.1) :
    (s.yR fl x = .ok p.2 ∨ s.yR fl x = .ok q.2)
    ∧ (3 * ((k : ℚ) + 1) * u * (q.1 - p.1) < x - p.1 → 3 * ((k : ℚ) + 1) * u * (q.1 - p.1) < q.1 - x →
        s.yR fl x = .ok (valueAt s.interp s.points x)) := by
  obtain ⟨t, h, te⟩ := readAt_grid R hu g hi hd hp hq hpx hxq
  have hu0 := R.nonneg
  exact ⟨h.either hl, fun h0 h1 => h.step (Grid_asc g) hl hp hq (by positivity) te h0 h1⟩

/-! ## Examples -/

/-- Whole multiples of a power of two are such points: here quarters. -/
example : Grid fl64 (([(1 / 4, some 5), (1 / 2, none), (3 / 4, some 7)] : List (Pt ℚ)).map Prod.fst) (1 / 4) (1 / 4) := by
  refine ⟨by norm_num, ?_, ?_, ?_, ?_⟩
  · intro k x hx
    match k with
    | 0 => simp at hx; rw [← hx]; norm_num
    | 1 => simp at hx; rw [← hx]; norm_num
    | 2 => simp at hx; rw [← hx]; norm_num
    | k + 3 => simp at hx
  · intro x hx
    simp at hx
    rcases hx with rfl | rfl | rfl <;> (show fl64 _ = _) <;> decide +kernel
  · intro k hk
    match k, hk with
    | 0, _ => show fl64 _ = _; decide +kernel
    | 1, _ => show fl64 _ = _; decide +kernel
    | 2, _ => show fl64 _ = _; decide +kernel
    | k + 3, hk => simp at hk
  · intro k hk
    exact small_machine (by simp at hk; omega)

/-- Any whole positions in steps of a whole distance, up to `2 ^ 53`. -/
theorem C147_whole {pts : List (Pt ℚ)} {a d : ℤ} (hd : 0 < d)
    (hp : ∀ (k : ℕ) (p : Pt ℚ), pts[k]? = some p → p.1 = ((a + k * d : ℤ) : ℚ))
    (hmax : |a| + pts.length * d ≤ 2 ^ 53) : Grid fl64 (pts.map Prod.fst) a d := by
  have hn : (pts.length : ℤ) ≤ pts.length * d := by nlinarith
  have ha := abs_nonneg a
  have key : ∀ k : ℕ, k < pts.length → (k : ℤ) * d ≤ pts.length * d := by
    intro k hk
    have : (k : ℤ) ≤ pts.length := by exact_mod_cast hk.le
    exact mul_le_mul_of_nonneg_right this hd.le
  refine ⟨by exact_mod_cast hd, ?_, ?_, ?_, ?_⟩
  · intro k x hx
    simp only [List.getElem?_map, Option.map_eq_some_iff] at hx
    obtain ⟨p, h1, rfl⟩ := hx
    rw [hp k p h1]
    push_cast
    ring
  · intro x hx
    obtain ⟨p, h1, rfl⟩ := List.mem_map.1 hx
    obtain ⟨k, hk, h2⟩ := List.mem_iff_getElem.1 h1
    rw [hp k p (by rw [List.getElem?_eq_getElem hk, h2])]
    apply fl64_int
    have h3 := key k hk
    have h4 : 0 ≤ (k : ℤ) * d := by positivity
    have := abs_add_le a ((k : ℤ) * d)
    rw [abs_of_nonneg h4] at this
    linarith
  · intro k hk
    simp only [List.length_map] at hk
    have h3 := key k hk
    have h4 : 0 ≤ (k : ℤ) * d := by positivity
    have : |(k : ℤ) * d| ≤ 2 ^ 53 := by
      rw [abs_of_nonneg h4]
      linarith
    have := fl64_int this
    push_cast at this
    exact this
  · intro k hk
    simp only [List.length_map] at hk
    have : (k : ℤ) ≤ pts.length := by exact_mod_cast hk.le
    have : |(k : ℤ)| ≤ 2 ^ 53 := by
      rw [abs_of_nonneg (by positivity)]
      linarith
    have := fl64_int this
    push_cast at this
    exact this

/-- Hourly times in seconds. -/
example : Grid fl64 (([(1600000000, some 1), (1600003600, some 2), (1600007200, some 3)] : List (Pt ℚ)).map Prod.fst)
    1600000000 3600 := by
  have := C147_whole (pts := [(1600000000, some 1), (1600003600, some 2), (1600007200, some 3)]) (a := 1600000000)
    (d := 3600) (by norm_num) (by
      intro k p h
      match k with
      | 0 => simp at h; rw [← h]; norm_num
      | 1 => simp at h; rw [← h]; norm_num
      | 2 => simp at h; rw [← h]; norm_num
      | k + 3 => simp at h) (by norm_num)
  exact_mod_cast this

/-- **Tenths are not equally spaced**: `0.1, 0.2, 0.3` are refused. -/
theorem C147_negation :
    newR fl64 [(fl64 (1 / 10), some 1), (fl64 (2 / 10), some 2), (fl64 (3 / 10), some 3)] .linear true
      = .error .exception := by
  have : equallySpacedR fl64 none []
      [(fl64 (1 / 10), some 1), (fl64 (2 / 10), some 2), (fl64 (3 / 10), some (3 : ℚ))] = .ok false := by
    decide +kernel
  unfold newR
  rw [this]
  rfl

/-- **A wrong value at a point**: `0, 0.1, 0.2, 0.3, 0.4` are taken as equally spaced, but the index of the point at `0.3`
comes out below `3`.  With the interpolation `previous` the value read there is that of the point before, and with
`linear` it is not the value of the point either. -/
theorem C147_knot_negation :
    (do
      let s ← newR fl64 [(0, some 10), (fl64 (1 / 10), some 11), (fl64 (2 / 10), some 12), (fl64 (3 / 10), some 13),
        (fl64 (4 / 10), some 14)] .previous true
      let v ← s.yR fl64 (fl64 (3 / 10))
      pure (s.equal, v)) = .ok (true, some 12)
    ∧ (do
      let s ← newR fl64 [(0, some 10), (fl64 (1 / 10), some 11), (fl64 (2 / 10), some 12), (fl64 (3 / 10), some 0),
        (fl64 (4 / 10), some 14)] .linear true
      let v ← s.yR fl64 (fl64 (3 / 10))
      pure (v.map (decide <| 0 < ·))) = .ok (some true) := by
  refine ⟨?_, ?_⟩ <;> decide +kernel

/-! ### An instance of each theorem -/

/-- Hourly points. -/
def hourly (i : Interp) : Pts ℚ := match newR fl64 [(1600000000, some 1), (1600003600, some 2), (1600007200, some 4)] i false with
  | .ok s => s
  | .error _ => blank i true

theorem hourly_grid : Grid fl64 (([(1600000000, some 1), (1600003600, some 2), (1600007200, some 4)] : List (Pt ℚ)).map Prod.fst)
    1600000000 3600 := by
  have := C147_whole (pts := [(1600000000, some 1), (1600003600, some 2), (1600007200, some 4)]) (a := 1600000000)
    (d := 3600) (by norm_num) (by
      intro k p h
      match k with
      | 0 => simp at h; rw [← h]; norm_num
      | 1 => simp at h; rw [← h]; norm_num
      | 2 => simp at h; rw [← h]; norm_num
      | k + 3 => simp at h) (by norm_num)
  exact_mod_cast this

-- `C147_new`
theorem hourly_made (i : Interp) : (hourly i).isUniform = true ∧ (hourly i).interval = some 3600 ∧
    (hourly i).points = [(1600000000, some 1), (1600003600, some 2), (1600007200, some 4)] ∧ (hourly i).interp = i ∧
    (hourly i).domVal = span (hourly i).points := by
  obtain ⟨s, h, h1, h2, h3, h4, h5, -⟩ := C147_new fl64_rounding hourly_grid (by decide) i false
  have : hourly i = s := by unfold hourly; rw [h]
  rw [this]
  exact ⟨h1, h2, h3, h4, h3 ▸ h5⟩

-- `C147_knot`
example : (hourly .linear).yR fl64 1600003600 = .ok (some 2) := by
  have h := hourly_made .linear
  exact C147_knot fl64_rounding h.1 (h.2.2.1 ▸ hourly_grid) h.2.1 h.2.2.2.2 (p := (1600003600, some 2)) (by rw [h.2.2.1]; simp)

-- `C147_linear`, twenty minutes after the second point
example : ∃ v, (hourly .linear).yR fl64 1600004800 = .ok (some v) ∧ |v - 8 / 3| ≤ 1 / 10 ^ 14 := by
  have h := hourly_made .linear
  obtain ⟨v, h1, h2⟩ := C147_linear fl64_rounding h.1 (h.2.2.1 ▸ hourly_grid) h.2.1 h.2.2.2.2 h.2.2.2.1 (k := 1)
    (p := (1600003600, some 2)) (q := (1600007200, some 4)) (x := 1600004800) (a := 2) (b := 4) (M := 4)
    (by rw [h.2.2.1]; rfl) (by rw [h.2.2.1]; rfl) (by norm_num) (by norm_num) rfl rfl (by norm_num) (by norm_num)
  refine ⟨v, h1, ?_⟩
  norm_num at h2 ⊢
  exact h2.trans (by norm_num)

-- `C147_step`, in the same place
example : (hourly .previous).yR fl64 1600004800 = .ok (some 2) := by
  have h := hourly_made .previous
  rw [(C147_step fl64_rounding h.1 (h.2.2.1 ▸ hourly_grid) h.2.1 h.2.2.2.2 (by rw [h.2.2.2.1]; decide) (k := 1)
    (p := (1600003600, some 2)) (q := (1600007200, some 4)) (x := 1600004800)
    (by rw [h.2.2.1]; rfl) (by rw [h.2.2.1]; rfl) (by norm_num) (by norm_num)).2 (by norm_num) (by norm_num), h.2.2.1, h.2.2.2.1]
  decide +kernel

-- `C147_close`
example (x : ℚ) : ((hourly .linear).yR fl64 x = .ok none ∧ valueAt .linear (hourly .linear).points x = none)
    ∨ ∃ v w, (hourly .linear).yR fl64 x = .ok (some v) ∧ valueAt .linear (hourly .linear).points x = some w
      ∧ |v - w| ≤ (6 * ((hourly .linear).points.length : ℚ) + 4) * (1 / 2 ^ 53) * 4 := by
  have h := hourly_made .linear
  refine C147_close fl64_rounding h.1 (h.2.2.1 ▸ hourly_grid) h.2.1 h.2.2.2.2 h.2.2.2.1 ?_ x
  rw [h.2.2.1]
  intro p hp
  simp at hp
  rcases hp with rfl | rfl | rfl <;> exact ⟨_, rfl, by norm_num⟩

end Props
end Curvepy
