import Verif.Spec.Interp
import Verif.Lemmas.Interval
import Mathlib.Tactic.FieldSimp
import Mathlib.Tactic.Ring
import Mathlib.Tactic.NormNum
import Mathlib.Tactic.Positivity
import Mathlib.Data.Rat.Cast.Order

namespace Curvepy
open Spec

variable {V : Type}

namespace Spec

theorem Ascending.lt {pts : List (Pt V)} (h : Ascending pts) {i j : ℕ} {p q : Pt V}
    (hi : pts[i]? = some p) (hj : pts[j]? = some q) (hij : i < j) : p.1 < q.1 := by
  obtain ⟨hi', rfl⟩ := List.getElem?_eq_some_iff.1 hi
  obtain ⟨hj', rfl⟩ := List.getElem?_eq_some_iff.1 hj
  exact List.pairwise_iff_getElem.1 h i j hi' hj' hij

theorem Ascending.le {pts : List (Pt V)} (h : Ascending pts) {i j : ℕ} {p q : Pt V}
    (hi : pts[i]? = some p) (hj : pts[j]? = some q) (hij : i ≤ j) : p.1 ≤ q.1 := by
  rcases hij.lt_or_eq with hij | rfl
  · exact (h.lt hi hj hij).le
  · rw [hi] at hj; cases hj; exact le_rfl

theorem Ascending.lt_iff {pts : List (Pt V)} (h : Ascending pts) {i j : ℕ} {p q : Pt V}
    (hi : pts[i]? = some p) (hj : pts[j]? = some q) : p.1 < q.1 ↔ i < j := by
  refine ⟨fun hlt => ?_, h.lt hi hj⟩
  by_contra hn
  exact absurd (h.le hj hi (not_lt.1 hn)) (not_le.2 hlt)

theorem Ascending.inj {pts : List (Pt V)} (h : Ascending pts) {i j : ℕ} {p q : Pt V}
    (hi : pts[i]? = some p) (hj : pts[j]? = some q) (he : p.1 = q.1) : i = j := by
  rcases lt_trichotomy i j with hij | hij | hij
  · exact absurd he (h.lt hi hj hij).ne
  · exact hij
  · exact absurd he (h.lt hj hi hij).ne'

theorem Ascending.tail {p : Pt V} {pts : List (Pt V)} (h : Ascending (p :: pts)) :
    Ascending pts := (List.pairwise_cons.1 h).2

theorem EquallySpaced.index {pts : List (Pt V)} {d : ℚ}
    (h : pts.IsChain (fun p q => q.1 - p.1 = d)) {k : ℕ} {p0 p : Pt V}
    (h0 : pts[0]? = some p0) (hk : pts[k]? = some p) : p.1 = p0.1 + k * d := by
  induction k generalizing p with
  | zero => rw [h0] at hk; cases hk; simp
  | succ k ih =>
    obtain ⟨hk', hkk⟩ := List.getElem?_eq_some_iff.1 hk
    have hk0 : k < pts.length := by omega
    have := ih (List.getElem?_eq_getElem hk0)
    have hc := List.isChain_iff_getElem.1 h k (by omega)
    rw [hkk] at hc
    push_cast
    linarith

end Spec

namespace Pts

theorem getDomain_eq_span (pts : List (Pt V)) : getDomain pts = span pts := by
  cases pts with
  | nil => rfl
  | cons p ps =>
    simp [getDomain, span, Iv.closed, List.getLast?_eq_some_getLast]

/-- Everything the queries rely on. -/
structure Wf (s : Pts V) : Prop where
  asc : Ascending s.points
  intv : s.interval = intervalOf s.points
  fresh : s.cache = none ∨ s.cache = some (getDomain s.points)
  faithful : s.isUniform = true → EquallySpaced s.points

theorem Wf.domVal {s : Pts V} (h : s.Wf) : s.domVal = getDomain s.points := by
  unfold Pts.domVal
  rcases h.fresh with h | h <;> simp [h]

theorem bisectGo_spec (a : List (Pt V)) (x : ℚ) (h : Ascending a) (lo hi : ℕ)
    (hhi : hi ≤ a.length) (hlohi : lo ≤ hi)
    (hlo : ∀ (i : ℕ) (p : Pt V), a[i]? = some p → i < lo → p.1 < x)
    (hhi' : ∀ (i : ℕ) (p : Pt V), a[i]? = some p → hi ≤ i → x ≤ p.1) :
    bisectGo a x lo hi ≤ a.length ∧
    ∀ (i : ℕ) (p : Pt V), a[i]? = some p → (i < bisectGo a x lo hi ↔ p.1 < x) := by
  induction hn : hi - lo using Nat.strong_induction_on generalizing lo hi with
  | _ n ih =>
    unfold bisectGo
    by_cases hlt : lo < hi
    · simp only [hlt, if_true]
      have hmid : (lo + hi) / 2 < a.length := by omega
      rw [List.getElem?_eq_getElem hmid]
      by_cases hc : a[(lo + hi) / 2].1 < x
      · simp only [hc, if_true]
        refine ih (hi - ((lo + hi) / 2 + 1)) (by omega) _ _ hhi (by omega) ?_ hhi' rfl
        intro i p hp hi'
        exact lt_of_le_of_lt (h.le hp (List.getElem?_eq_getElem hmid) (by omega)) hc
      · simp only [hc, if_false]
        refine ih ((lo + hi) / 2 - lo) (by omega) _ _ (by omega) (by omega) hlo ?_ rfl
        intro i p hp hi'
        exact le_trans (not_lt.1 hc) (h.le (List.getElem?_eq_getElem hmid) hp hi')
    · simp only [hlt, if_false]
      have : lo = hi := by omega
      subst this
      refine ⟨hhi, fun i p hp => ⟨hlo i p hp, fun hpx => ?_⟩⟩
      by_contra hn
      exact absurd (hhi' i p hp (by omega)) (not_le.2 hpx)

theorem bisect_spec (a : List (Pt V)) (x : ℚ) (h : Ascending a) :
    bisect a x ≤ a.length ∧
    ∀ (i : ℕ) (p : Pt V), a[i]? = some p → (i < bisect a x ↔ p.1 < x) := by
  refine bisectGo_spec a x h 0 a.length le_rfl (by omega) (by simp) ?_
  intro i p hp hi
  have := (List.getElem?_eq_some_iff.1 hp).1
  omega

/-- The position of `x` on an ascending list of knots. -/
inductive At (pts : List (Pt V)) (x : ℚ) : Prop where
  | before (h : ∀ p ∈ pts, x < p.1)
  | after (h : ∀ p ∈ pts, p.1 < x)
  | knot (k : ℕ) (p : Pt V) (hk : pts[k]? = some p) (hx : x = p.1)
  | gap (k : ℕ) (p q : Pt V) (hp : pts[k]? = some p) (hq : pts[k + 1]? = some q)
      (hpx : p.1 < x) (hxq : x < q.1)

theorem locate (pts : List (Pt V)) (h : Ascending pts) (x : ℚ) : At pts x := by
  induction pts with
  | nil => exact .before (by simp)
  | cons p ps ih =>
    rcases lt_trichotomy x p.1 with hx | hx | hx
    · refine .before ?_
      intro q hq
      rcases List.mem_cons.1 hq with rfl | hq
      · exact hx
      · exact hx.trans ((List.pairwise_cons.1 h).1 q hq)
    · exact .knot 0 p rfl hx
    · cases ih h.tail with
      | before hb =>
        cases ps with
        | nil => exact .after (by simpa using hx)
        | cons q qs => exact .gap 0 p q rfl rfl hx (hb q (by simp))
      | after ha =>
        refine .after ?_
        intro q hq
        rcases List.mem_cons.1 hq with rfl | hq
        · exact hx
        · exact ha q hq
      | knot k q hk hxq => exact .knot (k + 1) q (by simpa using hk) hxq
      | gap k q r hq hr h1 h2 => exact .gap (k + 1) q r (by simpa using hq) (by simpa using hr) h1 h2

theorem intervalOf_eq {pts : List (Pt V)} {d : ℚ}
    (h : pts.IsChain (fun p q => q.1 - p.1 = d)) (hl : 2 ≤ pts.length) :
    intervalOf pts = some d := by
  match pts, hl with
  | p :: q :: ps, _ =>
    have hlast : (p :: q :: ps)[ps.length + 1]? = some ((q :: ps).getLast (by simp)) := by
      rw [List.getLast_eq_getElem]
      simp
    have := EquallySpaced.index h (k := ps.length + 1) (p0 := p) rfl hlast
    simp only [intervalOf]
    rw [this]
    congr 1
    have hne : ((ps.length + 1 : ℕ) : ℚ) ≠ 0 := by positivity
    simp only [List.length_cons]
    field_simp
    ring

theorem intervalOf_none {pts : List (Pt V)} (hl : pts.length < 2) : intervalOf pts = none := by
  match pts, hl with
  | [], _ => rfl
  | [_], _ => rfl

/-- `x_index` in a gap: the knot's index plus the fraction of the gap covered. -/
theorem xIndex_gap {s : Pts V} (w : s.Wf) {k : ℕ} {p q : Pt V} {x : ℚ}
    (hp : s.points[k]? = some p) (hq : s.points[k + 1]? = some q)
    (hpx : p.1 < x) (hxq : x < q.1) :
    s.xIndex x = .ok ((k : ℚ) + (x - p.1) / (q.1 - p.1)) := by
  have hlen : k + 1 < s.points.length := (List.getElem?_eq_some_iff.1 hq).1
  unfold xIndex
  by_cases hu : s.isUniform = true
  · obtain ⟨d, hd⟩ := w.faithful hu
    have hint : s.interval = some d := by rw [w.intv]; exact intervalOf_eq hd (by omega)
    simp only [hu, if_true, hint]
    match hpts : s.points, hlen with
    | p0 :: ps, _ =>
      rw [hpts] at hp hq hd
      have e1 := EquallySpaced.index hd (p0 := p0) rfl hp
      have e2 := EquallySpaced.index hd (p0 := p0) rfl hq
      push_cast at e2
      have hdpos : d ≠ 0 := by
        intro h0; subst h0; simp at e1 e2; rw [e1] at hpx; rw [e2] at hxq; linarith
      simp only [hdpos, if_false]
      congr 1
      have : q.1 - p.1 = d := by rw [e1, e2]; ring
      rw [this, e1]
      field_simp
      ring
  · simp only [hu]
    have ⟨hb1, hb2⟩ := bisect_spec s.points x w.asc
    have h1 : k < bisect s.points x := (hb2 k p hp).2 hpx
    have h2 : ¬ k + 1 < bisect s.points x := fun h => by
      have := (hb2 (k + 1) q hq).1 h; linarith
    have hb : bisect s.points x = k + 1 := by omega
    simp only [hb, Bool.false_eq_true, if_false, Nat.add_sub_cancel]
    rw [if_neg (by omega), if_neg (by omega), hp, hq]
    have hne : q.1 - p.1 ≠ 0 := by linarith
    simp only [hne, if_false]

/-- `x_index` at a knot is the knot's index. -/
theorem xIndex_knot {s : Pts V} (w : s.Wf) {k : ℕ} {p : Pt V} {x : ℚ}
    (hp : s.points[k]? = some p) (hx : x = p.1) : s.xIndex x = .ok (k : ℚ) := by
  have hlen : k < s.points.length := (List.getElem?_eq_some_iff.1 hp).1
  unfold xIndex
  by_cases hu : s.isUniform = true
  · simp only [hu, if_true]
    by_cases h2 : 2 ≤ s.points.length
    · obtain ⟨d, hd⟩ := w.faithful hu
      have hint : s.interval = some d := by rw [w.intv]; exact intervalOf_eq hd h2
      simp only [hint]
      match hpts : s.points, h2 with
      | p0 :: p1 :: ps, _ =>
        rw [hpts] at hp hd
        have hasc := w.asc
        rw [hpts] at hasc
        have e1 := EquallySpaced.index hd (p0 := p0) rfl hp
        have e2 := EquallySpaced.index hd (p0 := p0) (k := 1) (p := p1) rfl rfl
        have hlt := hasc.lt (i := 0) (j := 1) (p := p0) (q := p1) rfl rfl (by omega)
        have hdpos : d ≠ 0 := by
          intro h0; subst h0; simp at e2; linarith
        simp only [hdpos, if_false]
        congr 1
        rw [hx, e1]
        field_simp
        ring
    · rw [w.intv, intervalOf_none (by omega)]
      have : k = 0 := by omega
      simp [this]
  · simp only [hu]
    have ⟨hb1, hb2⟩ := bisect_spec s.points x w.asc
    have h1 : ¬ k < bisect s.points x := fun h => by
      have := (hb2 k p hp).1 h; linarith
    have hlow : ∀ i, i < k → i < bisect s.points x := by
      intro i hi
      have hil : i < s.points.length := by omega
      refine (hb2 i _ (List.getElem?_eq_getElem hil)).2 ?_
      rw [hx]
      exact w.asc.lt (List.getElem?_eq_getElem hil) hp hi
    have hb : bisect s.points x = k := by
      rcases Nat.eq_zero_or_pos k with h0 | h0
      · omega
      · have := hlow (k - 1) (by omega); omega
    simp only [hb, Bool.false_eq_true, if_false]
    by_cases hk0 : k = 0
    · simp [hk0]
    · simp only [hk0, if_false]
      rw [if_neg (by omega)]
      have hkl : k - 1 < s.points.length := by omega
      rw [List.getElem?_eq_getElem hkl, hp]
      have hlt := w.asc.lt (List.getElem?_eq_getElem hkl) hp (by omega)
      have hne : p.1 - s.points[k - 1].1 ≠ 0 := by linarith
      simp only [hne, if_false]
      congr 1
      rw [hx, div_self hne]
      have : ((k - 1 : ℕ) : ℚ) = (k : ℚ) - 1 := by
        rw [Nat.cast_sub (by omega)]; simp
      rw [this]; ring

theorem gap_frac {p q : Pt V} {x : ℚ} (hpx : p.1 < x) (hxq : x < q.1) :
    0 < (x - p.1) / (q.1 - p.1) ∧ (x - p.1) / (q.1 - p.1) < 1 := by
  have h : 0 < q.1 - p.1 := by linarith
  exact ⟨div_pos (by linarith) h, by rw [div_lt_one h]; linarith⟩

theorem floor_nat_add {k : ℕ} {u : ℚ} (h0 : 0 ≤ u) (h1 : u < 1) : ⌊(k : ℚ) + u⌋ = (k : ℤ) := by
  rw [Int.floor_eq_iff]
  push_cast
  exact ⟨by linarith, by linarith⟩

theorem ceil_nat_add {k : ℕ} {u : ℚ} (h0 : 0 < u) (h1 : u < 1) :
    ⌈(k : ℚ) + u⌉ = ((k + 1 : ℕ) : ℤ) := by
  rw [Int.ceil_eq_iff]
  push_cast
  exact ⟨by linarith, by linarith⟩

theorem pyInt_nat_add {k : ℕ} {u : ℚ} (h0 : 0 ≤ u) (h1 : u < 1) :
    pyInt ((k : ℚ) + u) = (k : ℤ) := by
  have : (0 : ℚ) ≤ (k : ℚ) + u := by positivity
  simp only [pyInt, this, if_true]
  exact floor_nat_add h0 h1

theorem pyMod1_nat_add {k : ℕ} {u : ℚ} (h0 : 0 ≤ u) (h1 : u < 1) :
    pyMod1 ((k : ℚ) + u) = u := by
  simp only [pyMod1, floor_nat_add h0 h1]
  push_cast
  ring

theorem pyGet_nat {α : Type} {l : List α} {k : ℕ} {a : α} (h : l[k]? = some a) :
    pyGet l (k : ℤ) = .ok a := by
  simp [pyGet, h]

theorem valueAt_knot [Lerp V] (mode : Interp) {pts : List (Pt V)} (h : Ascending pts) {k : ℕ}
    {p : Pt V} (hk : pts[k]? = some p) : valueAt mode pts p.1 = p.2 := by
  induction pts generalizing k with
  | nil => simp at hk
  | cons q qs ih =>
    cases qs with
    | nil =>
      cases k with
      | zero => simp at hk; subst hk; simp [valueAt]
      | succ k => simp at hk
    | cons r rs =>
      cases k with
      | zero => simp at hk; subst hk; simp [valueAt]
      | succ k =>
        have hlt : q.1 < p.1 := h.lt (i := 0) (j := k + 1) rfl hk (by omega)
        have hle : r.1 ≤ p.1 := h.le (i := 1) (j := k + 1) rfl hk (by omega)
        have hk' : (r :: rs)[k]? = some p := by simpa using hk
        simp only [valueAt, not_lt.2 hlt.le, hlt.ne', not_lt.2 hle, if_false]
        exact ih h.tail hk'

theorem valueAt_gap [Lerp V] (mode : Interp) {pts : List (Pt V)} (h : Ascending pts) {k : ℕ}
    {p q : Pt V} {x : ℚ} (hp : pts[k]? = some p) (hq : pts[k + 1]? = some q)
    (hpx : p.1 < x) (hxq : x < q.1) : valueAt mode pts x = between mode p q x := by
  induction pts generalizing k with
  | nil => simp at hp
  | cons a as ih =>
    cases as with
    | nil => simp at hq
    | cons b bs =>
      cases k with
      | zero =>
        simp at hp hq; subst hp; subst hq
        simp only [valueAt, not_lt.2 hpx.le, hpx.ne', hxq, if_false, if_true]
      | succ k =>
        have hap : a.1 < p.1 := h.lt (i := 0) (j := k + 1) rfl hp (by omega)
        have hbp : b.1 ≤ p.1 := h.le (i := 1) (j := k + 1) rfl hp (by omega)
        have h1 : a.1 < x := by linarith
        have h2 : b.1 ≤ x := by linarith
        simp only [valueAt, not_lt.2 h1.le, h1.ne', not_lt.2 h2, if_false]
        exact ih h.tail (by simpa using hp) (by simpa using hq)

theorem valueAt_before [Lerp V] (mode : Interp) {pts : List (Pt V)} {x : ℚ}
    (hb : ∀ p ∈ pts, x < p.1) : valueAt mode pts x = none := by
  match pts with
  | [] => rfl
  | [p] => simp [valueAt, (hb p (by simp)).ne]
  | p :: q :: ps => simp [valueAt, hb p (by simp)]

theorem valueAt_after [Lerp V] (mode : Interp) {pts : List (Pt V)} {x : ℚ}
    (ha : ∀ p ∈ pts, p.1 < x) : valueAt mode pts x = none := by
  induction pts with
  | nil => rfl
  | cons p ps ih =>
    cases ps with
    | nil => simp [valueAt, (ha p (by simp)).ne']
    | cons q qs =>
      have h1 := ha p (by simp)
      have h2 := ha q (by simp)
      simp only [valueAt, not_lt.2 h1.le, h1.ne', not_lt.2 h2.le, if_false]
      exact ih fun r hr => ha r (by simp [hr])

theorem getLast_mem_idx {pts : List (Pt V)} (h : pts ≠ []) :
    pts[pts.length - 1]? = some (pts.getLast h) := by
  rw [List.getLast_eq_getElem]
  exact List.getElem?_eq_getElem _

theorem getDomain_contains_fin (pts : List (Pt V)) (x : ℚ) :
    (getDomain pts).contains (.fin x) = true ↔
      ∃ p q, pts[0]? = some p ∧ pts[pts.length - 1]? = some q ∧ p.1 ≤ x ∧ x ≤ q.1 := by
  cases pts with
  | nil => simp [getDomain]
  | cons p ps =>
    have h := getLast_mem_idx (pts := p :: ps) (by simp)
    simp only [getDomain, Iv.contains_closed, Bool.and_eq_true, decide_eq_true_eq]
    constructor
    · rintro ⟨h1, h2⟩
      exact ⟨p, _, rfl, h, h1, h2⟩
    · rintro ⟨p', q', hp', hq', h1, h2⟩
      rw [h] at hq'
      cases hq'; simp at hp'; subst hp'
      exact ⟨h1, h2⟩

theorem getDomain_contains_inf (pts : List (Pt V)) :
    (getDomain pts).contains .pinf = false ∧ (getDomain pts).contains .ninf = false := by
  cases pts with
  | nil => simp [getDomain]
  | cons p ps =>
    constructor
    · by_contra h
      have h := (Iv.contains_iff _ _).1 (by simpa using h)
      simp [getDomain, Iv.closed, Iv.leHi] at h
    · by_contra h
      have h := (Iv.contains_iff _ _).1 (by simpa using h)
      simp [getDomain, Iv.closed, Iv.geLo] at h

theorem not_contains_before {pts : List (Pt V)} {x : ℚ} (hb : ∀ p ∈ pts, x < p.1) :
    (getDomain pts).contains (.fin x) = false := by
  by_contra h
  obtain ⟨p, q, hp, _, h1, _⟩ := (getDomain_contains_fin pts x).1 (by simpa using h)
  have := hb p (List.mem_of_getElem? hp)
  linarith

theorem not_contains_after {pts : List (Pt V)} {x : ℚ} (hb : ∀ p ∈ pts, p.1 < x) :
    (getDomain pts).contains (.fin x) = false := by
  by_contra h
  obtain ⟨p, q, hp, hq, _, h1⟩ := (getDomain_contains_fin pts x).1 (by simpa using h)
  have := hb q (List.mem_of_getElem? hq)
  linarith

theorem contains_of_idx {pts : List (Pt V)} (h : Ascending pts) {i j : ℕ} {p q : Pt V} {x : ℚ}
    (hi : pts[i]? = some p) (hj : pts[j]? = some q) (h1 : p.1 ≤ x) (h2 : x ≤ q.1) :
    (getDomain pts).contains (.fin x) = true := by
  have hlen := (List.getElem?_eq_some_iff.1 hj).1
  have hpos : 0 < pts.length := by omega
  rw [getDomain_contains_fin]
  refine ⟨pts[0], pts[pts.length - 1], List.getElem?_eq_getElem _, List.getElem?_eq_getElem _, ?_, ?_⟩
  · exact le_trans (h.le (List.getElem?_eq_getElem hpos) hi (by omega)) h1
  · exact le_trans h2 (h.le hj (List.getElem?_eq_getElem (by omega)) (by omega))

/-- The central refinement: on a well-formed curve `y` is the specified value. -/
theorem y_eq [Lerp V] {s : Pts V} (w : s.Wf) (x : Ext) :
    s.y x = .ok (valueAtE s.interp s.points x) := by
  unfold Pts.y
  rw [w.domVal]
  cases x with
  | ninf => simp [(getDomain_contains_inf s.points).2, valueAtE]
  | pinf => simp [(getDomain_contains_inf s.points).1, valueAtE]
  | fin x =>
    simp only [valueAtE]
    cases locate s.points w.asc x with
    | before hb => rw [not_contains_before hb, valueAt_before _ hb]; simp
    | after ha => rw [not_contains_after ha, valueAt_after _ ha]; simp
    | knot k p hk hx =>
      rw [contains_of_idx w.asc hk hk (le_of_eq hx.symm) (le_of_eq hx), xIndex_knot w hk hx, hx,
        valueAt_knot _ w.asc hk]
      have e1 : pyMod1 (k : ℚ) = 0 := by simp [pyMod1]
      have e2 : pyInt (k : ℚ) = k := by simp [pyInt]
      simp only [Bool.not_true, Bool.false_eq_true, if_false, bind, Except.bind, e1, e2, if_true,
        pyGet_nat hk, pure, Except.pure]
    | gap k p q hp hq hpx hxq =>
      rw [contains_of_idx w.asc hp hq hpx.le hxq.le, xIndex_gap w hp hq hpx hxq,
        valueAt_gap _ w.asc hp hq hpx hxq]
      have ⟨h0, h1⟩ := gap_frac hpx hxq
      have hq' : pyGet s.points ((k : ℤ) + 1) = .ok q := by
        have := pyGet_nat hq; push_cast at this; exact this
      simp only [Bool.not_true, Bool.false_eq_true, if_false, bind, Except.bind,
        pyMod1_nat_add h0.le h1, pyInt_nat_add h0.le h1, h0.ne', pyGet_nat hp, hq', pure, Except.pure]
      cases s.interp with
      | linear => rcases p with ⟨px, _ | py⟩ <;> rcases q with ⟨qx, _ | qy⟩ <;> simp [between]
      | previous => simp [between]
      | next => simp [between]

end Pts
end Curvepy
