import Verif.Lemmas.PointsHistory

/-!
# Points: queries (C01-C08)

Every theorem is about every curve reachable by the constructor and legal edits (`Honest`).
-/

namespace Curvepy
namespace Props
open Spec Pts

/-- Irregular curve `Points([(0,1),(1,3),(3,None),(4,2)], uniform=False)` used in the examples. -/
def demoPts : List (Pt ℚ) := [(0, some 1), (1, some 3), (3, none), (4, some 2)]

/-- Regular curve `Points([(0,1),(2,5),(4,4)])` used in the examples. -/
def evenPts : List (Pt ℚ) := [(0, some 1), (2, some 5), (4, some 4)]

def demo (i : Interp) : Pts ℚ := ((blank i false).set demoPts none ⟨false, false⟩).st
def even (i : Interp) : Pts ℚ := ((blank i true).set evenPts none ⟨false, false⟩).st

theorem demo_new (i : Interp) : Pts.new demoPts i false = .ok (demo i) := by
  have h : ((blank i false).set demoPts none ⟨false, false⟩).err = none := by
    cases i <;> decide +kernel
  simp [Pts.new, h, demo]

theorem even_new (i : Interp) : Pts.new evenPts i true = .ok (even i) := by
  have h : ((blank i true).set evenPts none ⟨false, false⟩).err = none := by
    cases i <;> decide +kernel
  simp [Pts.new, h, even]

theorem demo_honest (i : Interp) : Honest (demo i) := by
  refine .new (by norm_num [Ascending, demoPts]) (demo_new i) ?_
  intro h
  have : (demo i).isUniform = false := by cases i <;> decide +kernel
  simp [this] at h

theorem even_honest (i : Interp) : Honest (even i) := by
  refine .new (by norm_num [Ascending, evenPts]) (even_new i) ?_
  intro _
  rw [(new_ok (by norm_num [Ascending, evenPts]) (even_new i)).2.1]
  exact ⟨2, by norm_num [evenPts]⟩

theorem demo_points (i : Interp) : (demo i).points = demoPts :=
  (new_ok (by norm_num [Ascending, demoPts]) (demo_new i)).2.1

theorem even_points (i : Interp) : (even i).points = evenPts :=
  (new_ok (by norm_num [Ascending, evenPts]) (even_new i)).2.1

variable {V : Type}

/-! ## C01 -/

/-- C01: at a stored position the stored value is returned, in every interpolation mode. -/
theorem C01_stored_value [Lerp V] {s : Pts V} (h : Honest s) {p : Pt V} (hp : p ∈ s.points) :
    s.y (.fin p.1) = .ok p.2 := by
  obtain ⟨k, hk⟩ := List.getElem?_of_mem hp
  rw [y_eq h.wf]
  exact congrArg _ (valueAt_knot _ h.wf.asc hk)

example : (demo .linear).y (.fin 1) = .ok (some 3) :=
  C01_stored_value (demo_honest _) (p := (1, some 3)) (by rw [demo_points]; simp [demoPts])
example : (even .next).y (.fin 4) = .ok (some 4) :=
  C01_stored_value (even_honest _) (p := (4, some 4)) (by rw [even_points]; simp [evenPts])

/-! ## C02 -/

/-- C02: strictly between neighbouring knots the value is on the straight segment, and is
`None` if one of the two stored values is. -/
theorem C02_linear {s : Pts ℚ} (h : Honest s) (hi : s.interp = .linear) {k : ℕ} {p q : Pt ℚ}
    (hp : s.points[k]? = some p) (hq : s.points[k + 1]? = some q) {x : ℚ} (hpx : p.1 < x)
    (hxq : x < q.1) :
    (∀ a b, p.2 = some a → q.2 = some b →
      s.y (.fin x) = .ok (some (((q.1 - x) * a + (x - p.1) * b) / (q.1 - p.1)))) ∧
    (p.2 = none ∨ q.2 = none → s.y (.fin x) = .ok none) := by
  have hd : q.1 - p.1 ≠ 0 := by linarith
  rw [y_eq h.wf]
  simp only [valueAtE]
  rw [valueAt_gap _ h.wf.asc hp hq hpx hxq, hi]
  constructor
  · intro a b ha hb
    simp only [between, ha, hb, Lerp.lerp]
    congr 2
    field_simp
    ring
  · rintro (hn | hn)
    · simp [between, hn]
    · simp only [between, hn]
      cases p.2 <;> rfl

/-- C02: the interpolated value lies between the two neighbouring values. -/
theorem C02_between {s : Pts ℚ} (h : Honest s) (hi : s.interp = .linear) {k : ℕ} {p q : Pt ℚ}
    (hp : s.points[k]? = some p) (hq : s.points[k + 1]? = some q) {x a b : ℚ} (hpx : p.1 < x)
    (hxq : x < q.1) (ha : p.2 = some a) (hb : q.2 = some b) :
    ∃ v, s.y (.fin x) = .ok (some v) ∧ min a b ≤ v ∧ v ≤ max a b := by
  refine ⟨_, (C02_linear h hi hp hq hpx hxq).1 a b ha hb, ?_, ?_⟩
  · rw [le_div_iff₀ (by linarith)]
    nlinarith [min_le_left a b, min_le_right a b]
  · rw [div_le_iff₀ (by linarith)]
    nlinarith [le_max_left a b, le_max_right a b]

example : (demo .linear).y (.fin (1 / 4)) = .ok (some (3 / 2)) := by
  have := (C02_linear (demo_honest .linear) rfl (k := 0) (p := (0, some 1)) (q := (1, some 3))
    (by rw [demo_points]; rfl) (by rw [demo_points]; rfl) (x := 1 / 4) (by norm_num)
    (by norm_num)).1 1 3 rfl rfl
  rw [this]; norm_num
example : (demo .linear).y (.fin 2) = .ok none :=
  (C02_linear (demo_honest .linear) rfl (k := 1) (p := (1, some 3)) (q := (3, none))
    (by rw [demo_points]; rfl) (by rw [demo_points]; rfl) (x := 2) (by norm_num)
    (by norm_num)).2 (Or.inr rfl)

/-! ## C03 -/

/-- C03: `previous` takes the left neighbour, `next` the right neighbour. -/
theorem C03_step [Lerp V] {s : Pts V} (h : Honest s) {k : ℕ} {p q : Pt V}
    (hp : s.points[k]? = some p) (hq : s.points[k + 1]? = some q) {x : ℚ} (hpx : p.1 < x)
    (hxq : x < q.1) :
    (s.interp = .previous → s.y (.fin x) = .ok p.2) ∧
    (s.interp = .next → s.y (.fin x) = .ok q.2) := by
  rw [y_eq h.wf]
  simp only [valueAtE]
  rw [valueAt_gap _ h.wf.asc hp hq hpx hxq]
  exact ⟨fun hi => by rw [hi]; rfl, fun hi => by rw [hi]; rfl⟩

example : (even .previous).y (.fin 3) = .ok (some 5) ∧ (even .next).y (.fin 3) = .ok (some 4) :=
  ⟨(C03_step (even_honest .previous) (k := 1) (p := (2, some 5)) (q := (4, some 4))
      (by rw [even_points]; rfl) (by rw [even_points]; rfl) (by norm_num) (by norm_num)).1 (by decide +kernel),
   (C03_step (even_honest .next) (k := 1) (p := (2, some 5)) (q := (4, some 4))
      (by rw [even_points]; rfl) (by rw [even_points]; rfl) (by norm_num) (by norm_num)).2 (by decide +kernel)⟩

/-! ## C04 -/

/-- C04: the reported domain is the closed interval spanned by the stored points. -/
theorem C04_domain [Lerp V] {s : Pts V} (h : Honest s) : s.domVal = span s.points := by
  rw [h.wf.domVal, getDomain_eq_span]

/-- C04: no evaluation raises; outside the domain (and at `±inf`) the value is `None`. -/
theorem C04_total [Lerp V] {s : Pts V} (h : Honest s) (x : Ext) :
    (∃ v, s.y x = .ok v) ∧ (s.domVal.contains x = false → s.y x = .ok none) ∧
    s.y .pinf = .ok none ∧ s.y .ninf = .ok none := by
  refine ⟨⟨_, y_eq h.wf x⟩, fun hx => ?_, ?_, ?_⟩
  · rw [y_eq h.wf, valueAtE_outside _ h.wf.asc (by rw [← h.wf.domVal]; exact hx)]
  · rw [y_eq h.wf]; rfl
  · rw [y_eq h.wf]; rfl

/-- C04: inside the domain the value is defined if all stored values are. -/
theorem C04_defined [Lerp V] {s : Pts V} (h : Honest s) (hall : ∀ p ∈ s.points, p.2.isSome)
    {x : Ext} (hx : s.domVal.contains x = true) : ∃ v, s.y x = .ok (some v) := by
  rw [y_eq h.wf]
  rw [h.wf.domVal] at hx
  cases x with
  | ninf => simp [(getDomain_contains_inf s.points).2] at hx
  | pinf => simp [(getDomain_contains_inf s.points).1] at hx
  | fin x =>
    simp only [valueAtE]
    cases locate s.points h.wf.asc x with
    | before h' => simp [not_contains_before h'] at hx
    | after h' => simp [not_contains_after h'] at hx
    | knot k p hk he =>
      obtain ⟨v, hv⟩ := Option.isSome_iff_exists.1 (hall p (List.mem_of_getElem? hk))
      exact ⟨v, by rw [he, valueAt_knot _ h.wf.asc hk, hv]⟩
    | gap k p q hp hq h1 h2 =>
      obtain ⟨v, hv⟩ := Option.isSome_iff_exists.1 (hall p (List.mem_of_getElem? hp))
      obtain ⟨w, hw⟩ := Option.isSome_iff_exists.1 (hall q (List.mem_of_getElem? hq))
      rw [valueAt_gap _ h.wf.asc hp hq h1 h2]
      cases s.interp <;> simp [between, hv, hw]

example : (even .linear).domVal = Iv.closed 0 4 ∧ (even .linear).y (.fin 5) = .ok none ∧
    ∃ v, (even .linear).y (.fin 1) = .ok (some v) := by
  have hd : (even .linear).domVal = Iv.closed 0 4 := by
    rw [C04_domain (even_honest _), even_points]; rfl
  refine ⟨hd, (C04_total (even_honest _) (.fin 5)).2.1 (by rw [hd]; decide +kernel), ?_⟩
  refine C04_defined (even_honest _) ?_ (by rw [hd]; decide +kernel)
  rw [even_points]; simp [evenPts]

/-! ## C05 -/

/-- C05, for curves whose uniformity report is right: values depend on nothing but the stored
points and the mode.  Missing: the hypothesis cannot be dropped, see `C05_negation`. -/
theorem C05_extensional_partial [Lerp V] {s t : Pts V} (hs : Honest s) (ht : Honest t)
    (hp : s.points = t.points) (hi : s.interp = t.interp) (x : Ext) : s.y x = t.y x := by
  rw [y_eq hs.wf, y_eq ht.wf, hp, hi]

/-- The same points as `even`, but by the route `Points([(0,1),(2,5)], uniform=False)` followed
by `append((4,4))` with an observer that reads the domain. -/
def evenGrown : Pts ℚ :=
  ((Op.append ((4 : ℚ), some (4 : ℚ))).run
    ((blank .linear false).set [(0, some 1), (2, some 5)] none ⟨false, false⟩).st ⟨true, true⟩).st

theorem two_honest (i : Interp) (u : Bool) (p q : Pt ℚ) (h : p.1 < q.1)
    (he : ((blank i u).set [p, q] none ⟨false, false⟩).err = none) :
    Honest ((blank i u).set [p, q] none ⟨false, false⟩).st := by
  have hn : Pts.new [p, q] i u = .ok ((blank i u).set [p, q] none ⟨false, false⟩).st := by
    simp [Pts.new, he]
  have ha : Ascending [p, q] := by simpa [Ascending] using h
  refine .new ha hn ?_
  intro _
  rw [(new_ok ha hn).2.1]
  exact equallySpaced_of_length_le_two (by simp)

theorem evenGrown_points : evenGrown.points = evenPts := by decide +kernel

theorem evenGrown_honest : Honest evenGrown := by
  refine .edit (two_honest _ _ _ _ (by norm_num) (by decide +kernel)) trivial
    (by decide +kernel) ?_
  intro _
  have : EquallySpaced evenGrown.points := by
    rw [evenGrown_points]; exact ⟨2, by norm_num [evenPts]⟩
  exact this

example (x : Ext) : (even .linear).y x = evenGrown.y x :=
  C05_extensional_partial (even_honest _) evenGrown_honest
    (by rw [even_points, evenGrown_points]) (by decide +kernel) x

/-- C05 fails for the code as it is: two curves with the same settings, the same stored points
and the same mode, one built in one go and one by appending, have different values at the
stored knot `x = 3/2` (5.5 instead of the stored 10). -/
theorem C05_negation :
    ∃ (pts : List (Pt ℚ)) (s t : Pts ℚ), Ascending pts ∧ Pts.new pts .linear false = .ok s ∧
      t.points = s.points ∧ t.interp = s.interp ∧ t.force = s.force ∧ Honest t ∧
      s.y (.fin (3 / 2)) = .ok (some (11 / 2)) ∧ t.y (.fin (3 / 2)) = .ok (some 10) := by
  refine ⟨[(0, some 0), (1, some 1), (3 / 2, some 10), (3, some 3)],
    ((blank .linear false).set [(0, some 0), (1, some 1), (3 / 2, some 10), (3, some 3)] none
      ⟨false, false⟩).st,
    ((Op.append ((3 : ℚ), some (3 : ℚ))).run
      ((Op.append ((3 / 2 : ℚ), some (10 : ℚ))).run
        ((blank .linear false).set [(0, some 0), (1, some 1)] none ⟨false, false⟩).st
        ⟨false, false⟩).st ⟨false, false⟩).st, ?_, ?_, ?_, ?_, ?_, ?_, ?_, ?_⟩
  · norm_num [Ascending]
  · have h : ((blank .linear false).set [(0, some 0), (1, some 1), (3 / 2, some 10), (3, some 3)]
      none ⟨false, false⟩ : Res ℚ).err = none := by decide +kernel
    simp [Pts.new, h]
  · decide +kernel
  · decide +kernel
  · decide +kernel
  · refine .edit (.edit (two_honest _ _ _ _ (by norm_num) (by decide +kernel)) trivial
      (by decide +kernel) ?_) trivial (by decide +kernel) ?_
    · intro h
      have hn : ((Op.append ((3 / 2 : ℚ), some (10 : ℚ))).run
        ((blank .linear false).set [(0, some 0), (1, some 1)] none ⟨false, false⟩).st
        ⟨false, false⟩).st.isUniform = false := by decide +kernel
      rw [hn] at h; cases h
    · intro h
      have hn : ((Op.append ((3 : ℚ), some (3 : ℚ))).run
        ((Op.append ((3 / 2 : ℚ), some (10 : ℚ))).run
        ((blank .linear false).set [(0, some 0), (1, some 1)] none ⟨false, false⟩).st
        ⟨false, false⟩).st ⟨false, false⟩).st.isUniform = false := by decide +kernel
      rw [hn] at h; cases h
  · decide +kernel
  · decide +kernel

/-! ## C06, C07 -/

theorem firstFrom_least {pts : List (Pt V)} (ha : Ascending pts) (a : ℚ) :
    (∃ z, firstFrom pts a = some z ∧ IsLeast {z | ∃ p ∈ pts, p.1 = z ∧ a ≤ z} z) ∨
    (firstFrom pts a = none ∧ ∀ p ∈ pts, p.1 < a) := by
  unfold firstFrom
  cases hf : pts.find? (fun p => decide (a ≤ p.1)) with
  | none =>
    right
    refine ⟨rfl, fun p hp => ?_⟩
    have := List.find?_eq_none.1 hf p hp
    simpa using this
  | some p =>
    left
    obtain ⟨h1, k, hk, hkp, hlt⟩ := List.find?_eq_some_iff_getElem.1 hf
    refine ⟨p.1, rfl, ⟨p, List.mem_of_find?_eq_some hf, rfl, by simpa using h1⟩, ?_⟩
    rintro z ⟨q, hq, rfl, hz⟩
    obtain ⟨i, hi⟩ := List.getElem?_of_mem hq
    obtain ⟨hi', rfl⟩ := List.getElem?_eq_some_iff.1 hi
    refine ha.le (by rw [List.getElem?_eq_getElem hk, hkp]) hi ?_
    by_contra hc
    have := hlt i (by omega)
    simp at this
    linarith

theorem lastUpTo_greatest {pts : List (Pt V)} (ha : Ascending pts) (a : ℚ) :
    (∃ z, lastUpTo pts a = some z ∧ IsGreatest {z | ∃ p ∈ pts, p.1 = z ∧ z ≤ a} z) ∨
    (lastUpTo pts a = none ∧ ∀ p ∈ pts, a < p.1) := by
  unfold lastUpTo
  cases hf : pts.reverse.find? (fun p => decide (p.1 ≤ a)) with
  | none =>
    right
    refine ⟨rfl, fun p hp => ?_⟩
    have := List.find?_eq_none.1 hf p (by simpa using hp)
    simpa using this
  | some p =>
    left
    obtain ⟨h1, as, bs, hab, hlt⟩ := List.find?_eq_some_iff_append.1 hf
    have hmem : p ∈ pts := by simpa using List.mem_of_find?_eq_some hf
    refine ⟨p.1, rfl, ⟨p, hmem, rfl, by simpa using h1⟩, ?_⟩
    rintro z ⟨q, hq, rfl, hz⟩
    have hq' : q ∈ pts.reverse := by simpa using hq
    rw [hab] at hq'
    have hrev : (as ++ p :: bs).Pairwise (fun x y : Pt V => y.1 < x.1) := by
      rw [← hab, List.pairwise_reverse]; exact ha
    rcases List.mem_append.1 hq' with h | h
    · have := hlt q h; simp at this; linarith
    · rcases List.mem_cons.1 h with rfl | h
      · exact le_rfl
      · have := (List.pairwise_append.1 hrev).2.1
        exact ((List.pairwise_cons.1 this).1 q h).le

theorem Honest.minStep [Lerp V] {s : Pts V} (h : Honest s) : s.minStep = none := by
  induction h with
  | new h hs _ => exact (new_ok h hs).2.2.2.2
  | edit hs hl he _ ih =>
    cases outcome hs.base hs.wf hl _ with
    | idle hs _ _ _ => rcases hs with hs | hs <;> rw [hs] <;> exact ih
    | stuck iv e he' _ h => rw [h.err, he'] at he; cases he
    | edited iv h => rw [h.minStep]; exact ih
  | read _ ih => exact ih

/-- C06: `x_next(x, m)` is the smallest stored position at or after `x + m`, `None` exactly if
there is none. -/
theorem C06_x_next [Lerp V] {s : Pts V} (h : Honest s) (x m : ℚ) :
    (∃ z, s.xNext (.fin x) (some m) = .ok (some (.fin z)) ∧
      IsLeast {z | ∃ p ∈ s.points, p.1 = z ∧ x + m ≤ z} z) ∨
    (s.xNext (.fin x) (some m) = .ok none ∧ ∀ p ∈ s.points, p.1 < x + m) := by
  have hm : resolveMinStep s.minStep (some m) = some m := by rw [Honest.minStep h]; rfl
  rw [xNext_fin h.wf hm]
  rcases firstFrom_least h.wf.asc (x + m) with ⟨z, h1, h2⟩ | ⟨h1, h2⟩
  · exact Or.inl ⟨z, by rw [h1]; rfl, h2⟩
  · exact Or.inr ⟨by rw [h1]; rfl, h2⟩

/-- C06: from `-inf` it is the first stored position, from `+inf` there is none. -/
theorem C06_x_next_inf [Lerp V] {s : Pts V} (h : Honest s) (m : ℚ) :
    s.xNext .ninf (some m) = .ok (s.points.head?.map fun p => .fin p.1) ∧
    s.xNext .pinf (some m) = .ok none :=
  xNext_inf h.wf (by rw [Honest.minStep h]; rfl)

/-- C07: `x_previous(x, m)` is the largest stored position at or before `x - m`, `None` exactly
if there is none. -/
theorem C07_x_previous [Lerp V] {s : Pts V} (h : Honest s) (x m : ℚ) :
    (∃ z, s.xPrevious (.fin x) (some m) = .ok (some (.fin z)) ∧
      IsGreatest {z | ∃ p ∈ s.points, p.1 = z ∧ z ≤ x - m} z) ∨
    (s.xPrevious (.fin x) (some m) = .ok none ∧ ∀ p ∈ s.points, x - m < p.1) := by
  have hm : resolveMinStep s.minStep (some m) = some m := by rw [Honest.minStep h]; rfl
  rw [xPrevious_fin h.wf hm]
  rcases lastUpTo_greatest h.wf.asc (x - m) with ⟨z, h1, h2⟩ | ⟨h1, h2⟩
  · exact Or.inl ⟨z, by rw [h1]; rfl, h2⟩
  · exact Or.inr ⟨by rw [h1]; rfl, h2⟩

/-- C07: from `+inf` it is the last stored position, from `-inf` there is none. -/
theorem C07_x_previous_inf [Lerp V] {s : Pts V} (h : Honest s) (m : ℚ) :
    s.xPrevious .pinf (some m) = .ok (s.points.getLast?.map fun p => .fin p.1) ∧
    s.xPrevious .ninf (some m) = .ok none :=
  xPrevious_inf h.wf (by rw [Honest.minStep h]; rfl)

example : (demo .linear).xNext (.fin 1) (some 1) = .ok (some (.fin 3)) ∧
    (demo .linear).xPrevious (.fin 3) (some 0) = .ok (some (.fin 3)) ∧
    (demo .linear).xNext (.fin 4) (some 1) = .ok none ∧
    (demo .linear).xNext .ninf (some 1) = .ok (some (.fin 0)) := by decide +kernel
example : ∀ p ∈ (demo .linear).points, p.1 < 4 + 1 := by
  rw [demo_points]; norm_num [demoPts]

/-! ## C08 -/

/-- C08: `sample_points(domain)` is the sub-list of stored points inside the domain. -/
theorem C08_sample [Lerp V] {s : Pts V} (h : Honest s) (d : Iv) :
    s.samplePlain d = .ok (s.points.filter fun p => d.contains (.fin p.1)) :=
  samplePlain_eq h.wf d

example : (demo .linear).samplePlain (Iv.openClosed 0 3) = .ok [(1, some 3), (3, none)] := by
  rw [C08_sample (demo_honest _), demo_points]
  decide +kernel
example : (even .linear).samplePlain ⟨.ninf, .fin 4, false, true⟩ =
    .ok [(0, some 1), (2, some 5)] := by
  rw [C08_sample (even_honest _), even_points]
  decide +kernel

end Props
end Curvepy
