import Verif.Props.Holes

/-!
# Property C166: averages over a length of time, over points at any distances of which some have no value
-/

namespace Curvepy
namespace Props
open Spec Pts Accum Sma

variable {m : ℚ} {u : Bool} {A : Accum} {P : List (Pt ℚ)} {per : ℚ}

/-- The first point from a position on. -/
theorem earliest_from {c : ℚ} {j : ℕ} {p : Pt ℚ} (hj : P[j]? = some p) (hp : c ≤ p.1) :
    ∃ i, ∃ o : Pt ℚ, i ≤ j ∧ P[i]? = some o ∧ c ≤ o.1 ∧ ∀ (n : ℕ) z, n < i → P[n]? = some z → z.1 < c := by
  classical
  have hex : ∃ i, ∃ o : Pt ℚ, P[i]? = some o ∧ c ≤ o.1 := ⟨j, p, hj, hp⟩
  obtain ⟨o, h1, h2⟩ := Nat.find_spec hex
  refine ⟨Nat.find hex, o, Nat.find_min' hex ⟨p, hj, hp⟩, h1, h2, ?_⟩
  intro n z hn hz
  by_contra hc
  exact Nat.find_min hex hn ⟨z, hz, not_lt.1 hc⟩

/-- The last point up to a position. -/
theorem latest_upto {c : ℚ} {j : ℕ} {p : Pt ℚ} (hj : P[j]? = some p) (hp : p.1 ≤ c) :
    ∃ i, ∃ o : Pt ℚ, j ≤ i ∧ P[i]? = some o ∧ o.1 ≤ c ∧ ∀ (n : ℕ) z, i < n → P[n]? = some z → c < z.1 := by
  classical
  let R : ℕ → Prop := fun i => ∃ e : Pt ℚ, P[i]? = some e ∧ e.1 ≤ c
  have hjl := (List.getElem?_eq_some_iff.1 hj).1
  have h0 : R j := ⟨p, hj, hp⟩
  obtain ⟨e, h1, h2⟩ := (Nat.findGreatest_spec (P := R) hjl.le h0)
  refine ⟨_, e, Nat.le_findGreatest hjl.le h0, h1, h2, ?_⟩
  intro n z hn hz
  by_contra hc
  have hnl := (List.getElem?_eq_some_iff.1 hz).1
  exact absurd (Nat.le_findGreatest (P := R) hnl.le ⟨z, hz, not_lt.1 hc⟩) (by omega)

theorem length_start {src : Pts ℚ} (h : Honest src) (hP : src.points = P) {x : ℚ} {j : ℕ} {p : Pt ℚ} (hj : P[j]? = some p)
    (hp : x - per + m ≤ p.1) (hb : ∀ (n : ℕ) z, n < j → P[n]? = some z → z.1 < x - per + m) :
    smaStart src (.period per) m x = .ok (some (.fin p.1)) := by
  subst hP
  simp only [smaStart]
  rw [honest_next h, firstFrom_eq_some h.wf.asc hj hp hb]
  rfl

theorem length_end {src : Pts ℚ} (h : Honest src) (hP : src.points = P) {x : ℚ} {i : ℕ} {e : Pt ℚ} (hi : P[i]? = some e)
    (he : e.1 ≤ x + per - m) (hb : ∀ (n : ℕ) z, i < n → P[n]? = some z → x + per - m < z.1) :
    src.xPrevious (.fin (x + per)) (some m) = .ok (some (.fin e.1)) := by
  subst hP
  rw [honest_prev h, lastUpTo_eq_some h.wf.asc hi he hb]
  rfl

/-- An average over a length of time at a point that is the last of its window. -/
theorem length_holes (hm : minStepQ ≤ m) (hw : m ≤ per) {skip seen todo : List (Pt ℚ)}
    (s0 : SmaSound (.period per) m u A skip seen todo) (hP : A.src.points = P) {i j k : ℕ} (hjk : j < k) {o p q : Pt ℚ}
    (hi : P[i]? = some o) (hj : P[j]? = some p) (hk : P[k]? = some q) (ho : p.1 - per + m ≤ o.1)
    (hob : ∀ (n : ℕ) z, n < i → P[n]? = some z → z.1 < p.1 - per + m) (hp : q.1 - per + m ≤ p.1)
    (hpb : ∀ (n : ℕ) z, n < j → P[n]? = some z → z.1 < q.1 - per + m)
    (hnext : ∀ r, P[k + 1]? = some r → p.1 + per - m < r.1) (fuel : ℕ) :
    ∃ out s, smaY (.period per) (fuel + 1) A (.fin q.1) = some out ∧ Ok (.period per) m u P out.st ∧ s ≤ i ∧
      (seen = [] → s = i) ∧
      out.res = .ok (if Valued (stretch P s j) then some (partArea (stretch P j k) / (q.1 - p.1)) else none) := by
  have hlk := (List.getElem?_eq_some_iff.1 hk).1
  have hasc : Ascending P := by rw [← hP]; exact s0.src.wf.asc
  have h0 : P[0]? = some P[0] := List.getElem?_eq_getElem _
  have hz : P[P.length - 1]? = some P[P.length - 1] := List.getElem?_eq_getElem _
  have hafter : ∀ (n : ℕ) z, k < n → P[n]? = some z → p.1 + per - m < z.1 := by
    intro n z hn hz
    have hnl := (List.getElem?_eq_some_iff.1 hz).1
    have h1 : P[k + 1]? = some P[k + 1] := List.getElem?_eq_getElem _
    exact lt_of_lt_of_le (hnext _ h1) (hasc.le h1 hz (by omega))
  refine smaY_holes hm (show Fits m (.period per) from hw) s0 hP hjk hi hj hk ?_ (fun s hs hp' => length_start hs hp' hi ho hob)
    (fun s hs hp' => length_start hs hp' hj hp hpb) ?_ fuel
  · obtain ⟨c, y, _, hc, hcle, hcb⟩ := latest_upto (c := (P[0]).1 + per - m) h0 (by linarith)
    have h0p : (P[0]).1 ≤ p.1 := hasc.le h0 hj (by omega)
    have hck : c ≤ k := by
      by_contra hc'
      have := hafter c y (by omega) hc
      linarith
    have hcl := (List.getElem?_eq_some_iff.1 hc).1
    have hdv := getDomain_ends (pts := P) h0 hz
    have hee := getDomain_not_isEmpty hasc (List.ne_nil_of_mem (List.mem_of_getElem? hk))
    have hle : y.1 ≤ (P[P.length - 1]).1 := hasc.le hc hz (by omega)
    refine ⟨Iv.closed y.1 (P[P.length - 1]).1, ?_, ?_⟩
    · unfold smaDomain
      rw [s0.src.wf.domVal, hP, hee, hdv]
      simp only [Iv.closed, Bool.false_eq_true, if_false, length_end s0.src hP hc hcle hcb, domainFrom, add_sub_cancel, not_lt.2 hle]
    · have e1 := hasc.le hc hk hck
      have e2 := hasc.le hk hz (by omega)
      simp [Iv.contains_closed, e1, e2]
  · intro s hs hp'
    simp only [smaEnd]
    exact length_end hs hp' hk (by linarith) hafter

/-- C166: an average over a length of time, over points at any distances, after any history. At a point that is the last of its
window it is what is counted of the area divided by the length of the window, if a point up to the first of the window has a value
among those looked at so far. -/
theorem C166_length_partial (hm : minStepQ ≤ m) (hw : m ≤ per) (h : Averaging (.period per) m u A) {j k : ℕ} (hjk : j < k)
    {p q : Pt ℚ} (hj : A.src.points[j]? = some p) (hk : A.src.points[k]? = some q) (hp : q.1 - per + m ≤ p.1)
    (hpb : ∀ (n : ℕ) z, n < j → A.src.points[n]? = some z → z.1 < q.1 - per + m)
    (hnext : ∀ r, A.src.points[k + 1]? = some r → p.1 + per - m < r.1) (fuel : ℕ) :
    ∃ s ≤ j, (∀ (n : ℕ) z, n < s → A.src.points[n]? = some z → z.1 < p.1 - per + m) ∧
      (smaY (.period per) (fuel + 1) A (.fin q.1)).map Out.res =
        some (.ok (if Valued (stretch A.src.points s j) then some (partArea (stretch A.src.points j k) / (q.1 - p.1)) else none)) := by
  obtain ⟨_, skip, seen, todo, s0⟩ := averaging_ok hm (show Fits m (.period per) from hw) h
  obtain ⟨i, o, hij, hi, ho, hob⟩ := earliest_from (c := p.1 - per + m) hj (by linarith)
  obtain ⟨out, s, h1, _, h2, _, h3⟩ := length_holes hm hw s0 rfl hjk hi hj hk ho hob hp hpb hnext fuel
  exact ⟨s, by omega, fun n z hn hz => hob n z (by omega) hz, by rw [h1, Option.map_some, h3]⟩

/-- C166: if the first point of the window has a value, there is an average, and it does not depend on what was asked before. -/
theorem C166_length_value_partial (hm : minStepQ ≤ m) (hw : m ≤ per) (h : Averaging (.period per) m u A) {j k : ℕ} (hjk : j < k)
    {p q : Pt ℚ} (hj : A.src.points[j]? = some p) (hk : A.src.points[k]? = some q) (hp : q.1 - per + m ≤ p.1)
    (hpb : ∀ (n : ℕ) z, n < j → A.src.points[n]? = some z → z.1 < q.1 - per + m)
    (hnext : ∀ r, A.src.points[k + 1]? = some r → p.1 + per - m < r.1) {y : ℚ} (hy : p.2 = some y) (fuel : ℕ) :
    (smaY (.period per) (fuel + 1) A (.fin q.1)).map Out.res =
      some (.ok (some (partArea (stretch A.src.points j k) / (q.1 - p.1)))) := by
  obtain ⟨s, hs, _, h1⟩ := C166_length_partial hm hw h hjk hj hk hp hpb hnext fuel
  rw [h1, if_pos]
  unfold stretch Valued
  rw [List.any_eq_true]
  refine ⟨p, ?_, by rw [hy]; rfl⟩
  refine List.mem_of_getElem? (i := j - s) ?_
  rw [List.getElem?_drop, List.getElem?_take_of_lt (by omega), show s + (j - s) = j by omega, hj]

/-- C166: of an average that has just been made: the points looked at are those of the window of the first point of the window. -/
theorem C166_length_fresh_partial (hm : minStepQ ≤ m) (hw : m ≤ per) {src : Pts ℚ} (hs : Honest src) (hf : AllFit m u src.points)
    (h : Sma.new src (.period per) m u = .ok A) {i j k : ℕ} (hjk : j < k) {o p q : Pt ℚ} (hi : src.points[i]? = some o)
    (hj : src.points[j]? = some p) (hk : src.points[k]? = some q) (ho : p.1 - per + m ≤ o.1)
    (hob : ∀ (n : ℕ) z, n < i → src.points[n]? = some z → z.1 < p.1 - per + m) (hp : q.1 - per + m ≤ p.1)
    (hpb : ∀ (n : ℕ) z, n < j → src.points[n]? = some z → z.1 < q.1 - per + m)
    (hnext : ∀ r, src.points[k + 1]? = some r → p.1 + per - m < r.1) (fuel : ℕ) :
    (smaY (.period per) (fuel + 1) A (.fin q.1)).map Out.res =
      some (.ok (if Valued (stretch src.points i j) then some (partArea (stretch src.points j k) / (q.1 - p.1)) else none)) := by
  unfold Sma.new at h
  split at h
  · cases h
    obtain ⟨out, s, h1, _, h2, h3, h4⟩ :=
      length_holes hm hw (SmaSound.new (w := .period per) hs hf) rfl hjk hi hj hk ho hob hp hpb hnext fuel
    rw [h1, Option.map_some, h4, h3 rfl]
    rfl
  · cases h

/-- C166: it lies between the values, in the part of the window that is counted. -/
theorem C166_length_bounds_partial (hm : minStepQ ≤ m) (hw : m ≤ per) (h : Averaging (.period per) m u A) {j k : ℕ} (hjk : j < k)
    {p q : Pt ℚ} {v lo hi : ℚ} (hj : A.src.points[j]? = some p) (hk : A.src.points[k]? = some q) (hp : q.1 - per + m ≤ p.1)
    (hpb : ∀ (n : ℕ) z, n < j → A.src.points[n]? = some z → z.1 < q.1 - per + m)
    (hnext : ∀ r, A.src.points[k + 1]? = some r → p.1 + per - m < r.1) (fuel : ℕ)
    (hv : (smaY (.period per) (fuel + 1) A (.fin q.1)).map Out.res = some (.ok (some v)))
    (hb : ∀ x y, (x, some y) ∈ stretch A.src.points j k → lo ≤ y ∧ y ≤ hi) :
    let part := coveredBy (stretch A.src.points j k) / (q.1 - p.1)
    0 ≤ part ∧ part ≤ 1 ∧ lo * part ≤ v ∧ v ≤ hi * part := by
  intro part
  obtain ⟨_, skip, seen, todo, s0⟩ := averaging_ok hm (show Fits m (.period per) from hw) h
  have hasc := s0.src.wf.asc
  have hlt : 0 < q.1 - p.1 := sub_pos.2 (hasc.lt hj hk hjk)
  obtain ⟨s, _, _, h1⟩ := C166_length_partial hm hw h hjk hj hk hp hpb hnext fuel
  rw [hv] at h1
  have hv' : v = partArea (stretch A.src.points j k) / (q.1 - p.1) := by
    split at h1
    · simpa using h1
    · simp at h1
  have hsub : Ascending (stretch A.src.points j k) :=
    List.Pairwise.sublist ((List.drop_sublist _ _).trans (List.take_sublist _ _)) hasc
  obtain ⟨b1, b2, b3, b4⟩ := partArea_bounds _ hsub hb
  rw [stretch_apart hjk.le hj hk] at b4
  refine ⟨div_nonneg b3 hlt.le, (div_le_one hlt).2 b4, ?_, ?_⟩
  · rw [hv', ← mul_div_assoc]; exact div_le_div_of_nonneg_right b1 hlt.le
  · rw [hv', ← mul_div_assoc]; exact div_le_div_of_nonneg_right b2 hlt.le

/-! ## An instance of each theorem -/

/-- Points at unequal distances, with values missing. -/
def rareList : List (Pt ℚ) := [(0, some 4), (1, none), (3, some 6), (13/2, some 2), (7, none), (12, some 8)]

theorem loose_rare : (loose rareList).points = rareList := by decide +kernel

theorem rare_honest : Honest (loose rareList) := by
  have h1 : ((Pts.blank .linear false).set rareList none Accum.quiet).err = none := by decide +kernel
  refine .new (pts := rareList) (i := .linear) (u := false) (by norm_num [Ascending, rareList]) ?_ ?_
  · have h' : ((blank .linear false).set rareList none ⟨false, false⟩).err = none := h1
    simp [Pts.new, h', loose, quiet]
  · intro hu
    have h3 : (loose rareList).isUniform = false := by decide +kernel
    simp [h3] at hu

theorem rare_fit : AllFit (1/100) false (loose rareList).points := by
  rw [loose_rare]
  exact allFit_of_gaps (by norm_num [Gapped, rareList]) (by decide +kernel)

theorem rare_averaging : Averaging (.period 5) (1/100) false (smaOver rareList (1/100) false) :=
  .new rare_honest rare_fit (by rw [Sma.new, if_pos (by decide +kernel), smaOver])

theorem rare_points : (smaOver rareList (1/100) false).src.points = rareList := by decide +kernel

/-- Over the length `5` the window at `7` begins at `3`. -/
theorem rare_window : ∀ (n : ℕ) z, n < 2 → rareList[n]? = some z → z.1 < (7 : ℚ) - 5 + 1/100 := by
  intro n z hn hz
  match n, hn with
  | 0, _ => cases hz; norm_num
  | 1, _ => cases hz; norm_num

/-- Only the area from `3` to `13/2` counts, `14`, over the length `4`. -/
example : (smaY (.period 5) 1 (smaOver rareList (1/100) false) (.fin 7)).map Out.res = some (.ok (some (14/4))) := by
  have := C166_length_value_partial (j := 2) (k := 4) (p := (3, some 6)) (q := (7, none)) (y := 6) (by norm_num [minStepQ]) (by norm_num)
    rare_averaging (by norm_num) (by rw [rare_points]; rfl) (by rw [rare_points]; rfl) (by norm_num)
    (by rw [rare_points]; exact rare_window) (by rw [rare_points]; intro r hr; cases hr; norm_num) rfl 0
  rw [this, rare_points]
  norm_num [stretch, rareList, partArea, jointArea]

/-- The bounds: an eighth of the window is not counted. -/
example : coveredBy (stretch rareList 2 4) / (7 - 3) = 7/8 ∧ 2 * (7/8 : ℚ) ≤ 14/4 ∧ (14/4 : ℚ) ≤ 6 * (7/8) := by
  norm_num [stretch, rareList, coveredBy]

example {v : ℚ} (hv : (smaY (.period 5) 1 (smaOver rareList (1/100) false) (.fin 7)).map Out.res = some (.ok (some v))) :
    2 * (7/8 : ℚ) ≤ v ∧ v ≤ 6 * (7/8) := by
  have := C166_length_bounds_partial (j := 2) (k := 4) (p := (3, some 6)) (q := (7, none)) (lo := 2) (hi := 6) (by norm_num [minStepQ])
    (by norm_num) rare_averaging (by norm_num) (by rw [rare_points]; rfl) (by rw [rare_points]; rfl) (by norm_num)
    (by rw [rare_points]; exact rare_window) (by rw [rare_points]; intro r hr; cases hr; norm_num) 0 hv
    (by
      rw [rare_points]
      intro x y h
      simp [stretch, rareList] at h
      rcases h with ⟨_, rfl⟩ | ⟨_, rfl⟩ <;> norm_num)
  rw [rare_points] at this
  have e : coveredBy (stretch rareList 2 4) / (7 - 3) = 7/8 := by norm_num [stretch, rareList, coveredBy]
  simp only [e] at this
  exact ⟨this.2.2.1, this.2.2.2⟩

/-- A window that begins with a missing value and ends with the value `6`: nothing of it is counted, the average is `0`. -/
example : (smaY (.period (5/2)) 1 (smaOver rareList (1/100) false) (.fin 3)).map Out.res = some (.ok (some 0)) := by
  have := C166_length_fresh_partial (A := smaOver rareList (1/100) false) (per := 5/2) (i := 0) (j := 1) (k := 2) (o := (0, some 4))
    (p := (1, none)) (q := (3, some 6)) (by norm_num [minStepQ]) (by norm_num) rare_honest rare_fit
    (by rw [Sma.new, if_pos (by decide +kernel), smaOver]) (by norm_num) (by rw [loose_rare]; rfl) (by rw [loose_rare]; rfl)
    (by rw [loose_rare]; rfl) (by norm_num) (by intro n z hn; omega) (by norm_num)
    (by
      rw [loose_rare]
      intro n z hn hz
      obtain rfl : n = 0 := by omega
      cases hz
      norm_num)
    (by rw [loose_rare]; intro r hr; cases hr; norm_num) 0
  rw [this, loose_rare]
  norm_num [stretch, rareList, partArea, jointArea, Valued]

end Props
end Curvepy
