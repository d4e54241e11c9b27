import Verif.Model.OffsetDuration
import Verif.Model.Sampling
import Verif.Spec.Combine
import Verif.Lemmas.Interval
import Mathlib.Tactic.Ring
import Mathlib.Tactic.FieldSimp
import Mathlib.Algebra.Order.Floor.Ring

/-!
# Offsets by a number of periods (C101-C106)
-/

namespace Curvepy.Spec

/-- The value on the straight line from `(s, a)` to `(e, b)`. -/
def onSegment (s e a b x : ℚ) : ℚ := a + (b - a) * ((x - s) / (e - s))

/-- The position is the beginning of a period, or infinite. -/
def Boundary (D : Dur) : Ext → Prop
  | .fin q => ∃ k, q = D.start k
  | _ => True

/-- Both ends of the interval belong to it and are boundaries. -/
def Whole (D : Dur) (d : Iv) : Prop :=
  d.isEmpty = false ∧ d.loOpen = false ∧ d.hiOpen = false ∧ Boundary D d.lo ∧ Boundary D d.hi

end Curvepy.Spec

namespace Curvepy.Props
open Spec Crv

/-! ## The contract -/

theorem Dur.period_eq (D : Dur) {k : ℤ} {q : ℚ} (h0 : D.start k ≤ q) (h1 : q < D.start (k + 1)) : D.period q = k := by
  have a := D.mono.lt_iff_lt.1 (lt_of_le_of_lt (D.start_le q) h1)
  have b := D.mono.lt_iff_lt.1 (lt_of_le_of_lt h0 (D.lt_next q))
  omega

theorem Dur.lt_succ (D : Dur) (k : ℤ) : D.start k < D.start (k + 1) := D.mono (by omega)

@[simp] theorem Dur.period_start (D : Dur) (k : ℤ) : D.period (D.start k) = k :=
  Dur.period_eq D le_rfl (Dur.lt_succ D k)

@[simp] theorem Dur.above_start (D : Dur) (k : ℤ) : D.above (D.start k) = k := by simp [Dur.above]

theorem Dur.above_within (D : Dur) {k : ℤ} {q : ℚ} (h0 : D.start k < q) (h1 : q < D.start (k + 1)) :
    D.above q = k + 1 := by
  have h := Dur.period_eq D h0.le h1
  simp [Dur.above, h, h0.ne]

/-- Every position is a boundary or within a period. -/
theorem Dur.cases (D : Dur) (q : ℚ) : (∃ k, q = D.start k) ∨ ∃ k, D.start k < q ∧ q < D.start (k + 1) := by
  rcases eq_or_lt_of_le (D.start_le q) with h | h
  · exact .inl ⟨_, h.symm⟩
  · exact .inr ⟨_, h, D.lt_next q⟩

@[simp] theorem shift_start (D : Dur) (n : ℤ) (b : Bool) (k : ℤ) :
    D.shift n b (.fin (D.start k)) = .fin (D.start (k + n)) := by
  by_cases hn : n = 0
  · simp [Dur.shift, Dur.resStep, hn]
  · cases b <;> simp [Dur.shift, Dur.resStep, hn, Dur.step, Dur.floor, Dur.ceil]

theorem shift_floor (D : Dur) {n : ℤ} (hn : n ≠ 0) {k : ℤ} {q : ℚ} (h0 : D.start k < q) (h1 : q < D.start (k + 1)) :
    D.shift n true (.fin q) = .fin (D.start (k + n)) := by
  simp [Dur.shift, Dur.resStep, hn, Dur.step, Dur.floor, Dur.period_eq D h0.le h1]

theorem shift_ceil (D : Dur) {n : ℤ} (hn : n ≠ 0) {k : ℤ} {q : ℚ} (h0 : D.start k < q) (h1 : q < D.start (k + 1)) :
    D.shift n false (.fin q) = .fin (D.start (k + 1 + n)) := by
  simp [Dur.shift, Dur.resStep, hn, Dur.step, Dur.ceil, Dur.above_within D h0 h1]

@[simp] theorem shift_zero (D : Dur) (b : Bool) (x : Ext) : D.shift 0 b x = x := by
  cases x <;> simp [Dur.shift, Dur.resStep]

/-! ## Two durations -/

/-- Periods of one second. -/
def unitDur : Dur where
  start k := k
  period q := ⌊q⌋
  mono := Int.cast_strictMono
  start_le := Int.floor_le
  lt_next q := by push_cast; exact Int.lt_floor_add_one q

/-- Periods of 20 hours that begin anew each day, in hours (`test/offset_test.py:195-218`). -/
def unevenDur : Dur where
  start k := if k % 2 = 0 then 24 * ((k / 2 : ℤ) : ℚ) else 24 * ((k / 2 : ℤ) : ℚ) + 20
  period q := if q - 24 * ⌊q / 24⌋ < 20 then 2 * ⌊q / 24⌋ else 2 * ⌊q / 24⌋ + 1
  mono := by
    apply strictMono_int_of_lt_succ
    intro k
    rcases Int.emod_two_eq_zero_or_one k with h | h
    · have h1 : (k + 1) % 2 = 1 := by omega
      have h2 : (k + 1) / 2 = k / 2 := by omega
      simp [h, h1, h2]
    · have h1 : (k + 1) % 2 = 0 := by omega
      have h2 : (k + 1) / 2 = k / 2 + 1 := by omega
      simp only [h, h1, h2]
      push_cast
      linarith
  start_le q := by
    have h := Int.floor_le (q / 24)
    have h' : ((⌊q / 24⌋ : ℤ) : ℚ) * 24 ≤ q := by rwa [le_div_iff₀ (by norm_num)] at h
    split
    · simp; linarith
    · rename_i hc
      have h1 : (2 * ⌊q / 24⌋ + 1) % 2 = 1 := by omega
      have h2 : (2 * ⌊q / 24⌋ + 1) / 2 = ⌊q / 24⌋ := by omega
      simp only [h1, h2]
      norm_num
      linarith
  lt_next q := by
    have h := Int.lt_floor_add_one (q / 24)
    have h' : q < ((⌊q / 24⌋ : ℤ) + 1 : ℚ) * 24 := by rwa [div_lt_iff₀ (by norm_num)] at h
    split
    · have h1 : (2 * ⌊q / 24⌋ + 1) % 2 = 1 := by omega
      have h2 : (2 * ⌊q / 24⌋ + 1) / 2 = ⌊q / 24⌋ := by omega
      simp only [h1, h2]
      norm_num
      linarith
    · have h1 : (2 * ⌊q / 24⌋ + 1 + 1) % 2 = 0 := by omega
      have h2 : (2 * ⌊q / 24⌋ + 1 + 1) / 2 = ⌊q / 24⌋ + 1 := by omega
      simp only [h1, h2]
      push_cast
      linarith

/-! ## C101 Values -/

/-- **C101** At the beginning of a period the value is that of the curve at the beginning of the period `n` before. -/
theorem C101_boundary (c : Crv) (D : Dur) (n k : ℤ) :
    (c.offsetBy D n).y (.fin (D.start (k + n))) =
      if c.dom.contains (.fin (D.start k)) then c.y (.fin (D.start k)) else .ok none := by
  have e : k + n + -n = k := by omega
  simp only [offsetBy, Dur.interpolated, shift_start, e]
  by_cases h : c.dom.contains (.fin (D.start k)) = true
  · simp [h]
  · simp [h, pure, Except.pure]

theorem within_y (c : Crv) (D : Dur) {n : ℤ} (hn : n ≠ 0) {k : ℤ} {x : ℚ} (h0 : D.start (k + n) < x)
    (h1 : x < D.start (k + 1 + n)) (f : Ext → Except Err (Option Num)) :
    D.interpolated c.dom n f (.fin x) =
      if c.dom.contains (.fin (D.start k)) && c.dom.contains (.fin (D.start (k + 1))) then do
        let y0 ← f (.fin (D.start k))
        let y1 ← f (.fin (D.start (k + 1)))
        match y0, y1 with
        | some a, some b =>
          let u := (x - D.start (k + n)) / (D.start (k + 1 + n) - D.start (k + n))
          pure (some ((a.mul (.fin (1 - u))).add (b.mul (.fin u))))
        | _, _ => pure none
      else .ok none := by
  have hm : -n ≠ 0 := by omega
  have h1' : x < D.start (k + n + 1) := by rwa [show k + n + 1 = k + 1 + n by omega]
  have e0 : k + n + -n = k := by omega
  have e1 : k + n + 1 + -n = k + 1 := by omega
  have hne : D.start k ≠ D.start (k + 1) := (Dur.lt_succ D k).ne
  have hlen : D.start (k + 1 + n) - D.start (k + n) ≠ 0 := by linarith
  simp only [Dur.interpolated, shift_floor D hm h0 h1', shift_ceil D hm h0 h1', e0, e1, shift_start]
  by_cases a : c.dom.contains (.fin (D.start k)) = true
  · by_cases b : c.dom.contains (.fin (D.start (k + 1))) = true
    · simp only [a, b, Bool.not_true, Bool.or_self, Bool.false_eq_true, if_false, Bool.and_self, if_true, Ext.fin.injEq,
        hne]
      cases hy0 : f (.fin (D.start k)) with
      | error e => rfl
      | ok y0 =>
        cases hy1 : f (.fin (D.start (k + 1))) with
        | error e => rfl
        | ok y1 => cases y0 <;> cases y1 <;> simp [bind, Except.bind, hlen]
    · simp [a, b, pure, Except.pure]
  · simp [a, pure, Except.pure]

/-- **C101** Within a period the value is on the straight line between the values at both ends of the period. -/
theorem C101_between (c : Crv) (D : Dur) {n : ℤ} (hn : n ≠ 0) {k : ℤ} {x : ℚ} (h0 : D.start (k + n) < x)
    (h1 : x < D.start (k + 1 + n)) (d0 : c.dom.contains (.fin (D.start k)) = true)
    (d1 : c.dom.contains (.fin (D.start (k + 1))) = true) {a b : ℚ}
    (ha : c.y (.fin (D.start k)) = .ok (some (.fin a))) (hb : c.y (.fin (D.start (k + 1))) = .ok (some (.fin b))) :
    (c.offsetBy D n).y (.fin x) = .ok (some (.fin (onSegment (D.start (k + n)) (D.start (k + 1 + n)) a b x))) := by
  simp only [offsetBy, within_y c D hn h0 h1, d0, d1, Bool.and_self, if_true, ha, hb, bind, Except.bind, pure, Except.pure,
    Num.mul, Num.add, onSegment]
  congr 3
  ring

/-- **C101** Within a period there is no value if the curve has none at one of the two ends. -/
theorem C101_missing (c : Crv) (D : Dur) {n : ℤ} (hn : n ≠ 0) {k : ℤ} {x : ℚ} (h0 : D.start (k + n) < x)
    (h1 : x < D.start (k + 1 + n)) {a b : Option Num} (ha : c.y (.fin (D.start k)) = .ok a)
    (hb : c.y (.fin (D.start (k + 1))) = .ok b)
    (h : c.dom.contains (.fin (D.start k)) = false ∨ c.dom.contains (.fin (D.start (k + 1))) = false ∨ a = none ∨ b = none) :
    (c.offsetBy D n).y (.fin x) = .ok none := by
  simp only [offsetBy, within_y c D hn h0 h1, ha, hb, bind, Except.bind, pure, Except.pure]
  rcases h with h | h | h | h
  · simp [h]
  · simp [h]
  · simp [h]
  · cases a <;> simp [h]

/-- **C101** The offset by no period has the values of the curve. -/
theorem C101_zero (c : Crv) (hc : Respects c) (D : Dur) : SameValues (c.offsetBy D 0) c := by
  constructor
  · intro x; simp [offsetBy, Dur.shiftInterval]
  · intro x
    simp only [offsetBy, Dur.interpolated, neg_zero, shift_zero, Bool.or_self, if_true]
    by_cases h : c.dom.contains x = true
    · simp [h]
    · simp only [Bool.not_eq_true] at h
      simp [h, hc x h, pure, Except.pure]

/-- The values 1, 2, 3 at the first three boundaries, straight lines in between. -/
def threeUneven : Crv := generic
  (fun x => match x with
    | .fin q => .ok (if 0 ≤ q ∧ q ≤ 24 then some (.fin (if q ≤ 20 then 1 + q / 20 else 2 + (q - 20) / 4)) else none)
    | _ => .ok none) (.closed 0 24)

example : (threeUneven.offsetBy unevenDur 1).y (.fin 22) = .ok (some (.fin (3 / 2))) ∧
    (threeUneven.offsetBy unevenDur 1).y (.fin 34) = .ok (some (.fin (5 / 2))) ∧
    (threeUneven.offsetBy unevenDur 1).y (.fin 19) = .ok none ∧
    (threeUneven.offsetBy unevenDur 1).y (.fin (89 / 2)) = .ok none ∧
    (threeUneven.offsetBy unevenDur 1).y (.fin 24) = .ok (some (.fin 2)) := by
  decide +kernel

/-! ## C102 Domain -/

theorem shift_mono (D : Dur) {a b : Ext} (n : ℤ) (ha : Boundary D a) (hb : Boundary D b) :
    D.shift n false a ≤ D.shift n false b ↔ a ≤ b := by
  cases a with
  | fin p =>
    obtain ⟨i, rfl⟩ := ha
    cases b with
    | fin q =>
      obtain ⟨j, rfl⟩ := hb
      simp [D.mono.le_iff_le]
    | _ => simp [Dur.shift]
  | _ => cases b <;> simp [Dur.shift]

theorem whole_contains {D : Dur} {d : Iv} (h : Whole D d) (x : Ext) : d.contains x = true ↔ d.lo ≤ x ∧ x ≤ d.hi := by
  obtain ⟨he, hl, hh, _, _⟩ := h
  simp [Iv.contains, he, Iv.geLo, Iv.leHi, hl, hh]

theorem boundary_shift (D : Dur) {a : Ext} (n : ℤ) (ha : Boundary D a) : Boundary D (D.shift n false a) := by
  cases a with
  | fin p =>
    obtain ⟨i, rfl⟩ := ha
    rw [shift_start]
    exact ⟨_, rfl⟩
  | _ => trivial

/-- A shifted interval of whole periods is one. -/
theorem whole_shift {D : Dur} {d : Iv} (h : Whole D d) (n : ℤ) : Whole D (D.shiftInterval n d) := by
  obtain ⟨he, hl, hh, bl, bh⟩ := h
  refine ⟨?_, hl, hh, boundary_shift D n bl, boundary_shift D n bh⟩
  have hle : d.lo ≤ d.hi := by
    simp only [Iv.isEmpty, hl, hh, Bool.or_self, Bool.and_false, Bool.or_false, decide_eq_false_iff_not, not_lt] at he
    exact he
  simp only [Iv.isEmpty, Dur.shiftInterval, hl, hh, Bool.or_self, Bool.and_false, Bool.or_false,
    decide_eq_false_iff_not, not_lt]
  exact (shift_mono D n bl bh).2 hle

/-- Shifting back by the opposite number. -/
theorem shift_back (D : Dur) {a : Ext} (n : ℤ) (ha : Boundary D a) : D.shift (-n) false (D.shift n false a) = a := by
  cases a with
  | fin p =>
    obtain ⟨i, rfl⟩ := ha
    simp
  | _ => rfl

theorem start_in_shift {D : Dur} {d : Iv} (h : Whole D d) (n k : ℤ) :
    (D.shiftInterval n d).contains (.fin (D.start (k + n))) = d.contains (.fin (D.start k)) := by
  rw [Bool.eq_iff_iff, whole_contains (whole_shift h n), whole_contains h]
  have hb : Boundary D (.fin (D.start k)) := ⟨k, rfl⟩
  rw [← shift_start D n false k]
  exact and_congr (shift_mono D n h.2.2.2.1 hb) (shift_mono D n hb h.2.2.2.2)

/-- A boundary is before a position in a period exactly if it is not after the beginning of the period. -/
theorem boundary_le {D : Dur} {a : Ext} (ha : Boundary D a) {k : ℤ} {x : ℚ} (h0 : D.start k < x)
    (h1 : x < D.start (k + 1)) : a ≤ .fin x ↔ a ≤ .fin (D.start k) := by
  cases a with
  | fin p =>
    obtain ⟨i, rfl⟩ := ha
    simp only [Ext.fin_le_fin]
    constructor
    · intro h
      have := D.mono.lt_iff_lt.1 (lt_of_le_of_lt h h1)
      exact D.mono.monotone (by omega)
    · intro h; linarith
  | _ => simp

theorem le_boundary {D : Dur} {a : Ext} (ha : Boundary D a) {k : ℤ} {x : ℚ} (h0 : D.start k < x)
    (h1 : x < D.start (k + 1)) : .fin x ≤ a ↔ .fin (D.start (k + 1)) ≤ a := by
  cases a with
  | fin p =>
    obtain ⟨i, rfl⟩ := ha
    simp only [Ext.fin_le_fin]
    constructor
    · intro h
      have := D.mono.lt_iff_lt.1 (lt_of_lt_of_le h0 h)
      exact D.mono.monotone (by omega)
    · intro h; linarith
  | _ => simp

theorem within_in {D : Dur} {d : Iv} (h : Whole D d) {k : ℤ} {x : ℚ} (h0 : D.start k < x) (h1 : x < D.start (k + 1)) :
    d.contains (.fin x) = (d.contains (.fin (D.start k)) && d.contains (.fin (D.start (k + 1)))) := by
  rw [Bool.eq_iff_iff, Bool.and_eq_true, whole_contains h, whole_contains h, whole_contains h,
    boundary_le h.2.2.2.1 h0 h1, le_boundary h.2.2.2.2 h0 h1]
  have hlt : Ext.fin (D.start k) < .fin (D.start (k + 1)) := by simpa using Dur.lt_succ D k
  constructor
  · rintro ⟨a, b⟩
    exact ⟨⟨a, hlt.le.trans b⟩, a.trans hlt.le, b⟩
  · rintro ⟨⟨a, _⟩, _, b⟩
    exact ⟨a, b⟩

/-- **C102** (partial) If the domain of the curve consists of whole periods and the curve has values there, the domain of
the offset curve tells where it has values.  Missing: other domains. -/
theorem C102_partial (c : Crv) (D : Dur) (n : ℤ) (hw : Whole D c.dom)
    (hv : ∀ x, c.dom.contains x = true → ∃ v, c.y x = .ok (some v)) (x : ℚ) :
    if (c.offsetBy D n).dom.contains (.fin x) then ∃ v, (c.offsetBy D n).y (.fin x) = .ok (some v)
    else (c.offsetBy D n).y (.fin x) = .ok none := by
  by_cases hn : n = 0
  · subst hn
    have : (c.offsetBy D 0).dom.contains (.fin x) = c.dom.contains (.fin x) := by simp [offsetBy, Dur.shiftInterval]
    rw [this]
    simp only [offsetBy, Dur.interpolated, neg_zero, shift_zero, Bool.or_self, if_true]
    by_cases h : c.dom.contains (.fin x) = true
    · simpa [h] using hv _ h
    · simp [h, pure, Except.pure]
  · rcases Dur.cases D x with ⟨k, rfl⟩ | ⟨k, h0, h1⟩
    · obtain ⟨j, rfl⟩ : ∃ j, k = j + n := ⟨k - n, by omega⟩
      rw [C101_boundary]
      have : (c.offsetBy D n).dom.contains (.fin (D.start (j + n))) = c.dom.contains (.fin (D.start j)) :=
        start_in_shift hw n j
      rw [this]
      by_cases h : c.dom.contains (.fin (D.start j)) = true
      · simpa [h] using hv _ h
      · simp [h]
    · obtain ⟨j, rfl⟩ : ∃ j, k = j + n := ⟨k - n, by omega⟩
      have h1' : x < D.start (j + 1 + n) := by rwa [show j + 1 + n = j + n + 1 by omega]
      have : (c.offsetBy D n).dom.contains (.fin x) =
          (c.dom.contains (.fin (D.start j)) && c.dom.contains (.fin (D.start (j + 1)))) := by
        show (D.shiftInterval n c.dom).contains _ = _
        rw [within_in (whole_shift hw n) h0 h1, start_in_shift hw, show j + n + 1 = j + 1 + n by omega,
          start_in_shift hw]
      rw [this]
      simp only [offsetBy, within_y c D hn h0 h1']
      by_cases h : (c.dom.contains (.fin (D.start j)) && c.dom.contains (.fin (D.start (j + 1)))) = true
      · simp only [h, if_true]
        rw [Bool.and_eq_true] at h
        obtain ⟨a, ha⟩ := hv _ h.1
        obtain ⟨b, hb⟩ := hv _ h.2
        simp [ha, hb, bind, Except.bind, pure, Except.pure]
      · simp [h]

/-- A curve with the value 1 on an interval. -/
def flatOn (d : Iv) : Crv := generic (fun x => .ok (if d.contains x then some (.fin 1) else none)) d

example : Whole unitDur (flatOn (.closed 0 3)).dom ∧
    (∀ x, (flatOn (.closed 0 3)).dom.contains x = true → ∃ v, (flatOn (.closed 0 3)).y x = .ok (some v)) ∧
    ((flatOn (.closed 0 3)).offsetBy unitDur 2).dom = .closed 2 5 := by
  refine ⟨⟨by decide +kernel, rfl, rfl, ⟨0, by simp [unitDur]⟩, ⟨3, by simp [unitDur]⟩⟩, ?_,
    by decide +kernel⟩
  intro x hx
  refine ⟨.fin 1, ?_⟩
  have : (Iv.closed 0 3).contains x = true := hx
  simp [flatOn, generic, this]

/-- **C102** (negation) If the domain of the curve ends within a period, the domain of the offset curve ends where it has no
value; if it is open, the offset curve has no values in the first period. -/
theorem C102_negation :
    (((flatOn (.closed 0 (7 / 2))).offsetBy unitDur 1).dom.contains (.fin 5) = true ∧
      ((flatOn (.closed 0 (7 / 2))).offsetBy unitDur 1).y (.fin 5) = .ok none) ∧
    (((flatOn (.openClosed 0 3)).offsetBy unitDur 1).dom.contains (.fin (3 / 2)) = true ∧
      ((flatOn (.openClosed 0 3)).offsetBy unitDur 1).y (.fin (3 / 2)) = .ok none) := by
  decide +kernel

/-! ## C103 Offsets of offsets -/

/-- **C103** (partial) Offsets by numbers of periods add up, if the domain consists of whole periods and neither the second
number nor the sum is 0.  Missing: the opposite offset (`C103_negation`), other domains. -/
theorem C103_partial (c : Crv) (D : Dur) {n m : ℤ} (hw : Whole D c.dom) (hm : m ≠ 0) (hnm : n + m ≠ 0) (x : ℚ) :
    ((c.offsetBy D n).offsetBy D m).dom = (c.offsetBy D (n + m)).dom ∧
    ((c.offsetBy D n).offsetBy D m).y (.fin x) = (c.offsetBy D (n + m)).y (.fin x) := by
  have hd : ∀ k : ℤ, (c.offsetBy D n).dom.contains (.fin (D.start (k + n))) = c.dom.contains (.fin (D.start k)) :=
    fun k => start_in_shift hw n k
  refine ⟨?_, ?_⟩
  · have hs : ∀ a, Boundary D a → D.shift m false (D.shift n false a) = D.shift (n + m) false a := by
      intro a ha
      cases a with
      | fin p => obtain ⟨i, rfl⟩ := ha; simp [add_assoc]
      | _ => rfl
    simp only [offsetBy, Dur.shiftInterval]
    rw [hs _ hw.2.2.2.1, hs _ hw.2.2.2.2]
  · rcases Dur.cases D x with ⟨k, rfl⟩ | ⟨k, h0, h1⟩
    · obtain ⟨j, rfl⟩ : ∃ j, k = j + n + m := ⟨k - n - m, by omega⟩
      rw [C101_boundary, hd, C101_boundary, add_assoc, C101_boundary]
      split <;> rfl
    · obtain ⟨j, rfl⟩ : ∃ j, k = j + n + m := ⟨k - n - m, by omega⟩
      have e : j + n + m + 1 = (j + n) + 1 + m := by omega
      have e' : j + n + m = j + (n + m) := by omega
      have e'' : (j + n) + 1 + m = j + 1 + (n + m) := by omega
      rw [e] at h1
      have l := within_y (c.offsetBy D n) D hm h0 h1 (c.offsetBy D n).y
      have r := within_y c D hnm (e' ▸ h0) (e'' ▸ h1) c.y
      show Dur.interpolated _ _ _ _ _ = Dur.interpolated _ _ _ _ _
      rw [l, r, show j + n + 1 = j + 1 + n by omega, hd, hd, C101_boundary, C101_boundary]
      by_cases h : (c.dom.contains (.fin (D.start j)) && c.dom.contains (.fin (D.start (j + 1)))) = true
      · have h' := h
        rw [Bool.and_eq_true] at h'
        simp only [h'.1, h'.2, if_true, e', show j + 1 + n + m = j + 1 + (n + m) by omega]
      · simp only [h, if_false, Bool.false_eq_true]

example : ((threeUneven.offsetBy unevenDur 1).offsetBy unevenDur 2).y (.fin 46) =
    (threeUneven.offsetBy unevenDur 3).y (.fin 46) ∧
    (threeUneven.offsetBy unevenDur 3).y (.fin 46) = .ok (some (.fin (3 / 2))) := by decide +kernel

/-- The values 0 before 1 and 1 from then on, as from quotes: no interpolation. -/
def stepped : Crv := generic
  (fun x => .ok (if (Iv.closed 0 2).contains x then some (.fin (if x < .fin 1 then 0 else 1)) else none)) (.closed 0 2)

/-- **C103** (negation) The opposite offset does not restore a curve that is not straight within the periods. -/
theorem C103_negation : stepped.y (.fin (1 / 2)) = .ok (some (.fin 0)) ∧
    ((stepped.offsetBy unitDur 1).offsetBy unitDur (-1)).y (.fin (1 / 2)) = .ok (some (.fin (1 / 2))) := by
  decide +kernel

/-! ## C104 Steps -/

theorem period_within (D : Dur) {k : ℤ} {x : ℚ} (h0 : D.start k ≤ x) (h1 : x < D.start (k + 1)) (n : ℤ) (hn : n ≠ 0) :
    D.shift n true (.fin x) = .fin (D.start (k + n)) := by
  simp [Dur.shift, Dur.resStep, hn, Dur.step, Dur.floor, Dur.period_eq D h0 h1]

/-- **C104** (partial) The next position is the end of the period, if the curve is defined that many periods before.  Missing:
the minimum step and the limit are ignored, and there is no next position before the domain. -/
theorem C104_next_partial (c : Crv) (D : Dur) (n : ℤ) {k : ℤ} {x : ℚ} (h0 : D.start (k + n) ≤ x)
    (h1 : x < D.start (k + 1 + n)) (m l : Option Ext) :
    (c.offsetBy D n).xNext (.fin x) m l =
      .ok (if c.dom.contains (.fin (D.start (k + 1))) then some (.fin (D.start (k + 1 + n))) else none) := by
  have h1' : x < D.start (k + n + 1) := by rwa [show k + n + 1 = k + 1 + n by omega]
  have key : Dur.finite D.next (D.shift (-n) true (.fin x)) = .ok (.fin (D.start (k + 1))) := by
    by_cases hn : n = 0
    · subst hn
      simp only [add_zero] at h0 h1'
      simp [Dur.finite, Dur.next, Dur.period_eq D h0 h1']
    · rw [period_within D h0 h1' (-n) (by omega)]
      simp [Dur.finite, Dur.next]
  simp only [offsetBy, key, bind, Except.bind, shift_start, pure, Except.pure]
  by_cases h : c.dom.contains (.fin (D.start (k + 1))) = true <;> simp [h]

/-- **C104** (partial) The previous position is the beginning of the period, or of the one before if the position is at the
beginning.  Missing: as for `C104_next_partial`. -/
theorem C104_previous_partial (c : Crv) (D : Dur) (n : ℤ) {k : ℤ} {x : ℚ} (h0 : D.start (k + n) < x)
    (h1 : x ≤ D.start (k + 1 + n)) (m l : Option Ext) :
    (c.offsetBy D n).xPrevious (.fin x) m l =
      .ok (if c.dom.contains (.fin (D.start k)) then some (.fin (D.start (k + n))) else none) := by
  have key : Dur.finite D.previous (D.shift (-n) false (.fin x)) = .ok (.fin (D.start k)) := by
    rcases eq_or_lt_of_le h1 with e | h1
    · subst e
      simp [Dur.finite, Dur.previous]
    · have h1' : x < D.start (k + n + 1) := by rwa [show k + n + 1 = k + 1 + n by omega]
      by_cases hn : n = 0
      · subst hn
        simp only [add_zero] at h0 h1'
        simp [Dur.finite, Dur.previous, Dur.above_within D h0 h1']
      · rw [shift_ceil D (by omega) h0 h1', show k + n + 1 + -n = k + 1 by omega]
        simp [Dur.finite, Dur.previous]
  simp only [offsetBy, key, bind, Except.bind, shift_start, pure, Except.pure]
  by_cases h : c.dom.contains (.fin (D.start k)) = true <;> simp [h]

example : (threeUneven.offsetBy unevenDur 1).xNext (.fin 34) (some MIN_STEP) none = .ok (some (.fin 44)) ∧
    (threeUneven.offsetBy unevenDur 1).xPrevious (.fin 24) (some MIN_STEP) none = .ok (some (.fin 20)) ∧
    (threeUneven.offsetBy unevenDur 1).xNext (.fin 45) (some MIN_STEP) none = .ok none := by decide +kernel

/-- **C104** (negation) The next position can be nearer than the minimum step and after the limit; there is none before the
domain although the curve has one; and sampling with a minimum step above the period raises. -/
theorem C104_negation :
    ((flatOn (.closed 0 9)).offsetBy unitDur 1).xNext (.fin 2) (some (.fin 5)) none = .ok (some (.fin 3)) ∧
    ((flatOn (.closed 0 9)).offsetBy unitDur 1).xNext (.fin 2) (some MIN_STEP) (some (.fin (5 / 2))) = .ok (some (.fin 3)) ∧
    ((flatOn (.closed 0 9)).offsetBy unitDur 1).xNext (.fin (-5)) (some MIN_STEP) none = .ok none ∧
    (flatOn (.closed 0 9)).xNext (.fin (-6)) (some (.fin 8)) none = .ok (some (.fin 2)) ∧
    ((flatOn (.closed 0 9)).offsetBy unitDur 1).samplePoints none (some (.fin 2)) none 20 = some (.error .exception) := by
  decide +kernel

/-- **C104** An offset by periods has no least step of its own: nothing is added to what a combination of it asks for. -/
theorem C104_own_step (c : Crv) (D : Dur) (n : ℤ) (m : Option Ext) : resolve (c.offsetBy D n).minStep m = m := by
  cases m <;> rfl

/-! ## C105 Announcements -/

/-- Two states of a curve that differ within the interval only. -/
def SameOutside (d : Iv) (c e : Crv) : Prop :=
  ∀ x, d.contains x = false → c.dom.contains x = e.dom.contains x ∧ c.y x = e.y x

theorem shift_lo {D : Dur} (n : ℤ) {a : Ext} {j : ℤ} (h : a ≤ .fin (D.start j)) :
    D.shift n false a ≤ .fin (D.start (j + n)) := by
  cases a with
  | ninf => simp [Dur.shift]
  | pinf => simp at h
  | fin p =>
    simp only [Ext.fin_le_fin] at h
    rcases Dur.cases D p with ⟨i, rfl⟩ | ⟨i, h0, h1⟩
    · simp only [shift_start, Ext.fin_le_fin, D.mono.le_iff_le] at h ⊢
      omega
    · by_cases hn : n = 0
      · subst hn; simpa using h
      · have := D.mono.lt_iff_lt.1 (lt_of_lt_of_le h0 h)
        simp only [shift_ceil D hn h0 h1, Ext.fin_le_fin, D.mono.le_iff_le]
        omega

theorem shift_hi {D : Dur} (n : ℤ) {a : Ext} {j : ℤ} (h : .fin (D.start j) ≤ a) :
    .fin (D.start (j + n)) ≤ D.shift n false a := by
  cases a with
  | ninf => simp at h
  | pinf => simp [Dur.shift]
  | fin p =>
    simp only [Ext.fin_le_fin] at h
    rcases Dur.cases D p with ⟨i, rfl⟩ | ⟨i, h0, h1⟩
    · simp only [shift_start, Ext.fin_le_fin, D.mono.le_iff_le] at h ⊢
      omega
    · by_cases hn : n = 0
      · subst hn; simpa using h
      · have := D.mono.lt_iff_lt.1 (lt_of_le_of_lt h h1)
        simp only [shift_ceil D hn h0 h1, Ext.fin_le_fin, D.mono.le_iff_le]
        omega

theorem shift_lt {D : Dur} (n : ℤ) {a b : Ext} (ha : Boundary D a) (hb : Boundary D b) (h : a < b) :
    D.shift n false a < D.shift n false b := by
  rw [lt_iff_not_ge] at h ⊢
  rwa [shift_mono D n hb ha]

/-- The announced interval has the beginnings of periods that correspond to those of the change. -/
theorem start_announced {D : Dur} (n : ℤ) {d : Iv} (hl : d.loOpen = true → Boundary D d.lo) {j : ℤ}
    (hh : d.hiOpen = true → Boundary D d.hi) (h : d.contains (.fin (D.start j)) = true) :
    (D.shiftInterval n d).contains (.fin (D.start (j + n))) = true := by
  have hb : Boundary D (.fin (D.start j)) := ⟨j, rfl⟩
  simp only [Iv.contains, Bool.not_true, Bool.false_or, Bool.and_eq_true, Bool.not_eq_true'] at h
  obtain ⟨⟨_, h1⟩, h2⟩ := h
  have g1 : (D.shiftInterval n d).geLo (.fin (D.start (j + n))) = true := by
    cases ho : d.loOpen with
    | false =>
      simp only [Iv.geLo, Dur.shiftInterval, ho, Bool.false_eq_true, if_false, decide_eq_true_eq] at h1 ⊢
      exact shift_lo n h1
    | true =>
      simp only [Iv.geLo, Dur.shiftInterval, ho, if_true, decide_eq_true_eq] at h1 ⊢
      rw [← shift_start D n false j]
      exact shift_lt n (hl ho) hb h1
  have g2 : (D.shiftInterval n d).leHi (.fin (D.start (j + n))) = true := by
    cases ho : d.hiOpen with
    | false =>
      simp only [Iv.leHi, Dur.shiftInterval, ho, Bool.false_eq_true, if_false, decide_eq_true_eq] at h2 ⊢
      exact shift_hi n h2
    | true =>
      simp only [Iv.leHi, Dur.shiftInterval, ho, if_true, decide_eq_true_eq] at h2 ⊢
      rw [← shift_start D n false j]
      exact shift_lt n hb (hh ho) h2
  rw [Iv.contains_iff]
  exact ⟨g1, g2⟩

/-- **C105** (partial) At the beginnings of periods, an offset curve changes only within the interval that it announces, if
each end of the interval of the change belongs to it or is the beginning of a period.  Missing: positions within
periods (`C105_append_partial`, `C105_negation`). -/
theorem C105_boundary_partial {c e : Crv} {D : Dur} {n : ℤ} {d : Iv} (hl : d.loOpen = true → Boundary D d.lo)
    (hh : d.hiOpen = true → Boundary D d.hi) (h : SameOutside d c e) {k : ℤ}
    (hx : (D.shiftInterval n d).contains (.fin (D.start k)) = false) :
    (c.offsetBy D n).y (.fin (D.start k)) = (e.offsetBy D n).y (.fin (D.start k)) := by
  obtain ⟨j, rfl⟩ : ∃ j, k = j + n := ⟨k - n, by omega⟩
  have hj : d.contains (.fin (D.start j)) = false := by
    by_contra hc
    rw [start_announced n hl hh (by simpa using hc)] at hx
    simp at hx
  rw [C101_boundary, C101_boundary, (h _ hj).1, (h _ hj).2]

/-- **C105** (partial) If the curve grows by whole periods at its end, the offset curve changes only within the interval that
it announces.  Missing: other changes. -/
theorem C105_append_partial {c e : Crv} {D : Dur} {n i j : ℤ} (hij : i < j)
    (h : SameOutside (.openClosed (D.start i) (D.start j)) c e)
    (hend : ∀ z : ℚ, D.start j < z → c.dom.contains (.fin z) = false) {x : ℚ}
    (hx : (D.shiftInterval n (.openClosed (D.start i) (D.start j))).contains (.fin x) = false) :
    (c.offsetBy D n).y (.fin x) = (e.offsetBy D n).y (.fin x) := by
  have hout : ∀ z : ℚ, (z ≤ D.start i ∨ D.start j < z) →
      (Iv.openClosed (D.start i) (D.start j)).contains (.fin z) = false := by
    intro z hz
    rw [← Bool.not_eq_true, Iv.contains_iff]
    simp only [Iv.geLo, Iv.leHi, Iv.openClosed, if_true, Bool.false_eq_true, if_false, decide_eq_true_eq, Ext.fin_lt_fin,
      Ext.fin_le_fin]
    rintro ⟨a, b⟩
    rcases hz with hz | hz <;> linarith
  have hlt : D.start i < D.start j := D.mono hij
  by_cases hn : n = 0
  · subst hn
    have hx' : (Iv.openClosed (D.start i) (D.start j)).contains (.fin x) = false := by
      simpa [Dur.shiftInterval, Iv.openClosed] using hx
    simp only [offsetBy, Dur.interpolated, neg_zero, shift_zero, (h _ hx').1, (h _ hx').2]
  rcases Dur.cases D x with ⟨k, rfl⟩ | ⟨k, h0, h1⟩
  · exact C105_boundary_partial (d := .openClosed (D.start i) (D.start j))
      (fun _ => (⟨i, rfl⟩ : ∃ k, D.start i = D.start k)) (fun hc => by simp [Iv.openClosed] at hc) h hx
  · obtain ⟨p, rfl⟩ : ∃ p, k = p + n := ⟨k - n, by omega⟩
    have h1' : x < D.start (p + 1 + n) := by rwa [show p + 1 + n = p + n + 1 by omega]
    have hcase : p + 1 ≤ i ∨ j ≤ p := by
      by_contra hc
      have a : D.start (i + n) < x := lt_of_le_of_lt (D.mono.monotone (by omega)) h0
      have b : x < D.start (j + n) := lt_of_lt_of_le h1' (D.mono.monotone (by omega))
      rw [← Bool.not_eq_true] at hx
      apply hx
      rw [Iv.contains_iff]
      simp [Dur.shiftInterval, Iv.openClosed, Iv.geLo, Iv.leHi, a, b.le]
    show Dur.interpolated _ _ _ _ _ = Dur.interpolated _ _ _ _ _
    rw [within_y c D hn h0 h1', within_y e D hn h0 h1']
    rcases hcase with hp | hp
    · have o0 := h _ (hout (D.start p) (.inl (D.mono.monotone (by omega))))
      have o1 := h _ (hout (D.start (p + 1)) (.inl (D.mono.monotone hp)))
      rw [o0.1, o0.2, o1.1, o1.2]
    · have hj : D.start j < D.start (p + 1) := D.mono (by omega)
      have o1 := h _ (hout (D.start (p + 1)) (.inr hj))
      have n1 := hend _ hj
      simp [n1, o1.1 ▸ n1]

/-- A curve that is 0, and 1 within the interval. -/
def raisedOn (d : Iv) : Crv := generic (fun x => .ok (some (.fin (if d.contains x then 1 else 0))))

theorem raised_same (d : Iv) : SameOutside d (generic fun _ => .ok (some (.fin 0))) (raisedOn d) := by
  intro x hx
  simp [raisedOn, generic, hx]

example : SameOutside (.openClosed (unitDur.start 2) (unitDur.start 4)) (flatOn (.closed 0 2)) (flatOn (.closed 0 4)) ∧
    (∀ z : ℚ, unitDur.start 4 < z → (flatOn (.closed 0 2)).dom.contains (.fin z) = false) ∧
    ((flatOn (.closed 0 2)).offsetBy unitDur 1).y (.fin (7 / 2)) = .ok none ∧
    ((flatOn (.closed 0 4)).offsetBy unitDur 1).y (.fin (7 / 2)) = .ok (some (.fin 1)) := by
  have hc : ∀ (b : ℚ) (x : Ext), (Iv.closed 0 b).contains x = true ↔ .fin 0 ≤ x ∧ x ≤ .fin b := by
    intro b x
    rw [Iv.contains_iff]
    exact and_congr decide_eq_true_iff decide_eq_true_iff
  refine ⟨?_, ?_, by decide +kernel, by decide +kernel⟩
  · intro x hx
    have hx' : ¬ (.fin 2 < x ∧ x ≤ .fin 4) := by
      rw [← Bool.not_eq_true, Iv.contains_iff] at hx
      simpa [Iv.openClosed, Iv.geLo, Iv.leHi, unitDur] using hx
    have he : (Iv.closed 0 2).contains x = (Iv.closed 0 4).contains x := by
      rw [Bool.eq_iff_iff, hc, hc]
      constructor
      · rintro ⟨a, b⟩
        exact ⟨a, b.trans (by norm_num)⟩
      · rintro ⟨a, b⟩
        refine ⟨a, ?_⟩
        by_contra h2
        exact hx' ⟨lt_of_not_ge h2, b⟩
    exact ⟨he, by simp [flatOn, generic, he]⟩
  · intro z hz
    have hz' : (4 : ℚ) < z := by simpa [unitDur] using hz
    show (Iv.closed 0 2).contains (.fin z) = false
    rw [← Bool.not_eq_true, hc]
    simp only [Ext.fin_le_fin]
    rintro ⟨_, b⟩
    linarith

/-- **C105** (negation) A change at the beginning of a period changes the offset curve in the periods before and after, but it
announces the one position only.  A change in `(3/2, 2]` is announced as an empty interval although the value at 3 changes. -/
theorem C105_negation :
    (SameOutside (.point 2) (generic fun _ => .ok (some (.fin 0))) (raisedOn (.point 2)) ∧
      (unitDur.shiftInterval 1 (.point 2)).contains (.fin (5 / 2)) = false ∧
      ((generic fun _ => .ok (some (.fin 0))).offsetBy unitDur 1).y (.fin (5 / 2)) ≠
        ((raisedOn (.point 2)).offsetBy unitDur 1).y (.fin (5 / 2))) ∧
    (SameOutside (.openClosed (3 / 2) 2) (generic fun _ => .ok (some (.fin 0))) (raisedOn (.openClosed (3 / 2) 2)) ∧
      (unitDur.shiftInterval 1 (.openClosed (3 / 2) 2)).isEmpty = true ∧
      ((generic fun _ => .ok (some (.fin 0))).offsetBy unitDur 1).y (.fin 3) ≠
        ((raisedOn (.openClosed (3 / 2) 2)).offsetBy unitDur 1).y (.fin 3)) :=
  ⟨⟨raised_same _, by decide +kernel, by decide +kernel⟩, raised_same _, by decide +kernel, by decide +kernel⟩

/-! ## C106 Derivative -/

/-- **C106** (partial) At the beginning of a period the derivative is that of the curve at the beginning of the period `n`
before.  Missing: positions within periods, where it is interpolated (`C106_negation`). -/
theorem C106_boundary_partial (c : Crv) (D : Dur) (n k : ℤ) (forward : Bool) (m l : Option Ext) :
    c.offsetDY D n (.fin (D.start (k + n))) forward m l =
      if c.dom.contains (.fin (D.start k)) then c.dY (.fin (D.start k)) forward m l else .ok none := by
  have e : k + n + -n = k := by omega
  simp only [offsetDY, Dur.interpolated, shift_start, e]
  by_cases h : c.dom.contains (.fin (D.start k)) = true
  · simp [h]
  · simp [h, pure, Except.pure]

/-- **C106** (partial) Within a period the derivative lies between those at its ends, so that it is right where both are the
same.  Missing: as above. -/
theorem C106_between_partial (c : Crv) (D : Dur) {n : ℤ} (hn : n ≠ 0) {k : ℤ} {x : ℚ} (h0 : D.start (k + n) < x)
    (h1 : x < D.start (k + 1 + n)) (d0 : c.dom.contains (.fin (D.start k)) = true)
    (d1 : c.dom.contains (.fin (D.start (k + 1))) = true) (forward : Bool) (m l : Option Ext) {a b : ℚ}
    (ha : c.dY (.fin (D.start k)) forward m l = .ok (some (.fin a)))
    (hb : c.dY (.fin (D.start (k + 1))) forward m l = .ok (some (.fin b))) :
    ∃ s, c.offsetDY D n (.fin x) forward m l = .ok (some (.fin s)) ∧ min a b ≤ s ∧ s ≤ max a b := by
  refine ⟨onSegment (D.start (k + n)) (D.start (k + 1 + n)) a b x, ?_, ?_⟩
  · simp only [offsetDY, within_y c D hn h0 h1, d0, d1, Bool.and_self, if_true, ha, hb, bind, Except.bind, pure, Except.pure,
      Num.mul, Num.add, onSegment]
    congr 3
    ring
  · have hu0 : 0 ≤ (x - D.start (k + n)) / (D.start (k + 1 + n) - D.start (k + n)) :=
      div_nonneg (by linarith) (by linarith)
    have hu1 : (x - D.start (k + n)) / (D.start (k + 1 + n) - D.start (k + n)) ≤ 1 := by
      rw [div_le_one (by linarith)]; linarith
    simp only [onSegment]
    generalize (x - D.start (k + n)) / (D.start (k + 1 + n) - D.start (k + n)) = u at hu0 hu1
    rcases le_total a b with h | h
    · rw [min_eq_left h, max_eq_right h]
      constructor <;> nlinarith
    · rw [min_eq_right h, max_eq_left h]
      constructor <;> nlinarith

/-- The values 0, 0, 1 at 0, 1, 2, with straight lines in between and steps from one to the next. -/
def kinked : Crv where
  dom := .closed 0 2
  minStep := none
  y x := match x with
    | .fin q => .ok (if 0 ≤ q ∧ q ≤ 2 then some (.fin (if q ≤ 1 then 0 else q - 1)) else none)
    | _ => .ok none
  xNext x _ _ := .ok (if x < .fin 0 then some (.fin 0) else if x < .fin 1 then some (.fin 1)
    else if x < .fin 2 then some (.fin 2) else none)
  xPrevious x _ _ := .ok (if .fin 2 < x then some (.fin 2) else if .fin 1 < x then some (.fin 1)
    else if .fin 0 < x then some (.fin 0) else none)

/-- **C106** (negation) Within a period the derivative is not that of the curve before, although the values are. -/
theorem C106_negation :
    (kinked.offsetBy unitDur 1).y (.fin (5 / 2)) = kinked.y (.fin (3 / 2)) ∧
    (kinked.offsetBy unitDur 1).y (.fin (11 / 4)) = kinked.y (.fin (7 / 4)) ∧
    kinked.dY (.fin (3 / 2)) = .ok (some (.fin 1)) ∧
    kinked.offsetDY unitDur 1 (.fin (5 / 2)) = .ok (some (.fin (1 / 2))) := by
  decide +kernel

example : kinked.offsetDY unitDur 1 (.fin 3) = kinked.dY (.fin 2) ∧ kinked.dY (.fin 2) = .ok (some (.fin 1)) := by
  decide +kernel

end Curvepy.Props
