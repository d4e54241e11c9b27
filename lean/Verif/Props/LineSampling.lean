import Verif.Props.TangentRegression
import Verif.Props.Combinators

/-!
# Property C127: lines and constants as curves
-/

namespace Curvepy
namespace Props
open Spec Crv

theorem resolve_pinf (m : Option Ext) : resolve (some .pinf) m = some .pinf := by
  rcases m with _ | _ | _ | _ <;> rfl

theorem within_infinite {d : Iv} (h : d.isEmpty = false) : Iv.inter Iv.infinite d = d := by
  simp [Iv.inter, h, interRaw_infinite_left, show Iv.infinite.isEmpty = false by decide]

/-- Sampling a curve without a minimum step, given where the next position is. -/
theorem flat_samples {c : Crv} (hc : c.minStep = some .pinf) {d₀ : Option Iv} {a b : ℚ} {lO hO : Bool}
    (hd : sampleDomain c d₀ = ⟨.fin a, .fin b, lO, hO⟩) (hne : (⟨.fin a, .fin b, lO, hO⟩ : Iv).isEmpty = false)
    (hn : c.xNext (.fin a) (some .pinf) (some (.fin b)) = .ok (some (.fin b))) {va vb : Option Num}
    (ha : c.y (.fin a) = .ok va) (hb : c.y (.fin b) = .ok vb) (m : Option Ext) {fuel : ℕ} (hf : 0 < fuel) :
    c.samplePoints d₀ m none fuel = some (.ok ((if lO then [] else [(.fin a, va)]) ++ [(.fin b, vb)])) := by
  obtain ⟨fuel, rfl⟩ : ∃ k, fuel = k + 1 := ⟨fuel - 1, by omega⟩
  have hfin : (⟨.fin a, .fin b, lO, hO⟩ : Iv).isFinite = true := by
    simp [Iv.isFinite, hne, Iv.isNegInf, Iv.isPosInf]
  have hchain : chainLoop c .pinf (.fin b) 0 (fuel + 1) (some (.fin b)) = some (.ok [(.fin b, vb)]) := by
    simp [chainLoop, hb, bin]
  have h0 : Ext.fin 0 < Ext.pinf := by simp
  unfold samplePoints
  simp only [hc, resolve_pinf, hd, hne, hfin, endBin, bin, hn, h0, hchain, Bool.false_eq_true, if_false, if_true, Bool.not_true,
    Option.map_some]
  cases lO <;> cases hO <;> simp [firstSample, ha, addEnd]

/-- A line sampled from `a` to `b`: both ends, the first unless it is open. -/
theorem line_samples (l : LineData) {a b : ℚ} {lO hO : Bool} (hne : (⟨.fin a, .fin b, lO, hO⟩ : Iv).isEmpty = false)
    (m : Option Ext) {fuel : ℕ} (hf : 0 < fuel) :
    (Line.crv l).samplePoints (some ⟨.fin a, .fin b, lO, hO⟩) m none fuel =
      some (.ok ((if lO then [] else [(.fin a, some (Line.y l (.fin a)))]) ++ [(.fin b, some (Line.y l (.fin b)))])) := by
  refine flat_samples (c := Line.crv l) (d₀ := some ⟨.fin a, .fin b, lO, hO⟩) rfl (within_infinite hne) hne ?_ rfl rfl m hf
  have : (Line.crv l).xNext = baseNext Iv.infinite (some .pinf) := rfl
  rw [this]
  simp [baseNext, resolve, Iv.infinite, Ext.isInf, Iv.contains, Iv.isEmpty, Iv.leHi]

theorem closed_nonempty {a b : ℚ} (h : a ≤ b) : (Iv.closed a b).isEmpty = false := by
  simp [Iv.closed, Iv.isEmpty, h]

/-- C127 (partial: closed domains of at least two positions): sampled between two positions, whatever the step asked for, a line
gives its two ends.  Missing: a single position, see `C127_negation_twice`; an open end, see `C127_negation_open`. -/
theorem C127_line_partial (l : LineData) {a b : ℚ} (h : a < b) (m : Option Ext) {fuel : ℕ} (hf : 0 < fuel) :
    (Line.crv l).samplePoints (some (Iv.closed a b)) m none fuel =
      some (.ok [(.fin a, some (Line.y l (.fin a))), (.fin b, some (Line.y l (.fin b)))]) := by
  rw [Iv.closed, line_samples l (closed_nonempty h.le) m hf]
  rfl

example : (Line.crv ⟨(1, 2), .fin 3⟩).samplePoints (some (Iv.closed 0 4)) (some (.fin 1)) none 1 =
    some (.ok [(.fin 0, some (.fin (-1))), (.fin 4, some (.fin 11))]) := by
  rw [C127_line_partial _ (by norm_num) _ (by norm_num)]
  decide +kernel

/-- Disagreement with C127: on a single position a line gives the same point twice. -/
theorem C127_negation_twice (l : LineData) (a : ℚ) (m : Option Ext) {fuel : ℕ} (hf : 0 < fuel) :
    (Line.crv l).samplePoints (some (Iv.point a)) m none fuel =
      some (.ok [(.fin a, some (Line.y l (.fin a))), (.fin a, some (Line.y l (.fin a)))]) := by
  rw [Iv.point, Iv.closed, line_samples l (closed_nonempty le_rfl) m hf]
  rfl

/-- Disagreement with C127: the end of a domain that is open there is sampled. -/
theorem C127_negation_open (l : LineData) {a b : ℚ} (h : a < b) (m : Option Ext) {fuel : ℕ} (hf : 0 < fuel) :
    (Iv.closedOpen a b).contains (.fin b) = false ∧
    (Line.crv l).samplePoints (some (Iv.closedOpen a b)) m none fuel =
      some (.ok [(.fin a, some (Line.y l (.fin a))), (.fin b, some (Line.y l (.fin b)))]) := by
  have hne : (⟨.fin a, .fin b, false, true⟩ : Iv).isEmpty = false := by
    simp [Iv.isEmpty, h.ne, h.le]
  refine ⟨by simp [Iv.closedOpen, Iv.contains, Iv.leHi], ?_⟩
  rw [Iv.closedOpen, line_samples l hne m hf]
  rfl

/-- A closed interval between two positions of a domain lies within it. -/
theorem within_domain {D : Iv} {a b : ℚ} (h : a ≤ b) (ha : D.contains (.fin a) = true) (hb : D.contains (.fin b) = true) :
    Iv.inter D (Iv.closed a b) = Iv.closed a b := by
  obtain ⟨lo, hi, lO, hO⟩ := D
  simp only [Iv.contains, Bool.and_eq_true, Bool.not_eq_true', Bool.not_true, Bool.false_or, Iv.geLo, Iv.leHi] at ha hb
  obtain ⟨⟨hne, ha⟩, _⟩ := ha
  obtain ⟨_, hb⟩ := hb
  have h1 : Iv.loLe ⟨lo, hi, lO, hO⟩ (Iv.closed a b) = true ∨ (lo = .fin a ∧ lO = false) := by
    cases lO
    · have : lo ≤ .fin a := by simpa using ha
      rcases lt_or_eq_of_le this with h | h
      · left; simp [Iv.loLe, Iv.closed, h]
      · right; exact ⟨h, rfl⟩
    · left; simp [Iv.loLe, Iv.closed, show lo < .fin a by simpa using ha]
  have h2 : Iv.hiGe ⟨lo, hi, lO, hO⟩ (Iv.closed a b) = true ∨ (hi = .fin b ∧ hO = false) := by
    cases hO
    · have : .fin b ≤ hi := by simpa using hb
      rcases lt_or_eq_of_le this with h | h
      · left; simp [Iv.hiGe, Iv.closed, h]
      · right; exact ⟨h.symm, rfl⟩
    · left; simp [Iv.hiGe, Iv.closed, show .fin b < hi by simpa using hb]
  have h3 : Iv.interRaw ⟨lo, hi, lO, hO⟩ (Iv.closed a b) = Iv.closed a b := by
    have e1 : ∀ {α : Type} (p : α) (c : Bool), (if c then p else p) = p := by intro α p c; cases c <;> rfl
    simp only [Iv.interRaw]
    rcases h1 with h1 | ⟨g1, g2⟩ <;> rcases h2 with h2 | ⟨g3, g4⟩
    · simp only [h1, h2, if_true]
    · subst g3 g4; simp only [h1, if_true]; exact congrArg₂ (Iv.mk _ · _ ·) (e1 _ _) (e1 _ _)
    · subst g1 g2; simp only [h2, if_true]; exact congrArg₂ (Iv.mk · _ · _) (e1 _ _) (e1 _ _)
    · subst g1 g2 g3 g4
      have e2 := e1 (Ext.fin a) (Iv.loLe ⟨.fin a, .fin b, false, false⟩ (Iv.closed a b))
      have e3 := e1 (Ext.fin b) (Iv.hiGe ⟨.fin a, .fin b, false, false⟩ (Iv.closed a b))
      have e4 := e1 false (Iv.loLe ⟨.fin a, .fin b, false, false⟩ (Iv.closed a b))
      have e5 := e1 false (Iv.hiGe ⟨.fin a, .fin b, false, false⟩ (Iv.closed a b))
      simp only [Iv.closed] at e2 e3 e4 e5 ⊢
      rw [e2, e3, e4, e5]
  simp [Iv.inter, hne, h3, closed_nonempty h]

/-- C127 (partial: as for lines): a constant sampled between two positions of its domain gives its value at both. -/
theorem C127_constant_partial (v : Num) {D : Iv} {a b : ℚ} (h : a < b) (ha : D.contains (.fin a) = true)
    (hb : D.contains (.fin b) = true) (m : Option Ext) {fuel : ℕ} (hf : 0 < fuel) :
    (constant v D).samplePoints (some (Iv.closed a b)) m none fuel = some (.ok [(.fin a, some v), (.fin b, some v)]) := by
  have hnext : (constant v D).xNext = baseNext D (some .pinf) := rfl
  rw [flat_samples (c := constant v D) (d₀ := some (Iv.closed a b)) rfl (within_domain h.le ha hb) (closed_nonempty h.le) ?_ rfl rfl m hf]
  · rfl
  rw [hnext]
  obtain ⟨lo, hi, lO, hO⟩ := D
  simp only [Iv.contains, Bool.and_eq_true, Bool.not_eq_true', Bool.not_true, Bool.false_or, Iv.leHi] at hb
  have hle : Ext.fin b ≤ hi := by
    have := hb.2
    cases hO <;> simp at this
    · exact this
    · exact this.le
  have hx : (if Ext.fin b < hi then Ext.fin b else hi) = .fin b := by
    split_ifs with hlt
    · rfl
    · exact le_antisymm (not_lt.1 hlt) hle
  simp only [baseNext, resolve_pinf, Ext.isInf, if_true, hx]
  simp [Iv.contains, hb.1.1, Iv.leHi, hb.2]

/-- On its own closed domain; on a domain of which only a part is looked at. -/
example : (constant (.fin 7) (Iv.closed 0 4)).samplePoints none none none 1 =
    some (.ok [(.fin 0, some (.fin 7)), (.fin 4, some (.fin 7))]) ∧
    (constant (.fin 7) (Iv.closed 0 4)).samplePoints (some (Iv.closed 1 2)) none none 1 =
    some (.ok [(.fin 1, some (.fin 7)), (.fin 2, some (.fin 7))]) := by
  constructor
  · decide +kernel
  · exact C127_constant_partial _ (by norm_num) (by decide +kernel) (by decide +kernel) _ (by norm_num)

/-- C127: `Constant.x` answers exactly for the constant's value. -/
theorem C127_constant_x (v y : Num) (D : Iv) :
    (∀ q, Constant.x v y = some q → (constant v D).y (.fin q) = .ok (some y)) ∧ (Constant.x v y = none ↔ y ≠ v) := by
  unfold Constant.x
  split_ifs with h <;> simp [h, constant]

/-- Disagreement with C127: the position that `Constant.x` answers may be outside the domain. -/
theorem C127_negation_x : ∃ (v : Num) (D : Iv) (q : ℚ), D.isEmpty = false ∧ Constant.x v v = some q ∧ D.contains (.fin q) = false :=
  ⟨.fin 7, Iv.closed 1 4, 0, by decide +kernel, by decide +kernel, by decide +kernel⟩

/-! ## What is computed from the samples -/

theorem line_value {l : LineData} {q : ℚ} (hq : l.slope = .fin q) (t : ℚ) :
    Line.y l (.fin t) = .fin (l.ref.2 + q * (t - l.ref.1)) := by
  simp [Line.y, hq, Num.sub, Num.neg, Num.add, Num.mul, sub_eq_add_neg]

/-- C127: the range of a line sampled between two positions is that of all its values between them. -/
theorem C127_range_partial {l : LineData} {q : ℚ} (hq : l.slope = .fin q) {a b : ℚ} (h : a < b) (m : Option Ext) {fuel : ℕ}
    (hf : 0 < fuel) : ∃ ps low high, (Line.crv l).samplePoints (some (Iv.closed a b)) m none fuel = some (.ok ps) ∧
      getRange ps = .ok (some (.fin low, .fin high)) ∧
      IsLeast {v | ∃ t, a ≤ t ∧ t ≤ b ∧ Line.y l (.fin t) = .fin v} low ∧
      IsGreatest {v | ∃ t, a ≤ t ∧ t ≤ b ∧ Line.y l (.fin t) = .fin v} high := by
  have hva := line_value hq a
  have hvb := line_value hq b
  set f : ℚ → ℚ := fun t => l.ref.2 + q * (t - l.ref.1) with hf'
  have hval : ∀ t, Line.y l (.fin t) = .fin (f t) := line_value hq
  have hlo : ∀ t, a ≤ t → t ≤ b → min (f a) (f b) ≤ f t := by
    intro t h1 h2
    rcases le_total 0 q with h0 | h0
    · exact (min_le_left _ _).trans (by simp only [hf']; nlinarith)
    · exact (min_le_right _ _).trans (by simp only [hf']; nlinarith)
  have hhi : ∀ t, a ≤ t → t ≤ b → f t ≤ max (f a) (f b) := by
    intro t h1 h2
    rcases le_total 0 q with h0 | h0
    · exact le_trans (by simp only [hf']; nlinarith) (le_max_right _ _)
    · exact le_trans (by simp only [hf']; nlinarith) (le_max_left _ _)
  refine ⟨_, min (f a) (f b), max (f a) (f b), C127_line_partial l h m hf, ?_, ⟨?_, ?_⟩, ⟨?_, ?_⟩⟩
  · rw [hval, hval]
    have h1 : (if Num.lt (.fin (f b)) (.fin (f a)) then some (Num.fin (f b)) else some (.fin (f a))) = some (.fin (min (f a) (f b))) := by
      by_cases hc : f b < f a
      · simp [Num.lt, hc, min_eq_right hc.le]
      · simp [Num.lt, hc, min_eq_left (not_lt.1 hc)]
    have h2 : (if Num.lt (.fin (f a)) (.fin (f b)) then some (Num.fin (f b)) else some (.fin (f a))) = some (.fin (max (f a) (f b))) := by
      by_cases hc : f a < f b
      · simp [Num.lt, hc, max_eq_right hc.le]
      · simp [Num.lt, hc, max_eq_left (not_lt.1 hc)]
    simp only [getRange, List.map_cons, List.map_nil, rangeLoop, pure_bind, h1, h2]
    rfl
  · rcases min_choice (f a) (f b) with hm | hm
    · exact ⟨a, le_rfl, h.le, by rw [hval, hm]⟩
    · exact ⟨b, h.le, le_rfl, by rw [hval, hm]⟩
  · rintro v ⟨t, h1, h2, h3⟩
    rw [hval] at h3
    cases h3
    exact hlo t h1 h2
  · rcases max_choice (f a) (f b) with hm | hm
    · exact ⟨a, le_rfl, h.le, by rw [hval, hm]⟩
    · exact ⟨b, h.le, le_rfl, by rw [hval, hm]⟩
  · rintro v ⟨t, h1, h2, h3⟩
    rw [hval] at h3
    cases h3
    exact hhi t h1 h2

example : ∃ ps, (Line.crv ⟨(1, 2), .fin (-3)⟩).samplePoints (some (Iv.closed 0 4)) none none 1 = some (.ok ps) ∧
    getRange ps = .ok (some (.fin (-7), .fin 5)) := ⟨_, rfl, by decide +kernel⟩

/-- C127: the regression of a line between two positions is that line, whatever `numpy` would fit. -/
theorem C127_regression (fit : List (ℚ × ℚ) → ℚ × ℚ) {l : LineData} {q : ℚ} (hq : l.slope = .fin q) {a b : ℚ} (h : a < b) (step : ℚ)
    {fuel : ℕ} (hf : 0 < fuel) : ∃ r, regressionOn fit step fuel (Line.crv l) (Iv.closed a b) = some (.ok (some r)) ∧
      ∀ t, Line.y r (.ofExt t) = Line.y l (.ofExt t) := by
  have hva := line_value hq a
  have hvb := line_value hq b
  have hs : (l.ref.2 + q * (b - l.ref.1) - (l.ref.2 + q * (a - l.ref.1))) / (b - a) = q := by
    have : b - a ≠ 0 := by linarith
    field_simp
    ring
  refine ⟨⟨(a, l.ref.2 + q * (a - l.ref.1)), .fin q⟩, ?_, fun t => ?_⟩
  · have hr : regression fit [(a, some (l.ref.2 + q * (a - l.ref.1))), (b, some (l.ref.2 + q * (b - l.ref.1)))] =
        .ok (some ⟨(a, l.ref.2 + q * (a - l.ref.1)), .fin q⟩) := by
      have hp : Line.params { p1 := some (a, l.ref.2 + q * (a - l.ref.1)), p2 := some (b, l.ref.2 + q * (b - l.ref.1)) } =
          .ok ⟨(a, l.ref.2 + q * (a - l.ref.1)), .fin q⟩ := by
        have : ∀ A B : ℚ, (B - A) / (b - a) = q → Line.params { p1 := some (a, A), p2 := some (b, B) } = .ok ⟨(a, A), .fin q⟩ := by
          intro A B hAB
          simp [Line.params, h.ne', bind, Except.bind, pure, Except.pure, hAB]
        exact this _ _ hs
      rw [← mk_of_params hp]
      rfl
    unfold regressionOn
    rw [C127_line_partial l h _ hf, hva, hvb]
    exact congrArg some hr
  · have := line_again hq a t
    rw [← this, hva, hq]
    rfl

/-! ## Searching -/

/-- Every step of a search leads to the same infinity. -/
theorem line_search {l : LineData} {decide' : Option Num → Option Num → Decision} {fwd : Bool}
    (hd : decide' (some l.slope) (some l.slope) = .move fwd) (m : Option Ext) :
    ∀ (n : ℕ) (x : Ext) (prev : Option Ext), 0 < n →
      (search (Line.crv l) decide' (fun _ _ => .ok (some (Line.dY l))) m none n (some x) prev).1 =
        .ok (some (if fwd then .pinf else .ninf)) := by
  have hn : (Line.crv l).xNext = baseNext Iv.infinite (some .pinf) := rfl
  have hp : (Line.crv l).xPrevious = basePrevious Iv.infinite (some .pinf) := rfl
  have hmove : ∀ x, moveOn (Line.crv l) m none fwd x = .ok (some (if fwd then .pinf else .ninf)) := by
    intro x
    cases fwd
    · simp only [moveOn, hp, basePrevious, resolve_pinf]
      simp [Iv.infinite, Ext.isInf, Iv.contains, Iv.isEmpty, Iv.geLo]
    · simp only [moveOn, hn, baseNext, resolve_pinf]
      simp [Iv.infinite, Ext.isInf, Iv.contains, Iv.isEmpty, Iv.leHi]
  have hy : ∀ x, (Line.crv l).y x = .ok (some (Line.y l (.ofExt x))) := fun x => rfl
  intro n
  induction n with
  | zero => intro x prev h; omega
  | succ n ih =>
    intro x prev _
    simp only [search, hy, Line.dY, hd, hmove]
    cases n with
    | zero => rfl
    | succ n => exact ih _ _ (by omega)

/-- C127: a rising line is least at minus infinity and greatest at infinity, from wherever the search starts. -/
theorem C127_rising {l : LineData} {q : ℚ} (hq : l.slope = .fin q) (h : 0 < q) (x : Ext) (m : Option Ext) {n : ℕ} (hn : 0 < n) :
    (minimise (Line.crv l) (fun _ _ => .ok (some (Line.dY l))) x m none n).1 = .ok (some .ninf) ∧
    (maximise (Line.crv l) (fun _ _ => .ok (some (Line.dY l))) x m none n).1 = .ok (some .pinf) := by
  have hqq : ¬ q * q < 0 := not_lt.2 (mul_self_nonneg q)
  constructor
  · refine line_search (fwd := false) ?_ m n x none hn
    simp [hq, minDecide, Num.mul, Num.lt, hqq, h.le]
  · refine line_search (fwd := true) ?_ m n x none hn
    simp [hq, maxDecide, Num.mul, Num.lt, hqq, h]

/-- C127: a falling line is least at infinity and greatest at minus infinity. -/
theorem C127_falling {l : LineData} {q : ℚ} (hq : l.slope = .fin q) (h : q < 0) (x : Ext) (m : Option Ext) {n : ℕ} (hn : 0 < n) :
    (minimise (Line.crv l) (fun _ _ => .ok (some (Line.dY l))) x m none n).1 = .ok (some .pinf) ∧
    (maximise (Line.crv l) (fun _ _ => .ok (some (Line.dY l))) x m none n).1 = .ok (some .ninf) := by
  have hqq : ¬ q * q < 0 := not_lt.2 (mul_self_nonneg q)
  constructor
  · refine line_search (fwd := true) ?_ m n x none hn
    simp [hq, minDecide, Num.mul, Num.lt, hqq, h]
  · refine line_search (fwd := false) ?_ m n x none hn
    simp [hq, maxDecide, Num.mul, Num.lt, hqq, h.le]

example : (minimise (Line.crv ⟨(1, 2), .fin 3⟩) (fun _ _ => .ok (some (.fin 3))) (.fin 5)).1 = .ok (some .ninf) :=
  (C127_rising (l := ⟨(1, 2), .fin 3⟩) rfl (by norm_num) _ _ (by norm_num)).1

/-! ## Regressions over too few points (C121) -/

theorem walk_past_next {s : Pts ℚ} (h : Honest s) {m : ℚ} (hm : 0 < m) (hg : Gapped m s.points) :
    ∀ (post pre : List (Pt ℚ)) (p : Pt ℚ) (n : ℕ), s.points = pre ++ p :: post → post.length < n →
      Extn.walk (fun x => (ofPoints s).xNext x (some (.fin m)) none) n (some (.fin p.1)) = .ok none ∨
      Extn.walk (fun x => (ofPoints s).xNext x (some (.fin m)) none) n (some (.fin p.1)) = .error .type := by
  intro post
  induction post with
  | nil =>
    intro pre p n hs hn
    obtain ⟨n, rfl⟩ : ∃ k, n = k + 1 := ⟨n - 1, by simp at hn; omega⟩
    have hx : (ofPoints s).xNext (.fin p.1) (some (.fin m)) none = .ok none := by
      show s.xNext (.fin p.1) (some m) = _
      rcases C06_x_next h p.1 m with ⟨z, _, ⟨r, hr, rfl, hrz⟩, _⟩ | ⟨h1, _⟩
      · exfalso
        have hasc := h.wf.asc
        rw [hs] at hr hasc
        rcases List.mem_append.1 hr with hr | hr
        · have := (List.pairwise_append.1 hasc).2.2 r hr p (by simp); linarith
        · simp at hr; subst hr; linarith
      · exact h1
    rw [Extn.walk]
    simp only [hx, bind, Except.bind]
    cases n with
    | zero => exact Or.inl rfl
    | succ n => exact Or.inr rfl
  | cons q post ih =>
    intro pre p n hs hn
    obtain ⟨n, rfl⟩ : ∃ k, n = k + 1 := ⟨n - 1, by simp at hn; omega⟩
    rw [Extn.walk]
    simp only [points_next h hm hg hs none, bind, Except.bind]
    exact ih (pre ++ [p]) q n (by rw [hs]; simp) (by simp at hn; omega)

theorem walk_past_previous {s : Pts ℚ} (h : Honest s) {m : ℚ} (hm : 0 < m) (hg : Gapped m s.points) :
    ∀ (pre post : List (Pt ℚ)) (p : Pt ℚ) (n : ℕ), s.points = pre ++ p :: post → pre.length < n →
      Extn.walk (fun x => (ofPoints s).xPrevious x (some (.fin m)) none) n (some (.fin p.1)) = .ok none ∨
      Extn.walk (fun x => (ofPoints s).xPrevious x (some (.fin m)) none) n (some (.fin p.1)) = .error .type := by
  intro pre
  induction pre using List.reverseRecOn with
  | nil =>
    intro post p n hs hn
    obtain ⟨n, rfl⟩ : ∃ k, n = k + 1 := ⟨n - 1, by simp at hn; omega⟩
    have hx : (ofPoints s).xPrevious (.fin p.1) (some (.fin m)) none = .ok none := by
      show s.xPrevious (.fin p.1) (some m) = _
      rcases C07_x_previous h p.1 m with ⟨z, _, ⟨r, hr, rfl, hrz⟩, _⟩ | ⟨h1, _⟩
      · exfalso
        have hasc := h.wf.asc
        rw [hs] at hr hasc
        rcases List.mem_cons.1 hr with rfl | hr
        · linarith
        · have := (List.pairwise_cons.1 hasc).1 r hr; linarith
      · exact h1
    rw [Extn.walk]
    simp only [hx, bind, Except.bind]
    cases n with
    | zero => exact Or.inl rfl
    | succ n => exact Or.inr rfl
  | append_singleton pre q ih =>
    intro post p n hs hn
    obtain ⟨n, rfl⟩ : ∃ k, n = k + 1 := ⟨n - 1, by simp at hn; omega⟩
    rw [Extn.walk]
    simp only [points_previous h hm hg (pre := pre) (p := q) (q := p) (post := post) (by rw [hs]; simp) none, bind, Except.bind]
    exact ih (p :: post) q n (by rw [hs]; simp) (by simp at hn; omega)

/-- C121: with `regression_degree = n` and no more than `n` points, updating raises `TypeError` and changes nothing at that end,
however the regression is computed; so does every value beyond the points of a fresh extension. -/
theorem C121_few_negation (reg : Crv → Iv → Except Err (Option LineData)) {s : Pts ℚ} (h : Honest s) {m : ℚ} (hm : 0 < m)
    (hg : Gapped m s.points) {n : ℕ} (hne : s.points ≠ []) (hl : s.points.length ≤ n) (e : Extn Extn.Tan) :
    (e.start = true → (Extn.tangentReg reg (.degree n) m).update (ofPoints s) e = (e, some .type)) ∧
    (e.stop = true → (Extn.regressionStop reg (.degree n) m (ofPoints s) e) = (e, some .type)) ∧
    ∀ x, (ofPoints s).dom.contains x = false →
      (Extn.y (Extn.tangentReg reg (.degree n) m) (ofPoints s) (Extn.mk' (Extn.tangentReg reg (.degree n) m) (ofPoints s)) x).2 =
        .error .type := by
  have h1 : Extn.startWindow (ofPoints s) m (Extn.startEdge m (ofPoints s).dom) (.degree n) = .error .type := by
    cases hp : s.points with
    | nil => exact absurd hp hne
    | cons p post =>
      have hedge := (points_edges h m).1 p (by rw [hp]; rfl)
      have hedge' : Extn.startEdge m (ofPoints s).dom = .fin p.1 := by rw [← hedge]; simp [Extn.startEdge, firstEdge]
      rw [hedge']
      unfold Extn.startWindow
      rcases walk_past_next h hm hg post [] p n (by simpa using hp) (by rw [hp] at hl; simpa using hl) with hw | hw
      · simp only [hw]; rfl
      · simp only [hw]; rfl
  have h2 : Extn.stopWindow (ofPoints s) m (Extn.stopEdge m (ofPoints s).dom) (.degree n) = .error .type := by
    obtain ⟨pre, p, hp⟩ : ∃ pre p, s.points = pre ++ [p] :=
      ⟨s.points.dropLast, s.points.getLast hne, (List.dropLast_append_getLast hne).symm⟩
    have hedge := (points_edges h m).2 p (by rw [hp]; simp)
    have hedge' : Extn.stopEdge m (ofPoints s).dom = .fin p.1 := by rw [← hedge]; simp [Extn.stopEdge, lastEdge]
    rw [hedge']
    unfold Extn.stopWindow
    rcases walk_past_previous h hm hg pre [] p n hp (by rw [hp] at hl; simpa using hl) with hw | hw
    · simp only [hw]; rfl
    · simp only [hw]; rfl
  have hu : ∀ e : Extn Extn.Tan, e.start = true → (Extn.tangentReg reg (.degree n) m).update (ofPoints s) e = (e, some .type) := by
    intro e he
    show Extn.andThen (Extn.regressionStart reg (.degree n) m (ofPoints s) e) _ = _
    unfold Extn.regressionStart Extn.regressionAt
    rw [he, h1]
    rfl
  refine ⟨hu e, ?_, fun x hx => ?_⟩
  · intro he
    unfold Extn.regressionStop Extn.regressionAt
    rw [he, h2]
    rfl
  · have hs : (true && !(ofPoints s).dom.isNegInf) = true := by
      have : (ofPoints s).dom = span s.points := by
        show s.domVal = _
        rw [h.wf.domVal, Pts.getDomain_eq_span]
      rw [this]
      cases hp : s.points with
      | nil => exact absurd hp hne
      | cons p post => simp [span, Iv.isNegInf, List.getLast?_cons]
    unfold Extn.y Extn.updateIfNeeded
    rw [hx]
    simp only [Extn.mk', hs, hu, Bool.not_true, Bool.false_eq_true, if_false]

/-- Three points, and a regression that needs nine. -/
example (reg : Crv → Iv → Except Err (Option LineData)) :
    (Extn.y (Extn.tangentReg reg (.degree 8) 1) (ofPoints (even .linear))
      (Extn.mk' (Extn.tangentReg reg (.degree 8) 1) (ofPoints (even .linear))) (.fin 90)).2 = .error .type :=
  (C121_few_negation reg (even_honest .linear) (m := 1) (by norm_num) (by
    rw [show (even .linear).points = evenPts by decide +kernel]; norm_num [Gapped, evenPts]) (n := 8)
    (by decide +kernel) (by decide +kernel) (Extn.mk' (Extn.tangentReg reg (.degree 8) 1) evenCrv)).2.2 (.fin 90)
    (by decide +kernel)

end Props
end Curvepy
