import Verif.Model.WindowArgs
import Verif.Props.CurveIntegral

/-!
# Properties C161, C162: arguments of averages, and averages of curves without a beginning
-/

namespace Curvepy
namespace Props
open Spec Sma

/-! ## C161 -/

/-- C161: a period is accepted if it is a positive number, and is what was given. -/
theorem C161_period (q : Option ℚ) (w : Window) :
    parseWindow q true = .ok w ↔ ∃ p, q = some p ∧ 0 < p ∧ w = .period p := by
  unfold parseWindow
  cases q with
  | none => simp
  | some p =>
    by_cases hp : p ≤ 0
    · simp only [if_true, if_pos hp, reduceCtorEq, false_iff]
      rintro ⟨p', h, h1, _⟩
      cases h; exact absurd hp (not_le.2 h1)
    · simp only [if_true, if_neg hp, Except.ok.injEq]
      constructor
      · intro h; exact ⟨p, rfl, not_le.1 hp, h.symm⟩
      · rintro ⟨p', h, _, rfl⟩; cases h; rfl

/-- C161: a degree is accepted if it is at least 1, and is what was given without the part after the point. -/
theorem C161_degree_partial (q : Option ℚ) (w : Window) :
    parseWindow q false = .ok w ↔ ∃ p, q = some p ∧ 1 ≤ p ∧ w = .degree ⌊p⌋.toNat := by
  unfold parseWindow
  cases q with
  | none => simp
  | some p =>
    have key : pyInt p ≤ 0 ↔ p < 1 := by
      unfold pyInt
      split_ifs with h
      · have h0 : (1 : ℤ) ≤ ⌊p⌋ ↔ (1 : ℚ) ≤ p := by rw [Int.le_floor]; norm_num
        rw [← not_le (a := (1 : ℚ)), ← h0]
        omega
      · constructor
        · intro _; linarith
        · intro _; rw [Int.ceil_le]; push_cast; linarith
    by_cases hp : pyInt p ≤ 0
    · simp only [Bool.false_eq_true, if_false, if_pos hp, reduceCtorEq, false_iff]
      rintro ⟨p', h, h1, _⟩
      cases h; exact absurd (key.1 hp) (not_lt.2 h1)
    · have h1 : 1 ≤ p := not_lt.1 fun h => hp (key.2 h)
      have h2 : pyInt p = ⌊p⌋ := by unfold pyInt; rw [if_pos (by linarith)]
      simp only [Bool.false_eq_true, if_false, if_neg hp, Except.ok.injEq]
      rw [h2]
      constructor
      · intro h; exact ⟨p, rfl, h1, h.symm⟩
      · rintro ⟨p', h, _, rfl⟩; cases h; rfl

/-- C161: what is accepted passes the checks of C49. -/
theorem C161_valid {q : Option ℚ} {b : Bool} {w : Window} (h : parseWindow q b = .ok w) : w.valid = true := by
  cases b with
  | true =>
    obtain ⟨p, _, hp, rfl⟩ := (C161_period q w).1 h
    simpa [Window.valid] using hp
  | false =>
    obtain ⟨p, _, hp, rfl⟩ := (C161_degree_partial q w).1 h
    have : 1 ≤ ⌊p⌋ := Int.le_floor.2 (by simpa using hp)
    simp [Window.valid]
    omega

/-- C161: a whole degree is taken as it is. -/
theorem C161_whole (n : ℕ) (h : 0 < n) : parseWindow (some n) false = .ok (.degree n) := by
  rw [C161_degree_partial]
  exact ⟨n, rfl, by exact_mod_cast h, by simp⟩

/-- C161: other degrees are cut off; a missing one raises a `TypeError`, a missing period another exception. -/
theorem C161_negation : parseWindow (some (29 / 10)) false = .ok (.degree 2) ∧ parseWindow (some (9 / 10)) false = .error .exception ∧
    parseWindow (some (9 / 10)) true = .ok (.period (9 / 10)) ∧ parseWindow none false = .error .type ∧
    parseWindow none true = .error .exception ∧ parseWindow (some 0) true = .error .exception ∧
    parseWindow (some (-1 / 2)) false = .error .exception := by decide +kernel

example : parseWindow (some 3) false = .ok (.degree 3) := by simpa using C161_whole 3 (by norm_num)

/-! ## C162 -/

theorem forwardBy_points (s : Pts ℚ) (m : ℚ) (n : ℕ) (x : Ext) :
    forwardBy (Crv.ofPoints s) m n x = forward s m n x := by
  induction n generalizing x with
  | zero => rfl
  | succ n ih =>
    simp only [forwardBy, forward]
    have : (Crv.ofPoints s).xNext x (some (.fin m)) none = s.xNext x (some m) := rfl
    rw [this]
    cases s.xNext x (some m) with
    | error e => rfl
    | ok r =>
      cases r with
      | none => rfl
      | some x1 => exact ih x1

theorem previous_point {s : Pts ℚ} {m x : ℚ} {z : Ext} (h : s.xPrevious (.fin x) (some m) = .ok (some z)) :
    ∃ q, z = .fin q := by
  unfold Pts.xPrevious at h
  split_ifs at h
  · cases h
  · cases hr : Pts.resolveMinStep s.minStep (some m) with
    | none => rw [hr] at h; cases h
    | some k =>
      rw [hr] at h
      simp only at h
      split_ifs at h
      · cases h
      · cases hi : s.xIndex (x - k) with
        | error e => simp only [hi, bind, Except.bind] at h; cases h
        | ok i =>
          simp only [hi, bind, Except.bind] at h
          cases hg : pyGet s.points (min ((s.points.length : ℤ) - 1) ⌊i⌋) with
          | error e => rw [hg] at h; cases h
          | ok p => rw [hg] at h; cases h; exact ⟨p.1, rfl⟩

theorem next_point {s : Pts ℚ} {m x : ℚ} {z : Ext} (h : s.xNext (.fin x) (some m) = .ok (some z)) :
    ∃ q, z = .fin q := by
  unfold Pts.xNext at h
  split_ifs at h
  · cases h
  · cases hr : Pts.resolveMinStep s.minStep (some m) with
    | none => rw [hr] at h; cases h
    | some k =>
      rw [hr] at h
      simp only at h
      split_ifs at h
      · cases h
      · cases hi : s.xIndex (x + k) with
        | error e => simp only [hi, bind, Except.bind] at h; cases h
        | ok i =>
          simp only [hi, bind, Except.bind] at h
          cases hg : pyGet s.points (max 0 ⌈i⌉) with
          | error e => rw [hg] at h; cases h
          | ok p => rw [hg] at h; cases h; exact ⟨p.1, rfl⟩

theorem forward_point {s : Pts ℚ} {m : ℚ} (n : ℕ) {x : ℚ} {z : Ext} (h : forward s m n (.fin x) = .ok (some z)) :
    ∃ q, z = .fin q := by
  induction n generalizing x with
  | zero => cases h; exact ⟨x, rfl⟩
  | succ n ih =>
    simp only [forward] at h
    cases hx : s.xNext (.fin x) (some m) with
    | error e => rw [hx] at h; cases h
    | ok r =>
      rw [hx] at h
      cases r with
      | none => cases h
      | some x1 =>
        obtain ⟨q, rfl⟩ := next_point hx
        exact ih h

/-- C162: over points, the domain is the one of C49. -/
theorem C162_points {s : Pts ℚ} {w : Window} {m : ℚ} {d : Iv} (h : smaDomain s w m = .ok d) :
    domainBy (Crv.ofPoints s) w m = .ok d := by
  have hdom : (Crv.ofPoints s).dom = s.domVal := rfl
  unfold smaDomain at h
  unfold domainBy
  rw [hdom]
  split_ifs at h ⊢ with he
  · exact h
  · cases hlo : s.domVal.lo with
    | ninf => rw [hlo] at h; cases h
    | pinf => rw [hlo] at h; cases h
    | fin a =>
      cases hhi : s.domVal.hi with
      | ninf => rw [hlo, hhi] at h; cases h
      | pinf => rw [hlo, hhi] at h; cases h
      | fin b =>
        rw [hlo, hhi] at h
        have hfrom : ∀ p : ℚ, domainFromBy s.domVal (.fin p) = domainFrom (a + p) b := by
          intro p
          simp only [domainFromBy, domainFrom, hlo, hhi, Num.ofExt, Num.add, Ext.fin_lt_fin]
          rfl
        cases w with
        | period p =>
          have hx : (Crv.ofPoints s).xPrevious (Ext.addQ (.fin a) p) (some (.fin m)) none = s.xPrevious (.fin (a + p)) (some m) := rfl
          simp only [hx] at h ⊢
          cases hq : s.xPrevious (.fin (a + p)) (some m) with
          | error e => rw [hq] at h; cases h
          | ok r =>
            rw [hq] at h
            cases r with
            | none => simp only [hfrom]; exact h
            | some z =>
              obtain ⟨q, rfl⟩ := previous_point hq
              simp only [Num.ofExt, Num.sub, Num.neg, Num.add, hfrom] at h ⊢
              rw [← h, sub_eq_add_neg]
        | degree n =>
          simp only [forwardBy_points] at h ⊢
          cases hq : forward s m (n - 1) (.fin a) with
          | error e => rw [hq] at h; cases h
          | ok r =>
            rw [hq] at h
            cases r with
            | none => exact h
            | some z =>
              obtain ⟨q, rfl⟩ := forward_point _ hq
              simp only [Num.ofExt, Num.sub, Num.neg, Num.add, hfrom] at h ⊢
              rw [← h, sub_eq_add_neg]

theorem domainFromBy_ninf {d : Iv} (h : d.lo = .ninf) (x : Ext) :
    domainFromBy d (Num.sub (.ofExt x) (.ofExt d.lo)) = Iv.empty := by
  unfold domainFromBy
  rw [h]
  cases x <;> rfl

/-- C162: the simple moving average of a curve that has no beginning is defined nowhere, for every degree. -/
theorem C162_degree {c : Crv} (h : c.dom.lo = .ninf) (n : ℕ) (m : ℚ)
    (hn : ∀ x, ∃ r, c.xNext x (some (.fin m)) none = .ok r) : domainBy c (.degree n) m = .ok Iv.empty := by
  have hf : ∀ k x, ∃ r, forwardBy c m k x = .ok r := by
    intro k
    induction k with
    | zero => intro x; exact ⟨some x, rfl⟩
    | succ k ih =>
      intro x
      obtain ⟨r, hr⟩ := hn x
      simp only [forwardBy, hr]
      cases r with
      | none => exact ⟨none, rfl⟩
      | some x1 => exact ih x1
  unfold domainBy
  split_ifs with he
  · rfl
  · obtain ⟨r, hr⟩ := hf (n - 1) c.dom.lo
    simp only [hr]
    cases r with
    | none => rfl
    | some x => simp only [domainFromBy_ninf h]

/-- C162: and for every period, if the curve steps back from `-inf` to somewhere. -/
theorem C162_period {c : Crv} (h : c.dom.lo = .ninf) (p m : ℚ) {x : Ext}
    (hx : c.xPrevious .ninf (some (.fin m)) none = .ok (some x)) : domainBy c (.period p) m = .ok Iv.empty := by
  unfold domainBy
  split_ifs with he
  · rfl
  · have : c.dom.lo.addQ p = .ninf := by rw [h]; rfl
    simp only [this, hx, domainFromBy_ninf h]

theorem basePrevious_ninf (m : ℚ) : Crv.basePrevious Iv.infinite (some .pinf) .ninf (some (.fin m)) none = .ok (some .ninf) := by
  unfold Crv.basePrevious
  rw [isInf_max_pinf]
  rfl

theorem baseNext_pinf (x : Ext) (m : ℚ) : Crv.baseNext Iv.infinite (some .pinf) x (some (.fin m)) none = .ok (some .pinf) := by
  unfold Crv.baseNext
  rw [isInf_max_pinf]
  rfl

/-- C162: so the simple moving average of a line or a constant has no value anywhere. -/
theorem C162_nowhere {α : Type} (c : Crv) (hc : (∃ l, c = Line.crv l) ∨ ∃ v, c = Crv.constant v) (w : Window) (m : ℚ)
    (rest : Ext → Except Err (Option α)) (x : Ext) : yBy c w m rest x = .ok none := by
  have hd : domainBy c w m = .ok Iv.empty := by
    cases w with
    | period p =>
      rcases hc with ⟨l, rfl⟩ | ⟨v, rfl⟩
      · exact C162_period rfl p m (basePrevious_ninf m)
      · exact C162_period rfl p m (basePrevious_ninf m)
    | degree n =>
      rcases hc with ⟨l, rfl⟩ | ⟨v, rfl⟩
      · exact C162_degree rfl n m fun x => ⟨_, baseNext_pinf x m⟩
      · exact C162_degree rfl n m fun x => ⟨_, baseNext_pinf x m⟩
  have he : Iv.empty.contains x = false := by simp [Iv.contains, Iv.empty, Iv.isEmpty]
  simp only [yBy, hd, bind, Except.bind, he, Bool.not_false, if_true, pure, Except.pure]

theorem run_none {G : Rule} {g : ℚ → ℚ} (hG : ∀ ks x out, (∀ p ∈ out, p.2 = none) → G (sampledAt g (ks ++ [x])) out = .ok none)
    (ks : List ℚ) : ∃ out, runRule G [] [] (sampledAt g ks) = (out, none) ∧ ∀ p ∈ out, p.2 = none := by
  induction ks using List.reverseRecOn with
  | nil => exact ⟨[], rfl, by simp⟩
  | append_singleton ks x ih =>
    obtain ⟨out, h1, h2⟩ := ih
    rw [CScan.sampledAt_snoc]
    refine ⟨out ++ [(x, none)], Accum.runRule_snoc_ok h1 ?_, ?_⟩
    · have := hG ks x out h2
      rwa [CScan.sampledAt_snoc] at this
    · intro p hp
      rcases List.mem_append.1 hp with hp | hp
      · exact h2 p hp
      · simp at hp; rw [hp]

theorem valueAt_none (i : Interp) {pts : List (Pt ℚ)} (h : ∀ p ∈ pts, p.2 = none) (x : ℚ) : valueAt i pts x = none := by
  induction pts with
  | nil => rfl
  | cons p ps ih =>
    cases ps with
    | nil =>
      simp only [valueAt]
      split_ifs
      · exact h p (by simp)
      · rfl
    | cons q qs =>
      simp only [valueAt]
      have hp := h p (by simp)
      have hq := h q (by simp)
      split_ifs
      · rfl
      · exact hp
      · unfold between
        cases i <;> simp [hp, hq]
      · exact ih fun r hr => h r (by simp [hr])

/-- C162: and neither has the smoothed moving average (`Curve.smma`), which waits for the simple one for ever. -/
theorem C162_smma {c : Crv} {g : ℚ → ℚ} {m a : ℚ} {i : Interp} {u : Bool} {A : CScan} {xs : List ℚ} (hm : 0 < m)
    (hc : Unbroken m g c) {init : ℚ → Except Err (Option ℚ)} (hi : ∀ x, init x = .ok none)
    (h : Inquired c (fun _ => CScan.emaFrom a init) m i u xs A) {x : ℚ} (hfit : AskedFit m u (xs ++ [x])) {n : ℕ} (hn : 2 ≤ n) :
    (A.queryBy c (fun _ => CScan.emaFrom a init) n (.fin x)).map (fun r => r.map Prod.snd) = some (.ok none) := by
  rw [C159_answer hm hc (C159_plain g m _) h hfit hn]
  have hG : ∀ ks x out, (∀ p ∈ out, p.2 = none) →
      plainRule (CScan.emaFrom a init) (sampledAt g (ks ++ [x])) out = .ok none := by
    intro ks x out hout
    have hl : lastOut out = none := by
      unfold lastOut
      cases hl : out.getLast? with
      | none => rfl
      | some p => simpa using hout p (List.mem_of_getLast? hl)
    simp [plainRule, CScan.sampledAt_snoc, hl, CScan.emaFrom, hi]
  obtain ⟨out, h1, h2⟩ := run_none hG (visited (xs ++ [x]))
  rw [h1]
  simp only [valueAt_none i h2]

/-- C162: for lines, whatever the degree and the rest of `SMA.y`. -/
theorem C162_smma_line {x0 y0 s : ℚ} {m a : ℚ} {i : Interp} {u : Bool} {A : CScan} {xs : List ℚ} (hm : 0 < m) {w : Window}
    {rest : Ext → Except Err (Option ℚ)}
    (h : Inquired (Line.crv ⟨(x0, y0), .fin s⟩)
      (fun _ => CScan.emaFrom a fun x => yBy (Line.crv ⟨(x0, y0), .fin s⟩) w m rest (.fin x)) m i u xs A)
    {x : ℚ} (hfit : AskedFit m u (xs ++ [x])) {n : ℕ} (hn : 2 ≤ n) :
    (A.queryBy (Line.crv ⟨(x0, y0), .fin s⟩)
      (fun _ => CScan.emaFrom a fun x => yBy (Line.crv ⟨(x0, y0), .fin s⟩) w m rest (.fin x)) n (.fin x)).map
        (fun r => r.map Prod.snd) = some (.ok none) :=
  C162_smma hm (C159_line _ _ _ _) (fun _ => C162_nowhere _ (.inl ⟨_, rfl⟩) _ _ _ _) h hfit hn

/-- C162: an exponential moving average with a period, over a curve that steps back to `-inf`, is infinite or no number from
the second position on. -/
theorem C162_ema {c : Crv} {m x p : ℚ} (hx : c.xPrevious (.fin x) (some (.fin m)) none = .ok (some .ninf)) (hp : p ≠ 0) (y e : ℚ) :
    CScan.emaPeriodStep c p m x (.fin y) (.fin e) = .ok (if e < y then .pinf else if y < e then .ninf else .nan) := by
  have hinf : ∀ q : ℚ, q ≠ 0 → (Num.infOf q).abs = .pinf := by
    intro q hq
    unfold Num.infOf
    rw [if_neg hq]
    split_ifs <;> rfl
  have hdiv : Num.div (Num.sub (.fin x) (.ofExt .ninf)) (.fin p) = .ok (Num.infOf p) := by
    simp [Num.ofExt, Num.sub, Num.neg, Num.add, Num.div, hp]
  have hsub : Num.sub (.fin y) (.fin e) = .fin (y + -e) := rfl
  simp only [CScan.emaPeriodStep, hx, bind, Except.bind, hdiv, hinf p hp, hsub, pure, Except.pure]
  rcases lt_trichotomy e y with h | h | h
  · have h1 : ¬ y + -e = 0 := by intro h1; linarith
    have h2 : 0 < y + -e := by linarith
    simp [Num.mul, Num.infOf, h1, h2, h, Num.add]
  · subst h
    simp [Num.mul, Num.infOf, Num.add]
  · have h1 : ¬ y + -e = 0 := by intro h1; linarith
    have h2 : ¬ 0 < y + -e := by linarith
    simp [Num.mul, Num.infOf, h1, h2, h, not_lt.2 h.le, Num.add]

/-- C162: which is so for lines. -/
theorem C162_line (l : LineData) (m x : ℚ) : (Line.crv l).xPrevious (.fin x) (some (.fin m)) none = .ok (some .ninf) := by
  show Crv.basePrevious Iv.infinite (some .pinf) (.fin x) (some (.fin m)) none = _
  unfold Crv.basePrevious
  rw [isInf_max_pinf]
  rfl

/-- C162: the averages of `1 + 2x` and of the constant 3 have no values. -/
theorem C162_witness :
    (∀ w ∈ [Window.period 2, .degree 1, .degree 3], domainBy upLine w (1 / 100000) = .ok Iv.empty ∧
      domainBy (.constant (.fin 3)) w (1 / 100000) = .ok Iv.empty) ∧
    CScan.emaPeriodStep upLine 2 (1 / 100000) 1 (.fin 3) (.fin 1) = .ok .pinf ∧
    CScan.emaPeriodStep (.constant (.fin 3)) 2 (1 / 100000) 1 (.fin 3) (.fin 3) = .ok .nan ∧
    CScan.emaPeriodStep upLine 0 (1 / 100000) 1 (.fin 3) (.fin 1) = .error .zeroDiv := by decide +kernel

/-- Where there is a beginning. -/
example : domainBy (Crv.constant (.fin 3) (Iv.closed 0 9)) (.degree 1) (1 / 100000) = .ok (Iv.closed 0 9) ∧
    domainBy saw (.degree 2) (1 / 100000) = .ok (Iv.closed 1 3) ∧
    domainBy saw (.period 2) (1 / 100000) = .ok (Iv.closed 1 3) ∧ domainBy saw (.degree 5) (1 / 100000) = .ok Iv.empty := by
  decide +kernel

/-- C162: of a curve with a beginning whose next position is always at infinity, a window of two or more points ends at infinity: the
simple moving average has no value at any number. -/
theorem C162_leap {c : Crv} {a : ℚ} (h : c.dom.lo = .fin a) (hne : c.dom.isEmpty = false) {n : ℕ} (hn : 2 ≤ n) (m : ℚ)
    (hx : ∀ x, c.xNext x (some (.fin m)) none = .ok (some .pinf)) :
    domainBy c (.degree n) m = .ok (if c.dom.hi = .pinf then ⟨.pinf, .pinf, false, false⟩ else Iv.empty) := by
  have hf : ∀ k x, forwardBy c m (k + 1) x = .ok (some .pinf) := by
    intro k
    induction k with
    | zero => intro x; simp only [forwardBy, hx]
    | succ k ih => intro x; rw [forwardBy]; simp only [hx]; exact ih _
  obtain ⟨k, rfl⟩ : ∃ k, n = k + 2 := ⟨n - 2, by omega⟩
  have e : forwardBy c m (k + 2 - 1) c.dom.lo = .ok (some .pinf) := hf k _
  unfold domainBy
  rw [hne]
  simp only [Bool.false_eq_true, if_false, e]
  unfold domainFromBy
  rw [h]
  show Except.ok (if c.dom.hi < .pinf then Iv.empty else _) = _
  cases hh : c.dom.hi with
  | pinf => rw [if_neg (lt_irrefl _)]; rfl
  | fin b => rw [if_pos (by trivial)]; rfl
  | ninf => rw [if_pos (by trivial)]; rfl

/-- C162: where there is no position before the end of the first window, the average begins a period after the source does. -/
theorem C162_none_before {c : Crv} (hne : c.dom.isEmpty = false) (p m : ℚ)
    (hx : c.xPrevious (c.dom.lo.addQ p) (some (.fin m)) none = .ok none) :
    domainBy c (.period p) m = .ok (match c.dom.lo with
      | .ninf => ⟨.ninf, c.dom.hi, false, false⟩
      | .pinf => if c.dom.hi = .pinf then ⟨.pinf, .pinf, false, false⟩ else Iv.empty
      | .fin a => if .fin (a + p) ≤ c.dom.hi then ⟨.fin (a + p), c.dom.hi, false, false⟩ else Iv.empty) := by
  unfold domainBy
  rw [hne]
  simp only [Bool.false_eq_true, if_false, hx]
  unfold domainFromBy
  cases hl : c.dom.lo with
  | ninf => rfl
  | pinf =>
    show Except.ok (if c.dom.hi < .pinf then Iv.empty else _) = _
    cases hh : c.dom.hi with
    | pinf => rw [if_neg (lt_irrefl _)]; rfl
    | fin b => rw [if_pos (by trivial)]; rfl
    | ninf => rw [if_pos (by trivial)]; rfl
  | fin a =>
    show Except.ok (if c.dom.hi < .fin (a + p) then Iv.empty else _) = _
    by_cases hh : c.dom.hi < .fin (a + p)
    · rw [if_pos hh]; simp only [if_neg (not_le.2 hh)]
    · rw [if_neg hh]; simp only [if_pos (not_lt.1 hh)]

/-- C162: an exponential moving average with another curve for its first value makes the steps of C47. -/
theorem C162_first (a : ℚ) (f : ℚ → Option ℚ) (q : Pt ℚ) (x : ℚ) (y e : Option ℚ) :
    CScan.emaFrom a (fun x => .ok (f x)) x y e = .ok (emaStep (fun _ _ => a) (some f) (some q) e (x, y)) := by
  cases y <;> cases e <;> rfl

/-- C162: and it raises what the other curve raises, only where it needs it. -/
theorem C162_first_error (a : ℚ) (init : ℚ → Except Err (Option ℚ)) (x : ℚ) (y e : Option ℚ) (err : Err) :
    CScan.emaFrom a init x y e = .error err ↔ init x = .error err ∧ y ≠ none ∧ e = none := by
  cases y <;> cases e <;> simp [CScan.emaFrom]

/-! ## Further examples -/

/-- A constant from 0 on has no average over two points at any number; one that ends at 9 has one only there. -/
example : domainBy (Crv.constant (.fin 3) ⟨.fin 0, .pinf, false, false⟩) (.degree 2) 1 = .ok ⟨.pinf, .pinf, false, false⟩ ∧
    domainBy (Crv.constant (.fin 3) (Iv.closed 0 9)) (.degree 2) 1 = .ok (Iv.closed 9 9) := by decide +kernel

example : CScan.emaFrom (1 / 4) (fun x => .ok (some (10 * x))) 2 (some 7) none = .ok (some 20) ∧
    CScan.emaFrom (1 / 4) (fun x => .ok (some (10 * x))) 3 (some 4) (some 20) = .ok (some 16) ∧
    CScan.emaFrom (1 / 4) (fun x => .ok (some (10 * x))) 3 none (some 20) = .ok (some 20) := by decide +kernel

example : parseWindow (some (7 / 2)) true = .ok (.period (7 / 2)) ∧ parseWindow (some (7 / 2)) false = .ok (.degree 3) ∧
    (Window.degree 3).valid = true :=
  ⟨(C161_period _ _).2 ⟨7 / 2, rfl, by norm_num, rfl⟩, by decide +kernel,
    C161_valid (q := some (7 / 2)) (b := false) (by decide +kernel)⟩

/-- C162: no average of a line or a constant has a value anywhere. -/
example : yBy upLine (.degree 2) (1 / 100000) (fun _ => (.ok (some (7 : ℚ)))) (.fin 3) = .ok none ∧
    yBy (Crv.constant (.fin 3)) (.period 2) (1 / 100000) (fun _ => (.ok (some (7 : ℚ)))) (.fin 3) = .ok none :=
  ⟨C162_nowhere _ (.inl ⟨_, rfl⟩) _ _ _ _, C162_nowhere _ (.inr ⟨_, rfl⟩) _ _ _ _⟩

example : CScan.emaPeriodStep upLine 2 1 5 (.fin 3) (.fin 4) = .ok .ninf :=
  (C162_ema (C162_line _ 1 5) (by norm_num) 3 4).trans (by norm_num)

end Props
end Curvepy
