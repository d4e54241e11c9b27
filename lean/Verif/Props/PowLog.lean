import Mathlib.Analysis.SpecialFunctions.Log.Base
import Verif.Model.PowLog

/-!
# Properties C109, C110: powers and logarithms
-/

namespace Curvepy
namespace Props
open PowLog Real

/-- The curve has this real value at the position. -/
def Shows (c : Cur) (x r : ℝ) : Prop := x ∈ c.dom ∧ c.y x = .ok (some (.re r))

theorem shows_number (r x : ℝ) : Shows (number r) x r := ⟨trivial, rfl⟩

theorem mapM_shows {x : ℝ} : ∀ {fs : List Cur} {rs : List ℝ}, List.Forall₂ (fun c r => Shows c x r) fs rs →
    (fs.mapM fun f => f.y x) = .ok (rs.map fun r => some (.re r))
  | [], _, h => by cases h; rfl
  | c :: fs, _, h => by
    cases h with
    | cons h1 h2 => rw [List.mapM_cons, h1.2, mapM_shows h2]; rfl

theorem dom_shows {x : ℝ} : ∀ {fs : List Cur} {rs : List ℝ}, List.Forall₂ (fun c r => Shows c x r) fs rs →
    ∀ f ∈ fs, x ∈ f.dom
  | [], _, _ => by simp
  | c :: fs, _, h => by
    cases h with
    | cons h1 h2 =>
      intro f hf
      rcases List.mem_cons.mp hf with rfl | hf
      · exact h1.1
      · exact dom_shows h2 f hf

theorem aggregate_shows {x : ℝ} {fs : List Cur} {rs : List ℝ} (tfm) (h : List.Forall₂ (fun c r => Shows c x r) fs rs) :
    x ∈ (aggregate fs tfm).dom ∧ (aggregate fs tfm).y x = tfm (rs.map fun r => some (.re r)) := by
  refine ⟨dom_shows h, ?_⟩
  simp only [aggregate]
  rw [if_pos (dom_shows h), mapM_shows h]

theorem pow_pos {a b : ℝ} (ha : 0 < a) : PowLog.pow (.re a) (.re b) = .ok (.re (a ^ b)) := by
  simp only [PowLog.pow]
  rw [if_neg (by rintro ⟨h, -⟩; exact ha.ne' h), if_neg (by rintro ⟨h, -⟩; linarith)]

theorem powF_pos : ∀ (rs : List ℝ) {a : ℝ}, 0 < a →
    powF (rs.map fun r => some (.re r)) (some (.re a)) = .ok (some (.re (a ^ rs.prod)))
  | [], a, _ => by simp [powF]
  | r :: rs, a, ha => by
    rw [List.map_cons, powF, pow_pos ha]
    simp only
    rw [powF_pos rs (rpow_pos_of_pos ha r), List.prod_cons, rpow_mul ha.le]

/-- C109: the power of curves with a positive base is the base to the product of the exponents. -/
theorem C109_partial {x a : ℝ} {c : Cur} {fs : List Cur} {rs : List ℝ} (hc : Shows c x a) (ha : 0 < a)
    (h : List.Forall₂ (fun c r => Shows c x r) fs rs) : Shows (powMany (c :: fs)) x (a ^ rs.prod) := by
  obtain ⟨h1, h2⟩ := aggregate_shows (fun ys => powF ys none) (List.Forall₂.cons hc h)
  refine ⟨h1, h2.trans ?_⟩
  rw [List.map_cons, powF]
  exact powF_pos rs ha

/-- C109: so `c ** p` is the power of the values, and `b ** c` that of the base. -/
theorem C109_pow {x a b : ℝ} {c p : Cur} (hc : Shows c x a) (ha : 0 < a) (hp : Shows p x b) :
    Shows (c.pow p) x (a ^ b) := by
  have := C109_partial hc ha (.cons hp .nil)
  rwa [List.prod_singleton] at this

theorem C109_raised {x a b : ℝ} {c p : Cur} (hc : Shows c x a) (hp : Shows p x b) (hb : 0 < b) :
    Shows (c.raised p) x (b ^ a) := C109_pow hp hb hc

/-- C109: a base of any sign but 0 with whole exponents. -/
theorem C109_whole {x a : ℝ} {c : Cur} {fs : List Cur} {ns : List ℤ} (hc : Shows c x a) (ha : a ≠ 0)
    (h : List.Forall₂ (fun c (n : ℤ) => Shows c x n) fs ns) : Shows (powMany (c :: fs)) x (a ^ ns.prod) := by
  have hw : ∀ (ns : List ℤ) {a : ℝ}, a ≠ 0 →
      powF (ns.map fun n : ℤ => some (.re (n : ℝ))) (some (.re a)) = .ok (some (.re (a ^ ns.prod))) := by
    intro ns
    induction ns with
    | nil => intro a _; simp [powF]
    | cons n ns ih =>
      intro a ha
      have : PowLog.pow (.re a) (.re (n : ℝ)) = .ok (.re (a ^ n)) := by
        simp only [PowLog.pow]
        rw [if_neg (by rintro ⟨h, -⟩; exact ha h), if_neg (by rintro ⟨-, h⟩; exact h ⟨n, rfl⟩), rpow_intCast]
      rw [List.map_cons, powF, this]
      simp only
      rw [ih (zpow_ne_zero n ha), List.prod_cons, zpow_mul]
  have h' : List.Forall₂ (fun c r => Shows c x r) fs (ns.map (Int.cast : ℤ → ℝ)) := by
    rw [List.forall₂_map_right_iff]; exact h
  obtain ⟨h1, h2⟩ := aggregate_shows (fun ys => powF ys none) (List.Forall₂.cons hc h')
  refine ⟨h1, h2.trans ?_⟩
  rw [List.map_cons, powF, List.map_map]
  exact hw ns ha

/-- C109: there is no value where one of the curves is not defined, or has none. -/
theorem C109_outside {x : ℝ} {fs : List Cur} {f : Cur} (hf : f ∈ fs) (hx : x ∉ f.dom) :
    x ∉ (powMany fs).dom ∧ (powMany fs).y x = .ok none := by
  refine ⟨fun h => hx (h f hf), ?_⟩
  simp only [powMany, aggregate]
  rw [if_neg fun h => hx (h f hf)]

theorem C109_missing {x a : ℝ} {c p : Cur} (hc : x ∈ c.dom) (hp : x ∈ p.dom)
    (h : (c.y x = .ok none ∧ ∃ v, p.y x = .ok v) ∨ (c.y x = .ok (some (.re a)) ∧ p.y x = .ok none)) :
    (c.pow p).y x = .ok none := by
  have hd : ∀ f ∈ [c, p], x ∈ f.dom := by simp [hc, hp]
  simp only [Cur.pow, powMany, aggregate]
  rw [if_pos hd]
  rcases h with ⟨h1, v, h2⟩ | ⟨h1, h2⟩
  · simp [List.mapM_cons, h1, h2, bind, Except.bind, pure, Except.pure, powF]
  · simp [List.mapM_cons, h1, h2, bind, Except.bind, pure, Except.pure, powF]

/-- C110: a logarithm has no value where one of the curves is not defined, or has none. -/
theorem C110_missing {x a : ℝ} {c b : Cur} :
    ((x ∉ c.dom ∨ x ∉ b.dom) → x ∉ (c.log b).dom ∧ (c.log b).y x = .ok none) ∧
    (x ∈ c.dom → x ∈ b.dom →
      (c.y x = .ok none ∧ ∃ v, b.y x = .ok v) ∨ (c.y x = .ok (some (.re a)) ∧ b.y x = .ok none) →
      (c.log b).y x = .ok none) := by
  constructor
  · intro h
    have hd : ¬ ∀ f ∈ [c, b], x ∈ f.dom := by simpa [imp_iff_not_or] using h
    refine ⟨hd, ?_⟩
    simp only [Cur.log, logMany, aggregate]
    rw [if_neg hd]
  · intro hc hb h
    have hd : ∀ f ∈ [c, b], x ∈ f.dom := by simp [hc, hb]
    simp only [Cur.log, logMany, aggregate]
    rw [if_pos hd]
    rcases h with ⟨h1, v, h2⟩ | ⟨h1, h2⟩
    · simp [List.mapM_cons, h1, h2, bind, Except.bind, pure, Except.pure, logF]
    · simp [List.mapM_cons, h1, h2, bind, Except.bind, pure, Except.pure, logF]

/-- (4 ^ 3) ^ (1 / 2) = 8 -/
example : Shows (powMany [number 4, number 3, number (1 / 2)]) 7 8 := by
  have := C109_partial (shows_number 4 7) (by norm_num)
    (.cons (shows_number 3 7) (.cons (shows_number (1 / 2) 7) .nil))
  rwa [show ([3, 1 / 2] : List ℝ).prod = 3 / 2 by norm_num,
    show (4 : ℝ) ^ (3 / 2 : ℝ) = 8 by
      rw [show (4 : ℝ) = 2 ^ (2 : ℝ) by norm_num, ← rpow_mul (by norm_num)]; norm_num] at this

/-- C109 fails for the base 0 and a negative exponent: unlike a division by 0, it raises. -/
theorem C109_negation : ((number 0).pow (number (-1))).y 0 = .error .zeroDiv := by
  have := (aggregate_shows (fun ys => powF ys none)
    (.cons (shows_number 0 0) (.cons (shows_number (-1) 0) .nil))).2
  refine this.trans ?_
  simp [powF, PowLog.pow]

/-- C109 fails for a negative base and an exponent that is not whole: the value is a complex number. -/
theorem C109_negation_complex : ∃ z : ℂ, ((number (-1)).pow (number (1 / 2))).y 0 = .ok (some (.cx z)) := by
  have := (aggregate_shows (fun ys => powF ys none)
    (.cons (shows_number (-1) 0) (.cons (shows_number (1 / 2) 0) .nil))).2
  refine ⟨((-1 : ℝ) : ℂ) ^ ((1 / 2 : ℝ) : ℂ), this.trans ?_⟩
  have hn : ¬ ∃ n : ℤ, (1 / 2 : ℝ) = n := by
    rintro ⟨n, hn⟩
    have : (1 : ℝ) = 2 * n := by linarith
    have : (1 : ℤ) = 2 * n := by exact_mod_cast this
    omega
  simp only [List.map_cons, List.map_nil, powF, PowLog.pow]
  rw [if_neg (by norm_num), if_pos ⟨by norm_num, hn⟩]
  rfl

/-! ## C110 -/

theorem logMany_two {x a b : ℝ} {c p : Cur} (hc : Shows c x a) (hp : Shows p x b) :
    x ∈ (c.log p).dom ∧ (c.log p).y x = (PowLog.log (.re a) (.re b)).map some := by
  obtain ⟨h1, h2⟩ := aggregate_shows (fun ys => logF ys none) (List.Forall₂.cons hc (.cons hp .nil))
  refine ⟨h1, h2.trans ?_⟩
  rw [List.map_cons, List.map_cons, logF, logF]
  cases PowLog.log (.re a) (.re b) <;> rfl

theorem log_ok {a b : ℝ} (ha : 0 < a) (hb : 0 < b) (h1 : b ≠ 1) :
    PowLog.log (.re a) (.re b) = .ok (.re (Real.logb b a)) := by
  simp only [PowLog.log]
  rw [if_neg (not_le.mpr ha), if_neg (not_le.mpr hb), if_neg h1]; rfl

/-- C110: `c.log(b)` is the logarithm of the values. -/
theorem C110_log {x a b : ℝ} {c p : Cur} (hc : Shows c x a) (hp : Shows p x b) (ha : 0 < a) (hb : 0 < b) (h1 : b ≠ 1) :
    Shows (c.log p) x (Real.logb b a) := by
  obtain ⟨d, e⟩ := logMany_two hc hp
  exact ⟨d, by rw [e, log_ok ha hb h1]; rfl⟩

/-- C110: without a base it is the natural logarithm. -/
theorem C110_natural {x a : ℝ} {c : Cur} (hc : Shows c x a) (ha : 0 < a) : Shows c.log x (Real.log a) := by
  have := C110_log hc (shows_number (Real.exp 1) x) ha (Real.exp_pos 1) (by
    rw [Ne, Real.exp_eq_one_iff]; norm_num)
  rwa [Real.logb, Real.log_exp, div_one] at this

/-- C110: it raises exactly if the value or the base is not positive (`ValueError`), or the base is 1. -/
theorem C110_raises {x a b : ℝ} {c p : Cur} (hc : Shows c x a) (hp : Shows p x b) :
    ((c.log p).y x = .error .value ↔ a ≤ 0 ∨ b ≤ 0) ∧
    ((c.log p).y x = .error .zeroDiv ↔ 0 < a ∧ b = 1) ∧
    ((∃ r, Shows (c.log p) x r) ↔ 0 < a ∧ 0 < b ∧ b ≠ 1) := by
  obtain ⟨d, e⟩ := logMany_two hc hp
  unfold Shows
  rw [e]
  simp only [PowLog.log]
  split_ifs with h1 h2 h3
  · simp [Except.map, h1, not_lt.mpr h1]
  · have h3 : b ≠ 1 := by rintro rfl; norm_num at h2
    simp [Except.map, h2, h3, not_lt.mpr h2]
  · simp only [Except.map, h3]
    simp [h1, not_le.mp h1]
  · simp only [Except.map]
    simp [h1, h2, h3, d, not_le.mp h1, not_le.mp h2]

/-- C110: a power undoes the logarithm to the same base, and the other way round. -/
theorem C110_raised_log {x a b : ℝ} {c p : Cur} (hc : Shows c x a) (hp : Shows p x b) (ha : 0 < a) (hb : 0 < b)
    (h1 : b ≠ 1) : Shows ((c.log p).raised p) x a := by
  have := C109_raised (C110_log hc hp ha hb h1) hp hb
  rwa [rpow_logb hb h1 ha] at this

theorem C110_log_raised {x a b : ℝ} {c p : Cur} (hc : Shows c x a) (hp : Shows p x b) (hb : 0 < b)
    (h1 : b ≠ 1) : Shows ((c.raised p).log p) x a := by
  have := C110_log (C109_raised hc hp hb) hp (rpow_pos_of_pos hb a) hb h1
  rwa [logb_rpow hb h1] at this

theorem shows_add {x a b : ℝ} {c d : Cur} (hc : Shows c x a) (hd : Shows d x b) : Shows (addMany [c, d]) x (a + b) := by
  obtain ⟨h1, h2⟩ := aggregate_shows (fun ys => .ok (addF ys (.re 0))) (List.Forall₂.cons hc (.cons hd .nil))
  exact ⟨h1, h2.trans (by simp [addF, add])⟩

theorem shows_mult {x a b : ℝ} {c d : Cur} (hc : Shows c x a) (hd : Shows d x b) :
    Shows (multiplyMany [c, d]) x (a * b) := by
  obtain ⟨h1, h2⟩ := aggregate_shows (fun ys => .ok (multF ys (.re 1))) (List.Forall₂.cons hc (.cons hd .nil))
  exact ⟨h1, h2.trans (by simp [multF, mul])⟩

/-- C110: the logarithm of a product is the sum of the logarithms. -/
theorem C110_product {x a b e : ℝ} {c d p : Cur} (hc : Shows c x a) (hd : Shows d x b) (hp : Shows p x e) (ha : 0 < a)
    (hb : 0 < b) (he : 0 < e) (h1 : e ≠ 1) :
    ∃ r, Shows ((multiplyMany [c, d]).log p) x r ∧ Shows (addMany [c.log p, d.log p]) x r := by
  refine ⟨Real.logb e (a * b), C110_log (shows_mult hc hd) hp (mul_pos ha hb) he h1, ?_⟩
  rw [Real.logb_mul ha.ne' hb.ne']
  exact shows_add (C110_log hc hp ha he h1) (C110_log hd hp hb he h1)

/-- C110: the logarithm of a power is the exponent times the logarithm. -/
theorem C110_power {x a b e : ℝ} {c d p : Cur} (hc : Shows c x a) (hd : Shows d x b) (hp : Shows p x e) (ha : 0 < a)
    (he : 0 < e) (h1 : e ≠ 1) :
    ∃ r, Shows ((c.pow d).log p) x r ∧ Shows (multiplyMany [d, c.log p]) x r := by
  refine ⟨Real.logb e (a ^ b), C110_log (C109_pow hc ha hd) hp (rpow_pos_of_pos ha b) he h1, ?_⟩
  rw [Real.logb_rpow_eq_mul_logb_of_pos ha]
  exact shows_mult hd (C110_log hc hp ha he h1)

/-- The logarithm of 8 to the base 2 is 3. -/
example : Shows ((number 8).log (number 2)) 5 3 := by
  have := C110_log (shows_number 8 5) (shows_number 2 5) (by norm_num) (by norm_num) (by norm_num)
  rwa [show Real.logb 2 8 = 3 by
    rw [show (8 : ℝ) = 2 ^ (3 : ℝ) by norm_num, logb_rpow (by norm_num) (by norm_num)]] at this

/-- A logarithm of 0 raises. -/
example : ((number 0).log (number 2)).y 5 = .error .value :=
  (C110_raises (shows_number 0 5) (shows_number 2 5)).1.mpr (.inl le_rfl)

/-! ## Further examples -/

theorem number_shows (v x : ℝ) : Shows (number v) x v := ⟨trivial, rfl⟩

/-- C109: roots, negative bases with whole exponents, and powers with the exponent's curve as the base. -/
example : Shows ((number 9).pow (number (1 / 2))) 5 3 ∧ Shows ((number 3).raised (number 2)) 5 8 ∧
    Shows (powMany [number (-2), number 3]) 5 (-8) := by
  refine ⟨?_, ?_, ?_⟩
  · have := C109_pow (number_shows 9 5) (by norm_num) (number_shows (1 / 2) 5)
    rwa [show (9 : ℝ) ^ (1 / 2 : ℝ) = 3 by
      rw [show (9 : ℝ) = 3 ^ (2 : ℝ) by norm_num, ← Real.rpow_mul (by norm_num)]; norm_num] at this
  · have := C109_raised (number_shows 3 5) (number_shows 2 5) (by norm_num)
    norm_num at this
    exact this
  · have := C109_whole (ns := [3]) (number_shows (-2) 5) (by norm_num) (fs := [number 3])
      (.cons (by exact_mod_cast number_shows 3 5) .nil)
    norm_num at this
    exact this

/-- C110: the natural logarithm of one; a base of one; back again; products and powers. -/
example : Shows (number 1).log 5 0 ∧ ((number 8).log (number 1)).y 5 = .error .zeroDiv ∧
    Shows (((number 8).log (number 2)).raised (number 2)) 5 8 ∧ Shows (((number (-3)).raised (number 2)).log (number 2)) 5 (-3) := by
  refine ⟨?_, ?_, ?_, ?_⟩
  · simpa using C110_natural (number_shows 1 5) (by norm_num)
  · exact (C110_raises (number_shows 8 5) (number_shows 1 5)).2.1.2 ⟨by norm_num, rfl⟩
  · exact C110_raised_log (number_shows 8 5) (number_shows 2 5) (by norm_num) (by norm_num) (by norm_num)
  · exact C110_log_raised (number_shows (-3) 5) (number_shows 2 5) (by norm_num) (by norm_num)

example : (∃ r, Shows ((multiplyMany [number 3, number 5]).log (number 2)) 0 r ∧ Shows (addMany [(number 3).log (number 2), (number 5).log (number 2)]) 0 r) ∧
    ∃ r, Shows (((number 3).pow (number 5)).log (number 2)) 0 r ∧ Shows (multiplyMany [number 5, (number 3).log (number 2)]) 0 r :=
  ⟨C110_product (number_shows 3 0) (number_shows 5 0) (number_shows 2 0) (by norm_num) (by norm_num) (by norm_num) (by norm_num),
    C110_power (number_shows 3 0) (number_shows 5 0) (number_shows 2 0) (by norm_num) (by norm_num) (by norm_num)⟩

end Props
end Curvepy
