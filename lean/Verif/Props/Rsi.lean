import Verif.Props.CurveScan

/-!
# Properties C94, C95: the relative strength index
-/

namespace Curvepy
namespace Rsi
open Spec Pts CScan

theorem maxZero_y (d : Crv) (x : Ext) : (Crv.max [.curve d, .number (.fin 0)]).y x =
    if d.dom.contains x then (d.y x).map fun v => Crv.maxVals [v, some (.fin 0)] none else .ok none := by
  have hd : (Iv.interAll ([d, Crv.constant (.fin 0)].map (·.dom))).contains x = d.dom.contains x := by
    rw [Bool.eq_iff_iff, Iv.contains_interAll]
    simp [Crv.constant]
  simp only [Crv.max, Crv.aggregate, List.map_cons, List.map_nil, Crv.parse, Bool.false_eq_true, if_false] at hd ⊢
  rw [hd]
  cases d.dom.contains x with
  | false => rfl
  | true =>
    simp only [Bool.not_true, Bool.false_eq_true, if_false, if_true, List.mapM_cons, List.mapM_nil]
    cases d.y x <;> rfl

theorem maxZero_nonneg (d : Crv) : CScan.Crv.Between (fun q => 0 ≤ q) (Crv.max [.curve d, .number (.fin 0)]) := by
  intro x v hv
  obtain ⟨w, hw, hr⟩ := bind_inv hv
  rw [maxZero_y] at hw
  split_ifs at hw
  · cases hy : d.y x with
    | error e => rw [hy] at hw; cases hw
    | ok y =>
      rw [hy] at hw
      simp only [Except.map, Except.ok.injEq] at hw
      subst hw
      cases y with
      | none => cases hr; exact le_refl _
      | some y =>
        simp only [Crv.maxVals] at hr
        split_ifs at hr with hlt
        · cases hr; exact le_refl _
        · cases y with
          | fin q => cases hr; simpa [Num.lt] using hlt
          | pinf => cases hr
          | ninf => cases hr
          | nan => cases hr
  · cases hw; cases hr

theorem pair_dom (a b : Crv) (tfm : Ext → List (Option Num) → Except Err (Option Num)) (x : Ext) :
    (Crv.aggregate [a, b] tfm).dom.contains x = (a.dom.contains x && b.dom.contains x) := by
  rw [Bool.eq_iff_iff]
  simp only [Crv.aggregate, Bool.false_eq_true, if_false, Iv.contains_interAll]
  simp

theorem pair_y {a b : Crv} (tfm : Ext → List (Option Num) → Except Err (Option Num)) {x : Ext} {va vb : Option Num}
    (ha : a.y x = .ok va) (hb : b.y x = .ok vb) :
    (Crv.aggregate [a, b] tfm).y x = if a.dom.contains x && b.dom.contains x then tfm x [va, vb] else .ok none := by
  have hd := pair_dom a b tfm x
  simp only [Crv.aggregate, Bool.false_eq_true, if_false] at hd ⊢
  rw [hd]
  cases (a.dom.contains x && b.dom.contains x) with
  | false => rfl
  | true =>
    simp only [Bool.not_true, Bool.false_eq_true, if_false, if_true, List.mapM_cons, List.mapM_nil, ha, hb]
    rfl

theorem pair_out (a b : Crv) (tfm : Ext → List (Option Num) → Except Err (Option Num)) (x : Ext)
    (h : (a.dom.contains x && b.dom.contains x) = false) : (Crv.aggregate [a, b] tfm).y x = .ok none := by
  have hd := pair_dom a b tfm x
  simp only [Crv.aggregate, Bool.false_eq_true, if_false] at hd ⊢
  rw [hd, h]
  rfl

theorem strength_bounds {u d : ℚ} (hu : 0 ≤ u) (hd : 0 ≤ d) : 0 ≤ strength u d ∧ strength u d ≤ 100 := by
  unfold strength
  split_ifs with h
  · norm_num
  · have hd' : 0 < d := lt_of_le_of_ne hd (Ne.symm h)
    have h1 : 0 ≤ u / d := by positivity
    have h2 : 1 ≤ 1 + u / d := by linarith
    have h3 : 100 / (1 + u / d) ≤ 100 := by rw [div_le_iff₀ (by linarith)]; linarith
    have h4 : 0 ≤ 100 / (1 + u / d) := by positivity
    constructor <;> linarith

/-- The index, where both averages are defined. -/
def strengthOf : Option ℚ → Option ℚ → Option ℚ
  | some u, some d => some (strength u d)
  | _, _ => none

/-- The formula for given averages. -/
theorem formula_y (d1 d2 : Iv) (u d : Option ℚ) (x : Ext) (hu : ∀ q, u = some q → 0 ≤ q) (hd : ∀ q, d = some q → 0 ≤ q) :
    (formula d1 d2 u d).y x = .ok (if (d1.contains x && d2.contains x) = true then
      (strengthOf u d).map .fin else none) := by
  have e1 : (Crv.divideMany [.curve (.held d1 u), .curve (.held d2 d)]).y x =
      if d1.contains x && d2.contains x then Crv.divF [u.map .fin, d.map .fin] none else .ok none :=
    pair_y (a := .held d1 u) (b := .held d2 d) _ rfl rfl
  have e1d : (Crv.divideMany [.curve (.held d1 u), .curve (.held d2 d)]).dom.contains x =
      (d1.contains x && d2.contains x) := pair_dom (.held d1 u) (.held d2 d) _ x
  cases hin : (d1.contains x && d2.contains x) with
  | false =>
    rw [hin] at e1d
    rw [if_neg (by simp)]
    refine pair_out (.constant (.fin 100)) _ _ x ?_
    refine (Bool.and_eq_false_iff.2 (Or.inr ?_))
    refine (pair_dom (.constant (.fin 100)) _ _ x).trans (Bool.and_eq_false_iff.2 (Or.inr ?_))
    exact (pair_dom (.constant (.fin 1)) _ _ x).trans (Bool.and_eq_false_iff.2 (Or.inr e1d))
  | true =>
    rw [hin] at e1 e1d
    rw [if_pos rfl] at e1
    rw [if_pos rfl]
    obtain ⟨r, hr⟩ : ∃ r, Crv.divF [u.map .fin, d.map .fin] none = .ok r := Crv.divF_total _ _
    rw [hr] at e1
    set rs := Crv.divideMany [.curve (.held d1 u), .curve (.held d2 d)] with hrs
    have e2 : (Crv.addMany [.number (.fin 1), .curve rs]).y x =
        if (Crv.constant (.fin 1)).dom.contains x && rs.dom.contains x then .ok (Crv.addF [some (.fin 1), r]) else .ok none :=
      pair_y (a := .constant (.fin 1)) (b := rs) _ rfl e1
    have c1 : ∀ v, (Crv.constant v).dom.contains x = true := fun v => Iv.contains_infinite x
    rw [c1, e1d] at e2
    have e2d : (Crv.addMany [.number (.fin 1), .curve rs]).dom.contains x = true :=
      (pair_dom (.constant (.fin 1)) rs _ x).trans (by rw [c1, e1d]; rfl)
    set one := Crv.addMany [.number (.fin 1), .curve rs] with hone
    obtain ⟨r2, hr2⟩ : ∃ r2, Crv.divF [some (.fin 100), Crv.addF [some (.fin 1), r]] none = .ok r2 := Crv.divF_total _ _
    have e3 : (Crv.divideMany [.number (.fin 100), .curve one]).y x = .ok r2 := by
      refine (pair_y (a := .constant (.fin 100)) (b := one) _ rfl e2).trans ?_
      rw [c1, e2d]; exact hr2
    have e3d : (Crv.divideMany [.number (.fin 100), .curve one]).dom.contains x = true :=
      (pair_dom (.constant (.fin 100)) one _ x).trans (by rw [c1, e2d]; rfl)
    have e4 : (formula d1 d2 u d).y x = .ok (Crv.subF [some (.fin 100), r2] none) := by
      refine (pair_y (a := .constant (.fin 100)) (b := Crv.divideMany [.number (.fin 100), .curve one]) _ rfl e3).trans ?_
      rw [c1, e3d]; rfl
    rw [e4]
    cases u with
    | none =>
      have : r = none := by cases hr; rfl
      subst this
      cases hr2; rfl
    | some u =>
      cases d with
      | none =>
        have : r = none := by cases hr; rfl
        subst this
        cases hr2; rfl
      | some d =>
        have u0 := hu u rfl
        have d0 := hd d rfl
        by_cases hz : d = 0
        · subst hz
          have : r = some .pinf := by
            simp only [Option.map_some, Crv.divF, if_true, Num.le, u0, decide_true] at hr
            cases hr; rfl
          subst this
          cases hr2
          simp [Crv.subF, Num.sub, Num.neg, Num.add, strengthOf, strength]
        · have hd' : 0 < d := lt_of_le_of_ne d0 (Ne.symm hz)
          have hr' : r = some (.fin (u / d)) := by
            have hz' : ¬ (Num.fin d = .fin 0) := by simpa using hz
            simp only [Option.map_some, Crv.divF, if_neg hz', Num.div, if_neg hz] at hr
            cases hr; rfl
          subst hr'
          have h1 : (1 : ℚ) + u / d ≠ 0 := by have : 0 ≤ u / d := by positivity
                                              linarith
          have ha : Crv.addF [some (.fin 1), some (.fin (u / d))] = some (.fin (1 + u / d)) := by
            simp [Crv.addF, Crv.allDefined, Num.add]
          have h1' : ¬ (Num.fin (1 + u / d) = .fin 0) := by simpa using h1
          rw [ha] at hr2
          simp only [Crv.divF, if_neg h1', Num.div, if_neg h1, Option.getD] at hr2
          cases hr2
          simp [Crv.subF, Num.sub, Num.neg, Num.add, strengthOf, strength, hz, sub_eq_add_neg]

/-- What stays as it is and what every history keeps. -/
structure Kept (a : ℚ) (R : Rsi) : Prop where
  up : ∃ d, R.up = Crv.max [.curve d, .number (.fin 0)]
  down : ∃ d, R.down = Crv.max [.curve d, .number (.fin 0)]
  alpha : R.alpha = a
  gains : Within (fun q => 0 ≤ q) R.gains
  losses : Within (fun q => 0 ≤ q) R.losses

theorem convex_nonneg : Convex (fun q : ℚ => 0 ≤ q) := by
  intro a b w ha hb w0 w1
  have : 0 ≤ 1 - w := by linarith
  positivity

theorem within_new (m : ℚ) (i : Interp) (u : Bool) (S : ℚ → Prop) : Within S (CScan.new m i u) := by
  intro q hq
  rcases set_mem _ _ _ _ q hq with h | h <;> cases h

theorem Kept.new {c : Crv} {degree m : ℚ} {u : Bool} {R : Rsi} (e : Rsi.new c degree m u = .ok R) :
    Kept (1 / degree) R := by
  obtain ⟨d, _, e⟩ := bind_inv e
  obtain ⟨n, _, e⟩ := bind_inv e
  split_ifs at e
  · cases e
  · cases e
    exact ⟨⟨d, rfl⟩, ⟨n, rfl⟩, rfl, within_new _ _ _ _, within_new _ _ _ _⟩

theorem Kept.query {a : ℚ} {R S : Rsi} (h0 : 0 ≤ a) (h1 : a ≤ 1) (h : Kept a R) {n : ℕ} {x : Ext} {v : Option Num}
    (e : R.query n x = some (.ok (S, v))) :
    Kept a S ∧ (v = none ∨ ∃ q, v = some (.fin q) ∧ 0 ≤ q ∧ q ≤ 100) := by
  have hk := keeps_ema convex_nonneg (a := R.alpha) (by rw [h.alpha]; exact h0) (by rw [h.alpha]; exact h1)
  obtain ⟨d, hup⟩ := h.up
  obtain ⟨d', hdn⟩ := h.down
  unfold Rsi.query at e
  split at e
  · cases e
  · cases e
  · rename_i G ug hg
    split at e
    · cases e
    · cases e
    · rename_i L ul hl
      have g := h.gains.query (by rw [hup]; exact maxZero_nonneg d) convex_nonneg hk hg
      have l := h.losses.query (by rw [hdn]; exact maxZero_nonneg d') convex_nonneg hk hl
      rw [formula_y _ _ ug ul x g.2 l.2] at e
      simp only [Except.map, Option.some.injEq, Except.ok.injEq, Prod.mk.injEq] at e
      obtain ⟨rfl, rfl⟩ := e
      refine ⟨⟨h.up, h.down, h.alpha, g.1, l.1⟩, ?_⟩
      split_ifs
      · cases ug with
        | none => exact Or.inl rfl
        | some u =>
          cases ul with
          | none => exact Or.inl rfl
          | some d => exact Or.inr ⟨_, rfl, strength_bounds (g.2 u rfl) (l.2 d rfl)⟩
      · exact Or.inl rfl

theorem Kept.asked {Q : ℚ → Prop} {c : Crv} {degree m : ℚ} {u : Bool} {R : Rsi} (hd : 1 ≤ degree)
    (h : RsiAsked Q c degree m u R) : Kept (1 / degree) R := by
  have h0 : 0 ≤ 1 / degree := by positivity
  have h1 : 1 / degree ≤ 1 := by rw [div_le_one (by linarith)]; exact hd
  induction h with
  | new e => exact .new e
  | query _ _ e ih => exact (ih.query h0 h1 e).1

end Rsi

namespace Props
open Spec Pts CScan

/-! ### Concrete data -/

/-- The index at `x` after the queries `ys`. -/
def rsiAfter (n : ℕ) : Rsi → List ℚ → ℚ → Option (Except Err (Option Num))
  | R, [], x => (R.query n (.fin x)).map fun r => r.map Prod.snd
  | R, y :: ys, x =>
    match R.query n (.fin y) with
    | some (.ok (S, _)) => rsiAfter n S ys x
    | some (.error e) => some (.error e)
    | none => none

/-- The index of the concrete data. -/
def sawRsi (pts : List (Pt ℚ)) (degree : ℚ) (u : Bool) (ys : List ℚ) (x : ℚ) : Option (Except Err (Option Num)) :=
  match Rsi.new (Crv.ofPoints (loose pts)) degree (1 / 100000) u with
  | .error e => some (.error e)
  | .ok R => rsiAfter 9 R ys x

/-! ## C94 -/

/-- C94: the relative strength index of any curve, of degree at least 1, is between 0 and 100 or not defined, at every
position and after every history of queries. -/
theorem C94_bounds {Q : ℚ → Prop} {c : Crv} {degree m : ℚ} {u : Bool} {R S : Rsi} (hd : 1 ≤ degree)
    (h : RsiAsked Q c degree m u R) {n : ℕ} {x : Ext} {v : Option Num} (e : R.query n x = some (.ok (S, v))) :
    v = none ∨ ∃ q, v = some (.fin q) ∧ 0 ≤ q ∧ q ≤ 100 :=
  ((Rsi.Kept.asked hd h).query (by positivity) (by rw [div_le_one (by linarith)]; exact hd) e).2

/-- C94: the bound on the degree is needed. -/
theorem C94_degree_needed : sawRsi sawPts (1 / 2) true [] 3 = some (.ok (some (.fin 200))) := by decide +kernel

example : sawRsi sawPts 2 false [1 / 2, 5 / 2] (3 / 2) = some (.ok (some (.fin (900 / 11)))) := by decide +kernel

end Props
namespace Rsi
open Spec Pts CScan

theorem slopes_length (prev : Option (Pt ℚ)) (l : List (Pt ℚ)) : (slopes prev l).length = l.length := by
  induction l generalizing prev with
  | nil => rfl
  | cons p ps ih => simp [slopes, ih]

theorem slopes_take (prev : Option (Pt ℚ)) (l : List (Pt ℚ)) (k : ℕ) :
    (slopes prev l).take k = slopes prev (l.take k) := by
  induction l generalizing prev k with
  | nil => simp [slopes]
  | cons p ps ih => cases k with
    | zero => simp [slopes]
    | succ k => simp [slopes, ih]

/-- The points with other values. -/
def valued (f : Option ℚ → Option ℚ) (l : List (Pt ℚ)) (ss : List (Option ℚ)) : List (Pt ℚ) :=
  List.zipWith (fun p s => (p.1, f s)) l ss

theorem valued_xs {f : Option ℚ → Option ℚ} {l : List (Pt ℚ)} {ss : List (Option ℚ)} (h : ss.length = l.length) :
    (valued f l ss).map Prod.fst = l.map Prod.fst := by
  induction l generalizing ss with
  | nil => simp [valued]
  | cons p ps ih =>
    cases ss with
    | nil => cases h
    | cons s ss =>
      have := ih (ss := ss) (by simpa using h)
      simp only [valued] at this
      simp [valued, this]

theorem valued_snds {f : Option ℚ → Option ℚ} {l : List (Pt ℚ)} {ss : List (Option ℚ)} (h : ss.length = l.length) :
    (valued f l ss).map Prod.snd = ss.map f := by
  induction l generalizing ss with
  | nil => cases ss with
    | nil => rfl
    | cons _ _ => cases h
  | cons p ps ih =>
    cases ss with
    | nil => cases h
    | cons s ss =>
      have := ih (ss := ss) (by simpa using h)
      simp only [valued] at this
      simp [valued, this]

/-- Relating two lists of points at the same positions. -/
theorem valued_forall₂ {f g : Option ℚ → Option ℚ} {l : List (Pt ℚ)} {ss : List (Option ℚ)}
    {R : Pt ℚ → Pt ℚ → Prop} (h : ss.length = l.length) (hR : ∀ p ∈ l, ∀ s, R (p.1, f s) (p.1, g s)) :
    List.Forall₂ R (valued f l ss) (valued g l ss) := by
  induction l generalizing ss with
  | nil => simp [valued]
  | cons p ps ih =>
    cases ss with
    | nil => cases h
    | cons s ss =>
      have := ih (ss := ss) (by simpa using h) (fun p hp => hR p (by simp [hp]))
      simp only [valued, List.zipWith_cons_cons] at this ⊢
      exact .cons (hR p (by simp) s) this

/-- The differential at the points of a list. -/
theorem dY_knot {s : Pts ℚ} (hs : Honest s) {m : ℚ} (hm : 1 / 100000 ≤ m) (hg : Gapped m s.points) :
    ∀ (rest pre : List (Pt ℚ)), s.points = pre ++ rest →
      List.Forall₂ (fun p q => q.1 = p.1 ∧ (Crv.ofPoints s).dY (.fin p.1) false = .ok (q.2.map .fin)) rest
        (valued id rest (slopes pre.getLast? rest)) := by
  intro rest
  induction rest with
  | nil => intro pre _; simp [valued]
  | cons p rest ih =>
    intro pre hpts
    have h2 := ih (pre ++ [p]) (by simpa using hpts)
    rw [List.getLast?_append, List.getLast?_singleton, Option.some_or] at h2
    refine .cons ⟨rfl, ?_⟩ h2
    have hprev := Accum.xPrevious_knot hs (n := 1 / 100000) (by norm_num) hm hpts hg
    have hms : (Crv.ofPoints s).minStep = none := by
      show s.minStep.map _ = none
      rw [Props.Honest.minStep hs]; rfl
    have hx : (Crv.ofPoints s).xPrevious (.fin p.1) (some Crv.MIN_STEP) none = .ok (pre.getLast?.map fun q => .fin q.1) := hprev
    have hy : ∀ q ∈ s.points, (Crv.ofPoints s).y (.fin q.1) = .ok (q.2.map .fin) := by
      intro q hq
      show (s.y _).map _ = _
      rw [Props.C01_stored_value hs hq]; rfl
    unfold Crv.dY
    simp only [hms, Crv.resolve, Bool.false_eq_true, if_false, hx]
    cases hl : pre.getLast? with
    | none => rfl
    | some q =>
      have hq : q ∈ s.points := by rw [hpts]; simp [List.mem_of_getLast? hl]
      have hgap := Accum.gapped_pair (hpts ▸ hg) hl
      obtain ⟨qx, qy⟩ := q
      obtain ⟨px, py⟩ := p
      have hy1 := hy _ hq
      have hy2 := hy (px, py) (by rw [hpts]; simp)
      simp only at hgap hy1 hy2
      simp only [bind, Except.bind, pure, Except.pure, Option.map_some, hy1, hy2]
      cases qy with
      | none => rfl
      | some y0 =>
        cases py with
        | none => rfl
        | some y =>
          have hne : qx ≠ px := by intro h; rw [h] at hgap; linarith
          have hne' : qx - px ≠ 0 := sub_ne_zero.2 hne
          have : ¬ (Ext.fin qx = Ext.fin px) := by simpa using hne
          simp only [Option.map_some, if_neg this, Num.sub, Num.neg, Num.add, Num.ofExt, Num.div]
          rw [if_neg (by rwa [← sub_eq_add_neg])]
          simp only [Option.map_some, id, Except.ok.injEq, Option.some.injEq, Num.fin.injEq]
          rw [← sub_eq_add_neg, ← sub_eq_add_neg, ← neg_sub y, ← neg_sub px, neg_div_neg_eq]

theorem decayed_snoc (a : ℚ) (l : List ℚ) (w : ℚ) (h : l ≠ []) :
    decayed a (l ++ [w]) = (1 - a) * decayed a l + a * w := by
  cases l with
  | nil => exact absurd rfl h
  | cons v vs => simp [decayed]

/-- The average over knots that all have a value. -/
theorem runRule_ema (a : ℚ) (l : List (Pt ℚ)) (vs : List ℚ) (h : l.map Prod.snd = vs.map some) (hne : l ≠ []) :
    ∃ out, runRule (plainRule (emaBy a)) [] [] l = (out, none) ∧ lastOut out = some (decayed a vs) := by
  induction l using List.reverseRecOn generalizing vs with
  | nil => exact absurd rfl hne
  | append_singleton l p ih =>
    rw [List.map_append] at h
    obtain ⟨ws, w', rfl, h1, h2⟩ := List.map_eq_append_iff.1 h.symm
    obtain ⟨w, w'', rfl, h3, h4⟩ := List.map_eq_cons_iff.1 h2
    have : w'' = [] := by simpa using h4
    subst this
    by_cases hl : l = []
    · subst hl
      have : ws = [] := by simpa using h1
      subst this
      refine ⟨[(p.1, some w)], Accum.runRule_snoc_ok (out := []) rfl (by simp [plainRule, emaBy, ← h3, lastOut]), rfl⟩
    · obtain ⟨out, h5, h6⟩ := ih ws h1.symm hl
      refine ⟨out ++ [(p.1, some (decayed a ws + a * (w - decayed a ws)))],
        Accum.runRule_snoc_ok h5 (by simp [plainRule, emaBy, ← h3, h6]), ?_⟩
      rw [Accum.lastOut_snoc, decayed_snoc]
      · show some _ = some _
        congr 1; ring
      · rintro rfl
        exact hl (by simpa using h1)

theorem maxVals_rise (s : Option ℚ) : Crv.maxVals [s.map .fin, some (.fin 0)] none = some (.fin (rise s)) := by
  cases s with
  | none => rfl
  | some q =>
    simp only [Option.map_some, Crv.maxVals, Num.lt, rise, decide_eq_true_eq]
    split_ifs with h
    · rw [max_eq_right h.le]
    · rw [max_eq_left (not_lt.1 h)]

theorem maxVals_fall (s : Option ℚ) :
    Crv.maxVals [(s.map (fun q => -q)).map .fin, some (.fin 0)] none = some (.fin (fall s)) := by
  rw [maxVals_rise]
  cases s <;> rfl

theorem Gapped.of_xs {m : ℚ} {l l' : List (Pt ℚ)} (h : l'.map Prod.fst = l.map Prod.fst) (hg : Gapped m l) : Gapped m l' := by
  have hg' : (l.map Prod.fst).IsChain (fun x y : ℚ => x + m ≤ y) := by
    rw [List.isChain_map]; exact hg
  rw [← h, List.isChain_map] at hg'
  exact hg'

theorem Fit.of_xs {m : ℚ} {u : Bool} {l l' : List (Pt ℚ)} (h : l'.map Prod.fst = l.map Prod.fst) (hf : Fit m u l) : Fit m u l' :=
  ⟨Gapped.of_xs h hf.gapped, NoFluke.of_xs h hf.noFluke, fun hu => EquallySpaced.of_xs h (hf.uniform hu)⟩

/-- The curves that are averaged have the rises and the falls as values of their knots. -/
theorem new_stepped {s : Pts ℚ} (hs : Honest s) (hne : s.points ≠ []) {degree m : ℚ} (hm : 1 / 100000 ≤ m)
    (hg : Gapped m s.points) {u : Bool} {R : Rsi} (e : Rsi.new (Crv.ofPoints s) degree m u = .ok R) :
    Stepped (fun x => ∃ p ∈ s.points, p.1 = x) m R.up (valued (fun q => some (rise q)) s.points (slopes none s.points)) ∧
    Stepped (fun x => ∃ p ∈ s.points, p.1 = x) m R.down (valued (fun q => some (fall q)) s.points (slopes none s.points)) := by
  have hm0 : 0 < m := lt_of_lt_of_le (by norm_num) hm
  have hlen := slopes_length none s.points
  have hms : (Crv.ofPoints s).minStep = none := by
    show s.minStep.map _ = none
    rw [Props.Honest.minStep hs]; rfl
  have hstep : Crv.mapStep none Crv.MIN_STEP ≤ .fin m := by
    simp only [Crv.mapStep, Crv.MIN_STEP, Ext.fin_le_fin]; exact hm
  obtain ⟨d, hd, e⟩ := bind_inv e
  obtain ⟨n, hn, e⟩ := bind_inv e
  have sd := stepped_map (stepped_points hs hne hm0 hg) hd (by rw [hms]; exact hstep) (dY_knot hs hm hg s.points [] rfl)
  have hdm : d.minStep = some Crv.MIN_STEP := by
    unfold Crv.differential Crv.map at hd
    rw [if_neg (by omega)] at hd
    cases hd
    simp only [hms, Crv.mapStep]
  have sn : Stepped (fun _ => True) m n (valued (fun q => q.map (fun q => -q)) s.points (slopes none s.points)) := by
    refine stepped_map sd hn ?_ ?_
    · rw [hdm]; simp only [Crv.mapStep, lt_irrefl, and_false, if_false, Crv.MIN_STEP, Ext.fin_le_fin]; exact hm
    · refine valued_forall₂ hlen ?_
      intro p _ s
      refine ⟨rfl, ?_⟩
      cases s <;> rfl
  have asc : ∀ f, Ascending (valued f s.points (slopes none s.points)) := fun f =>
    ascending_of_gapped hm0 (Gapped.of_xs (valued_xs hlen) hg)
  have hQ : ∀ f, (fun x => ∃ p ∈ valued f s.points (slopes none s.points), p.1 = x) = fun x => ∃ p ∈ s.points, p.1 = x := by
    intro f
    funext x
    have := valued_xs (f := f) hlen
    have h1 : (∃ p ∈ valued f s.points (slopes none s.points), p.1 = x) ↔ x ∈ (valued f s.points (slopes none s.points)).map Prod.fst := by
      simp
    have h2 : (∃ p ∈ s.points, p.1 = x) ↔ x ∈ s.points.map Prod.fst := by simp
    rw [eq_iff_iff, h1, h2, this]
  split_ifs at e
  · cases e
  · cases e
    constructor
    · rw [← hQ (fun q => some (rise q))]
      refine stepped_number sd (asc _) (fun _ _ => trivial) (.fin 0) _ (valued_forall₂ hlen ?_)
      intro p _ q
      exact ⟨rfl, congrArg _ (maxVals_rise q)⟩
    · rw [← hQ (fun q => some (fall q))]
      refine stepped_number sn (asc _) (fun _ _ => trivial) (.fin 0) _ (valued_forall₂ hlen ?_)
      intro p _ q
      exact ⟨rfl, congrArg _ (maxVals_fall q)⟩

/-- Histories of the index are histories of its averages. -/
theorem asked_parts {Q : ℚ → Prop} {c : Crv} {degree m : ℚ} {u : Bool} {R : Rsi} (h : RsiAsked Q c degree m u R) :
    ∃ R0, Rsi.new c degree m u = .ok R0 ∧ R.up = R0.up ∧ R.down = R0.down ∧ R.alpha = 1 / degree ∧
      Asked Q R0.up (emaBy (1 / degree)) m .linear u R.gains ∧ Asked Q R0.down (emaBy (1 / degree)) m .linear u R.losses := by
  induction h with
  | new e =>
    rename_i R
    have e0 := e
    obtain ⟨d, _, e⟩ := bind_inv e
    obtain ⟨n, _, e⟩ := bind_inv e
    split_ifs at e
    · cases e
    · cases e
      exact ⟨_, e0, rfl, rfl, rfl, .new, .new⟩
  | query _ hx e ih =>
    obtain ⟨R0, h0, h1, h2, h3, h4, h5⟩ := ih
    rename_i R S n x v _
    unfold Rsi.query at e
    split at e
    · cases e
    · cases e
    · rename_i G ug hg
      split at e
      · cases e
      · cases e
      · rename_i L ul hl
        rw [h1, h3] at hg
        rw [h2, h3] at hl
        cases hf : (formula R.up.dom R.down.dom ug ul).y (.fin x) with
        | error _ => rw [hf] at e; cases e
        | ok w =>
          rw [hf] at e
          simp only [Except.map, Option.some.injEq, Except.ok.injEq, Prod.mk.injEq] at e
          obtain ⟨rfl, rfl⟩ := e
          exact ⟨R0, h0, h1, h2, h3, .query h4 hx hg, .query h5 hx hl⟩

/-- The average of the rises, or of the falls, at a knot. -/
theorem accumulated_valued {f : Option ℚ → ℚ} {l : List (Pt ℚ)} (hasc : Ascending l) (a : ℚ) (i : Interp) {k : ℕ} {p : Pt ℚ}
    (hk : l[k]? = some p) :
    accumulatedAt (plainRule (emaBy a)) i (valued (fun q => some (f q)) l (slopes none l)) (.fin p.1) =
      .ok (some (decayed a ((slopes none (l.take (k + 1))).map f))) := by
  have hlen := slopes_length none l
  have hxs := valued_xs (f := fun q => some (f q)) hlen
  have hasc' : Ascending (valued (fun q => some (f q)) l (slopes none l)) := by
    have : (l.map Prod.fst).Pairwise (· < ·) := by rw [List.pairwise_map]; exact hasc
    rw [← hxs, List.pairwise_map] at this
    exact this
  obtain ⟨q, hq, hqp⟩ : ∃ q, (valued (fun q => some (f q)) l (slopes none l))[k]? = some q ∧ q.1 = p.1 := by
    have := congrArg (fun l => l[k]?) hxs
    simp only [List.getElem?_map, hk, Option.map_some] at this
    cases hv : (valued (fun q => some (f q)) l (slopes none l))[k]? with
    | none => rw [hv] at this; cases this
    | some q => rw [hv] at this; exact ⟨q, rfl, by simpa using this⟩
  have hsn : ((valued (fun q => some (f q)) l (slopes none l)).take (k + 1)).map Prod.snd =
      ((slopes none (l.take (k + 1))).map f).map some := by
    rw [List.map_take, valued_snds hlen, ← List.map_take, slopes_take, List.map_map]; rfl
  obtain ⟨out, h1, h2⟩ := runRule_ema a _ _ hsn (by
    intro h
    have h3 : ((valued (fun q => some (f q)) l (slopes none l)).take (k + 1))[k]? = some q := by
      rw [List.getElem?_take]; simp [hq]
    rw [h] at h3; cases h3)
  rw [← hqp, Accum.accumulatedAt_knot i hasc' hq h1, h2]

end Rsi

namespace Props
open Spec Pts CScan

theorem snd_inv {α β : Type} {o : Option (Except Err (α × β))} {v : β}
    (h : o.map (fun r => r.map Prod.snd) = some (.ok v)) : ∃ a, o = some (.ok (a, v)) := by
  cases o with
  | none => cases h
  | some r =>
    cases r with
    | error _ => cases h
    | ok p => obtain ⟨a, b⟩ := p; cases h; exact ⟨a, rfl⟩

/-- C95: the relative strength index at a point of the data, asked at points only, is the one computed from the
averages of the rises and of the falls up to it. -/
theorem C95_knots_partial {s : Pts ℚ} (hs : Honest s) {degree m : ℚ} (hm : 1 / 100000 ≤ m) (hd : 1 ≤ degree) {u : Bool}
    (hf : Fit m u s.points) {R : Rsi} (h : RsiAsked (fun x => ∃ p ∈ s.points, p.1 = x) (Crv.ofPoints s) degree m u R)
    {k : ℕ} {p : Pt ℚ} (hk : s.points[k]? = some p) {n : ℕ} (hn : s.points.length < n) :
    (R.query n (.fin p.1)).map (fun r => r.map Prod.snd) = some (.ok (some (.fin (strength
      (decayed (1 / degree) ((slopes none (s.points.take (k + 1))).map rise))
      (decayed (1 / degree) ((slopes none (s.points.take (k + 1))).map fall)))))) := by
  have hp := List.mem_of_getElem? hk
  have hne : s.points ≠ [] := List.ne_nil_of_mem hp
  have hm0 : 0 < m := lt_of_lt_of_le (by norm_num) hm
  have hlen := Rsi.slopes_length none s.points
  have kept := Rsi.Kept.asked hd h
  obtain ⟨R0, h0, h1, h2, h3, h4, h5⟩ := Rsi.asked_parts h
  obtain ⟨s1, s2⟩ := Rsi.new_stepped hs hne hm hf.gapped h0
  have q1 := C92_fold_partial hm0 s1 (Rsi.Fit.of_xs (Rsi.valued_xs hlen) hf) h4 ⟨p, hp, rfl⟩ (n := n)
    (by simpa [Rsi.valued, hlen] using hn)
  have q2 := C92_fold_partial hm0 s2 (Rsi.Fit.of_xs (Rsi.valued_xs hlen) hf) h5 ⟨p, hp, rfl⟩ (n := n)
    (by simpa [Rsi.valued, hlen] using hn)
  rw [Rsi.accumulated_valued hs.wf.asc _ _ hk] at q1 q2
  obtain ⟨G, hG⟩ := snd_inv q1
  obtain ⟨L, hL⟩ := snd_inv q2
  obtain ⟨d, hup⟩ := kept.up
  obtain ⟨d', hdn⟩ := kept.down
  have hk0 := keeps_ema Rsi.convex_nonneg (a := 1 / degree) (by positivity) (by rw [div_le_one (by linarith)]; exact hd)
  have g := (kept.gains.query (by rw [← h1, hup]; exact Rsi.maxZero_nonneg d) Rsi.convex_nonneg hk0 hG).2
  have l := (kept.losses.query (by rw [← h2, hdn]; exact Rsi.maxZero_nonneg d') Rsi.convex_nonneg hk0 hL).2
  have hin : (R.up.dom.contains (.fin p.1) && R.down.dom.contains (.fin p.1)) = true := by
    rw [h1, h2, s1.dom, s2.dom, span_xs (Rsi.valued_xs hlen), span_xs (Rsi.valued_xs hlen), ← getDomain_eq_span,
      getDomain_contains_mem hs.wf.asc hp]
    rfl
  unfold Rsi.query
  rw [h3]
  rw [h1, h2] at hin ⊢
  rw [hG]
  simp only
  rw [hL]
  simp only
  rw [Rsi.formula_y _ _ _ _ _ g l, if_pos hin]
  rfl

theorem decayed_zero (a : ℚ) {l : List ℚ} (h : ∀ v ∈ l, v = 0) : decayed a l = 0 := by
  induction l using List.reverseRecOn with
  | nil => rfl
  | append_singleton l w ih =>
    have hw : w = 0 := h w (by simp)
    by_cases hl : l = []
    · subst hl; simp [decayed, hw]
    · rw [Rsi.decayed_snoc a l w hl, ih (fun v hv => h v (by simp [hv])), hw]; ring

theorem fall_nonneg (s : Option ℚ) : 0 ≤ fall s := by cases s <;> simp [fall]

theorem decayed_pos {a : ℚ} (h0 : 0 < a) (h1 : a ≤ 1) {l : List ℚ} {w : ℚ} (hl : ∀ v ∈ l, 0 ≤ v) (hw : 0 < w) :
    0 < decayed a (l ++ [w]) := by
  have nn : ∀ l : List ℚ, (∀ v ∈ l, 0 ≤ v) → 0 ≤ decayed a l := by
    intro l
    induction l using List.reverseRecOn with
    | nil => intro _; exact le_refl _
    | append_singleton l w ih =>
      intro h
      by_cases hl : l = []
      · subst hl; exact h w (by simp)
      · rw [Rsi.decayed_snoc a l w hl]
        have h2 := ih (fun v hv => h v (by simp [hv]))
        have h3 := h w (by simp)
        have : 0 ≤ 1 - a := by linarith
        positivity
  by_cases h : l = []
  · subst h; exact hw
  · rw [Rsi.decayed_snoc a l w h]
    have h2 := nn l hl
    have : 0 ≤ 1 - a := by linarith
    positivity

variable {s : Pts ℚ} {degree m : ℚ} {u : Bool} {R : Rsi} {k n : ℕ} {p : Pt ℚ}

/-- C95: where the data never fell up to a point the index there is 100; in particular at the first point. -/
theorem C95_no_fall_partial (hs : Honest s) (hm : 1 / 100000 ≤ m) (hd : 1 ≤ degree)
    (hf : Fit m u s.points) (h : RsiAsked (fun x => ∃ p ∈ s.points, p.1 = x) (Crv.ofPoints s) degree m u R)
    (hk : s.points[k]? = some p) (hn : s.points.length < n)
    (hfall : ∀ q ∈ slopes none (s.points.take (k + 1)), ∀ v, q = some v → 0 ≤ v) :
    (R.query n (.fin p.1)).map (fun r => r.map Prod.snd) = some (.ok (some (.fin 100))) := by
  rw [C95_knots_partial hs hm hd hf h hk hn]
  have : decayed (1 / degree) ((slopes none (s.points.take (k + 1))).map fall) = 0 := by
    refine decayed_zero _ ?_
    intro v hv
    obtain ⟨q, hq, rfl⟩ := List.mem_map.1 hv
    cases q with
    | none => rfl
    | some w =>
      have := hfall _ hq w rfl
      simp only [fall]; exact max_eq_right (by linarith)
  rw [this]
  simp [strength]

/-- C95: where the data never rose up to a point at which they fell the index is 0. -/
theorem C95_no_rise_partial (hs : Honest s) (hm : 1 / 100000 ≤ m) (hd : 1 ≤ degree)
    (hf : Fit m u s.points) (h : RsiAsked (fun x => ∃ p ∈ s.points, p.1 = x) (Crv.ofPoints s) degree m u R)
    (hk : s.points[k]? = some p) (hn : s.points.length < n)
    (hrise : ∀ q ∈ slopes none (s.points.take (k + 1)), ∀ v, q = some v → v ≤ 0) {pre : List (Option ℚ)} {v : ℚ}
    (hlast : slopes none (s.points.take (k + 1)) = pre ++ [some v]) (hv : v < 0) :
    (R.query n (.fin p.1)).map (fun r => r.map Prod.snd) = some (.ok (some (.fin 0))) := by
  rw [C95_knots_partial hs hm hd hf h hk hn]
  have h1 : decayed (1 / degree) ((slopes none (s.points.take (k + 1))).map rise) = 0 := by
    refine decayed_zero _ ?_
    intro v hv
    obtain ⟨q, hq, rfl⟩ := List.mem_map.1 hv
    cases q with
    | none => rfl
    | some w =>
      have := hrise _ hq w rfl
      simp only [rise]; exact max_eq_right this
  have h2 : 0 < decayed (1 / degree) ((slopes none (s.points.take (k + 1))).map fall) := by
    rw [hlast, List.map_append, List.map_singleton]
    refine decayed_pos (by positivity) (by rw [div_le_one (by linarith)]; exact hd) ?_ ?_
    · intro w hw
      obtain ⟨q, _, rfl⟩ := List.mem_map.1 hw
      exact fall_nonneg q
    · simp only [fall]
      exact lt_of_lt_of_le (by linarith) (le_max_left _ _)
  simp only [strength, h1, if_neg h2.ne']
  norm_num

/-- C95: between the points the index depends on what was asked before, and with the default demand for equal spacing
it raises. -/
theorem C95_negation :
    sawRsi sawPts 2 true [] 2 = some (.ok (some (.fin 50))) ∧
    sawRsi sawPts 2 true [1 / 2] 2 = some (.error .nonRegular) ∧
    sawRsi sawPts 2 false [1 / 2] 2 = some (.ok (some (.fin 60))) ∧
    sawRsi sawPts 2 false [] 2 = some (.ok (some (.fin 50))) := by decide +kernel

/-- C95: constant data have the index 100, the same as data that only rise. -/
theorem C95_negation_constant :
    sawRsi [(0, some 5), (1, some 5), (2, some 5)] 2 true [] 2 = some (.ok (some (.fin 100))) ∧
    sawRsi [(0, some 5), (1, some 6), (2, some 7)] 2 true [] 2 = some (.ok (some (.fin 100))) := by decide +kernel

example : sawRsi sawPts 2 true [3, 0] 2 = some (.ok (some (.fin 50))) ∧
    strength (decayed (1 / 2) ((slopes none (sawPts.take 3)).map rise))
      (decayed (1 / 2) ((slopes none (sawPts.take 3)).map fall)) = 50 := by decide +kernel
example : sawRsi [(0, some 5), (1, some 4), (2, some 4), (3, some 1)] 14 true [1] 3 = some (.ok (some (.fin 0))) ∧
    slopes none ([(0, some 5), (1, some 4), (2, some 4), (3, some 1)] : List (Pt ℚ)) =
      [none, some (-1), some 0] ++ [some (-3)] := by decide +kernel

end Props
end Curvepy
