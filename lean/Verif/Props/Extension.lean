import Verif.Lemmas.Extension
import Verif.Props.Accumulator

/-!
# Properties C61, C71, C72: extensions
-/

namespace Curvepy
namespace Props
open Spec Extn

/-- C61: inside the domain of the curve an extension is the curve, whatever the extension holds. -/
theorem C61_inside {F : Type} (K : Kind F) (c : Crv) (s : Extn F) {x : Ext} (hx : c.dom.contains x = true) :
    Extn.y K c s x = (s, c.y x) := by
  simp only [Extn.y, hx, if_true]

/-! ## Constant -/

/-- The values beyond the edges of a constant extension. -/
def constLow (c : Crv) : Option (Ext → Option Num) := some fun _ => valueOr (c.y c.dom.lo)
def constHigh (c : Crv) : Option (Ext → Option Num) := some fun _ => valueOr (c.y c.dom.hi)

/-- The edges that are extended can be read; an empty curve is extended on both sides. -/
structure ConstGood (start stop : Bool) (c : Crv) : Prop where
  lo : start = true → c.dom.isEmpty = false → Quiet (c.y c.dom.lo)
  hi : stop = true → c.dom.isEmpty = false → Quiet (c.y c.dom.hi)
  empty : c.dom.isEmpty = true → start = true ∧ stop = true

theorem constant_does : Does Extn.constant constLow constHigh ConstGood (fun p q => p = true ∧ q = true) where
  init := ⟨rfl, rfl⟩
  keeps := by
    intro c s hg hi
    cases he : c.dom.isEmpty with
    | true =>
      obtain ⟨h1, h2⟩ := hg.empty he
      refine ⟨none, none, s.startValid, s.stopValid, ?_, hi, by simp, by simp⟩
      simp [Extn.constant, he, constantEmpty, h1, h2]
    | false =>
      have hlo : ∃ f, constantStart c s = ({ s with startF := f }, none) ∧
          (s.start = true → f = valueOr (c.y c.dom.lo)) := by
        unfold constantStart
        cases hs : s.start with
        | false => exact ⟨s.startF, by simp [← hs], by simp⟩
        | true =>
          obtain ⟨v, hv⟩ := hg.lo hs he
          exact ⟨v, by simp [hv, ← hs], by simp [hv, valueOr]⟩
      obtain ⟨f, hf, hf'⟩ := hlo
      have hhi : ∃ g, constantStop c { s with startF := f } = ({ s with startF := f, stopF := g }, none) ∧
          (s.stop = true → g = valueOr (c.y c.dom.hi)) := by
        unfold constantStop
        cases hs : s.stop with
        | false => exact ⟨s.stopF, by simp [← hs], by simp⟩
        | true =>
          obtain ⟨v, hv⟩ := hg.hi hs he
          exact ⟨v, by simp [hv, ← hs], by simp [hv, valueOr]⟩
      obtain ⟨g, hg', hg''⟩ := hhi
      refine ⟨f, g, s.startValid, s.stopValid, ?_, hi, ?_, ?_⟩
      · simp only [Extn.constant, he, Bool.false_eq_true, if_false, hf, andThen, hg']
      · intro _ hs
        rw [hi.1, if_pos rfl, hf' hs]
        rfl
      · intro _ hs
        rw [hi.2, if_pos rfl, hg'' hs]
        rfl

/-- C61: after any edits of the curve and any reads, a constant extension is the curve on its present
domain and its present edge values beyond it — provided edits that `is_in_extension` denies leave the
extended edges alone. -/
theorem C61_constant {c₀ : Crv} {start stop : Bool} {es : List ExtEvent}
    (h : Told (ConstGood (start && !c₀.dom.isNegInf) (stop && !c₀.dom.isPosInf))
      (SameEdges (start && !c₀.dom.isNegInf) (stop && !c₀.dom.isPosInf) constLow constHigh) c₀ es)
    (x : Ext) :
    let p := extRun Extn.constant (c₀, Extn.mk' Extn.constant c₀ start stop) es
    (Extn.y Extn.constant p.1 p.2 x).2 =
      extended p.1 (start && !c₀.dom.isNegInf) (stop && !c₀.dom.isPosInf)
        (some fun _ => valueOr (p.1.y p.1.dom.lo)) (some fun _ => valueOr (p.1.y p.1.dom.hi)) x := by
  intro p
  obtain ⟨h1, h2⟩ := Fresh.run constant_does es (fresh_mk constant_does c₀ start stop) h
  exact h1.value constant_does h2 x

/-! ## Tangent -/

def tanLow (step : ℚ) (c : Crv) : Option (Ext → Option Num) := tangentLine c (firstEdge step c.dom) true
def tanHigh (step : ℚ) (c : Crv) : Option (Ext → Option Num) := tangentLine c (lastEdge step c.dom) false

/-- The value and the slope at the edges that are extended can be read. -/
structure TanGood (step : ℚ) (start stop : Bool) (c : Crv) : Prop where
  lo : start = true → Quiet (c.y (firstEdge step c.dom)) ∧ Quiet (c.dY (firstEdge step c.dom) true)
  hi : stop = true → Quiet (c.y (lastEdge step c.dom)) ∧ Quiet (c.dY (lastEdge step c.dom) false)

theorem tangentAt_spec {c : Crv} {x : Ext} {fw : Bool} (h1 : Quiet (c.y x)) (h2 : Quiet (c.dY x fw)) :
    ∃ t, tangentAt c x fw = .ok t ∧ tangentLine c x fw = t.map fun t => fun u => some (t.at u) := by
  obtain ⟨v, hv⟩ := h1
  obtain ⟨d, hd⟩ := h2
  unfold tangentAt tangentLine
  rw [hv, hd]
  cases v <;> cases d <;> exact ⟨_, rfl, rfl⟩

theorem startEdge_eq (step : ℚ) (d : Iv) : startEdge step d = firstEdge step d := by
  simp only [startEdge, firstEdge, Bool.and_eq_true]

theorem stopEdge_eq (step : ℚ) (d : Iv) : stopEdge step d = lastEdge step d := by
  simp only [stopEdge, lastEdge, Bool.and_eq_true]

theorem tangent_does (step : ℚ) :
    Does (Extn.tangent step) (tanLow step) (tanHigh step) (TanGood step) (fun _ _ => True) where
  init := trivial
  keeps := by
    intro c s hg _
    have hlo : ∃ f p, tangentStart step c s = ({ s with startF := f, startValid := p }, none) ∧
        (s.start = true → tanLow step c = if p then some ((Extn.tangent step).value f) else none) := by
      unfold tangentStart
      cases hs : s.start with
      | false => exact ⟨s.startF, s.startValid, by simp [← hs], by simp⟩
      | true =>
        obtain ⟨h1, h2⟩ := hg.lo hs
        obtain ⟨t, ht, hl⟩ := tangentAt_spec h1 h2
        rw [startEdge_eq, ht]
        cases t with
        | none => exact ⟨s.startF, false, by simp [← hs], fun _ => by simpa [tanLow] using hl⟩
        | some t => exact ⟨t, true, by simp [← hs], fun _ => hl⟩
    obtain ⟨f, p, hf, hf'⟩ := hlo
    have hhi : ∃ g q, tangentStop step c { s with startF := f, startValid := p } =
        ({ s with startF := f, startValid := p, stopF := g, stopValid := q }, none) ∧
        (s.stop = true → tanHigh step c = if q then some ((Extn.tangent step).value g) else none) := by
      unfold tangentStop
      cases hs : s.stop with
      | false => exact ⟨s.stopF, s.stopValid, by simp [← hs], by simp⟩
      | true =>
        obtain ⟨h1, h2⟩ := hg.hi hs
        obtain ⟨t, ht, hl⟩ := tangentAt_spec h1 h2
        rw [stopEdge_eq, ht]
        cases t with
        | none => exact ⟨s.stopF, false, by simp [← hs], fun _ => by simpa [tanHigh] using hl⟩
        | some t => exact ⟨t, true, by simp [← hs], fun _ => hl⟩
    obtain ⟨g, q, hg1, hg2⟩ := hhi
    refine ⟨f, g, p, q, ?_, trivial, fun _ hs => hf' hs, fun _ hs => hg2 hs⟩
    simp only [Extn.tangent, hf, andThen, hg1]

/-- C61: after any edits and reads, a tangent extension is the curve on its present domain and, beyond an
extended edge, the line through the edge point with the slope there (towards the inside); `None` if the
curve has no value or no slope there. -/
theorem C61_tangent {c₀ : Crv} {step : ℚ} {start stop : Bool} {es : List ExtEvent}
    (h : Told (TanGood step (start && !c₀.dom.isNegInf) (stop && !c₀.dom.isPosInf))
      (SameEdges (start && !c₀.dom.isNegInf) (stop && !c₀.dom.isPosInf) (tanLow step) (tanHigh step))
      c₀ es) (x : Ext) :
    let p := extRun (Extn.tangent step) (c₀, Extn.mk' (Extn.tangent step) c₀ start stop) es
    (Extn.y (Extn.tangent step) p.1 p.2 x).2 =
      extended p.1 (start && !c₀.dom.isNegInf) (stop && !c₀.dom.isPosInf)
        (tangentLine p.1 (firstEdge step p.1.dom) true) (tangentLine p.1 (lastEdge step p.1.dom) false)
        x := by
  intro p
  obtain ⟨h1, h2⟩ := Fresh.run (tangent_does step) es (fresh_mk (tangent_does step) c₀ start stop) h
  exact h1.value (tangent_does step) h2 x

/-- At the edge itself, for finite numbers, the tangent has the value of the curve. -/
theorem C61_tangent_joins (x y d : ℚ) : lineThrough (.fin x) (.fin y) (.fin d) (.fin x) = .fin y := by
  simp [lineThrough, Num.add, Num.mul, Num.sub, Num.neg, Num.ofExt]

/-- A curve on `(0,1), (2,5), (4,4)`. -/
def evenCrv : Crv := Crv.ofPoints (loose [(0, some 1), (2, some 5), (4, some 4)])

example : (Extn.y Extn.constant evenCrv (Extn.mk' Extn.constant evenCrv) (.fin 7)).2 = .ok (some (.fin 4)) ∧
    (Extn.y Extn.constant evenCrv (Extn.mk' Extn.constant evenCrv) (.fin (-3))).2 = .ok (some (.fin 1)) ∧
    (Extn.y Extn.constant evenCrv (Extn.mk' Extn.constant evenCrv) (.fin 1)).2 = .ok (some (.fin 3)) ∧
    (Extn.y Extn.constant evenCrv (Extn.mk' Extn.constant evenCrv true false) (.fin 7)).2 = .ok none := by
  refine ⟨?_, ?_, ?_, ?_⟩ <;> decide +kernel
example : (Extn.y (Extn.tangent (1 / 100)) evenCrv (Extn.mk' (Extn.tangent (1 / 100)) evenCrv) (.fin 7)).2 =
      .ok (some (.fin (5 / 2))) ∧
    (Extn.y (Extn.tangent (1 / 100)) evenCrv (Extn.mk' (Extn.tangent (1 / 100)) evenCrv) (.fin (-3))).2 =
      .ok (some (.fin (-5))) := by
  refine ⟨?_, ?_⟩ <;> decide +kernel
example : Told (ConstGood true true) (SameEdges true true constLow constHigh) evenCrv
    [.read (.fin 7), .change (Crv.ofPoints (loose [(0, some 1), (2, some 5)])) true, .domain] := by
  refine ⟨?_, ?_, Or.inl rfl, ?_, ?_⟩ <;>
    refine ⟨fun _ _ => ?_, fun _ _ => ?_, fun h => absurd h (by decide +kernel)⟩
  · exact ⟨some (.fin 1), by decide +kernel⟩
  · exact ⟨some (.fin 4), by decide +kernel⟩
  · exact ⟨some (.fin 1), by decide +kernel⟩
  · exact ⟨some (.fin 4), by decide +kernel⟩
  · exact ⟨some (.fin 1), by decide +kernel⟩
  · exact ⟨some (.fin 5), by decide +kernel⟩
  · exact ⟨some (.fin 1), by decide +kernel⟩
  · exact ⟨some (.fin 5), by decide +kernel⟩

/-! ## C71: the domain -/

theorem unionAll_two (a b : Iv) (ha : a.isEmpty = false) : Iv.unionAll [a, b] = Iv.union a b := by
  cases hb : b.isEmpty with
  | true => simp [Iv.unionAll, Iv.union, ha, hb]
  | false => simp [Iv.unionAll, Iv.union, ha, hb]

theorem loLe_infinite (b : Iv) : Iv.loLe Iv.infinite b = true := by
  rw [Iv.loLe_iff]
  rcases (show Ext.ninf ≤ b.lo by cases b.lo <;> simp).lt_or_eq with h | h
  · exact Or.inl h
  · exact Or.inr ⟨h, Or.inl rfl⟩

theorem hiGe_infinite (b : Iv) : Iv.hiGe Iv.infinite b = true := by
  rw [Iv.hiGe_iff]
  rcases (show b.hi ≤ Ext.pinf by cases b.hi <;> simp).lt_or_eq with h | h
  · exact Or.inl h
  · exact Or.inr ⟨h.symm, Or.inl rfl⟩

theorem interRaw_infinite_left (b : Iv) : Iv.interRaw Iv.infinite b = b := by
  simp only [Iv.interRaw, loLe_infinite, hiGe_infinite, if_true]

theorem interRaw_infinite_right (b : Iv) : Iv.interRaw b Iv.infinite = b := by
  have h1 : Iv.loLe b Iv.infinite = true → Iv.infinite.lo = b.lo ∧ Iv.infinite.loOpen = b.loOpen := by
    rw [Iv.loLe_iff]
    rintro (h | ⟨h, h'⟩)
    · exact absurd h (by cases b.lo <;> simp [Iv.infinite])
    · refine ⟨h.symm, ?_⟩
      rcases h' with h' | h'
      · rw [h']; rfl
      · exact absurd h' (by decide)
  have h2 : Iv.hiGe b Iv.infinite = true → Iv.infinite.hi = b.hi ∧ Iv.infinite.hiOpen = b.hiOpen := by
    rw [Iv.hiGe_iff]
    rintro (h | ⟨h, h'⟩)
    · exact absurd h (by cases b.hi <;> simp [Iv.infinite])
    · refine ⟨h.symm, ?_⟩
      rcases h' with h' | h'
      · rw [h']; rfl
      · exact absurd h' (by decide)
  obtain ⟨lo, hi, lop, hop⟩ := b
  unfold Iv.interRaw
  cases e1 : Iv.loLe ⟨lo, hi, lop, hop⟩ Iv.infinite <;>
    cases e2 : Iv.hiGe ⟨lo, hi, lop, hop⟩ Iv.infinite <;> simp_all

theorem inter_infinite (b : Iv) (hb : b.isEmpty = false) : Iv.interAll [Iv.infinite, b] = b := by
  simp [Iv.interAll, Iv.inter, hb, interRaw_infinite_left, interRaw_infinite_right]

theorem interAll_isEmpty (b : Iv) (hb : b.isEmpty = true) : Iv.interAll [Iv.infinite, b] = Iv.empty := by
  simp [Iv.interAll, Iv.inter, hb]

theorem union_below {d : Iv} (hne : d.isEmpty = false) :
    Iv.unionAll [d, Iv.interAll [Iv.infinite, below d]] = reach d true false := by
  rw [unionAll_two _ _ hne]
  have hb : below d = ⟨.ninf, d.lo, false, !d.loOpen⟩ := by simp [below, hne]
  cases he : (below d).isEmpty with
  | true =>
    rw [interAll_isEmpty _ he]
    rw [hb, Iv.isEmpty_iff] at he
    have : d.lo = .ninf ∧ d.loOpen = false := by
      rcases he with h | ⟨h, h'⟩
      · exact absurd h (by cases d.lo <;> simp)
      · exact ⟨h.symm, by simpa using h'⟩
    rw [Iv.union_empty_right hne]
    obtain ⟨lo, hi, lop, hop⟩ := d
    simp only [reach, if_true, Bool.false_eq_true, if_false] at this ⊢
    rw [this.1, this.2]
  | false =>
    rw [inter_infinite _ he]
    have h1 : (if Iv.loLe d (below d) then d.lo else (below d).lo) = .ninf ∧
        (if Iv.loLe d (below d) then d.loOpen else (below d).loOpen) = false := by
      split
      · rename_i h
        rw [Iv.loLe_iff, hb] at h
        rcases h with h | ⟨h, h'⟩
        · exact absurd h (by cases d.lo <;> simp)
        · exact ⟨h, by simpa using h'⟩
      · rw [hb]; exact ⟨rfl, rfl⟩
    have h2 : (if Iv.hiGe d (below d) then d.hi else (below d).hi) = d.hi ∧
        (if Iv.hiGe d (below d) then d.hiOpen else (below d).hiOpen) = d.hiOpen := by
      split
      · exact ⟨rfl, rfl⟩
      · rename_i h
        exfalso
        apply h
        rw [Iv.hiGe_iff, hb]
        rcases (Iv.not_isEmpty_iff d).1 hne with h3 | ⟨h3, h4, h5⟩
        · exact Or.inl h3
        · exact Or.inr ⟨h3.symm, Or.inl (by simpa using h5)⟩
    unfold Iv.union reach
    simp only [hne, he, Bool.false_eq_true, if_false, if_true, h1.1, h1.2, h2.1, h2.2]

theorem union_above {d : Iv} (hne : d.isEmpty = false) :
    Iv.unionAll [d, Iv.interAll [Iv.infinite, above d]] = reach d false true := by
  rw [unionAll_two _ _ hne]
  have hb : above d = ⟨d.hi, .pinf, !d.hiOpen, false⟩ := by simp [above, hne]
  cases he : (above d).isEmpty with
  | true =>
    rw [interAll_isEmpty _ he]
    rw [hb, Iv.isEmpty_iff] at he
    have : d.hi = .pinf ∧ d.hiOpen = false := by
      rcases he with h | ⟨h, h'⟩
      · exact absurd h (by cases d.hi <;> simp)
      · exact ⟨h, by simpa using h'⟩
    rw [Iv.union_empty_right hne]
    obtain ⟨lo, hi, lop, hop⟩ := d
    simp only [reach, if_true, Bool.false_eq_true, if_false] at this ⊢
    rw [this.1, this.2]
  | false =>
    rw [inter_infinite _ he]
    have h1 : (if Iv.hiGe d (above d) then d.hi else (above d).hi) = .pinf ∧
        (if Iv.hiGe d (above d) then d.hiOpen else (above d).hiOpen) = false := by
      split
      · rename_i h
        rw [Iv.hiGe_iff, hb] at h
        rcases h with h | ⟨h, h'⟩
        · exact absurd h (by cases d.hi <;> simp)
        · exact ⟨h, by simpa using h'⟩
      · rw [hb]; exact ⟨rfl, rfl⟩
    have h2 : (if Iv.loLe d (above d) then d.lo else (above d).lo) = d.lo ∧
        (if Iv.loLe d (above d) then d.loOpen else (above d).loOpen) = d.loOpen := by
      split
      · exact ⟨rfl, rfl⟩
      · rename_i h
        exfalso
        apply h
        rw [Iv.loLe_iff, hb]
        rcases (Iv.not_isEmpty_iff d).1 hne with h3 | ⟨h3, h4, h5⟩
        · exact Or.inl h3
        · exact Or.inr ⟨h3, Or.inl (by simpa using h4)⟩
    unfold Iv.union reach
    simp only [hne, he, Bool.false_eq_true, if_false, if_true, h1.1, h1.2, h2.1, h2.2]

theorem interval_reach {F : Type} {c : Crv} {s : Extn F} (hne : c.dom.isEmpty = false) :
    Iv.unionAll [c.dom, interval c s] =
      reach c.dom (s.start && s.startValid) (s.stop && s.stopValid) := by
  have h0 : Iv.unionAll [c.dom, Iv.empty] = reach c.dom false false := by
    rw [unionAll_two _ _ hne, Iv.union_empty_right hne]
    rfl
  have h3 : Iv.unionAll [c.dom, Iv.unionAll [Iv.infinite, Iv.infinite]] = reach c.dom true true := by
    have h : Iv.unionAll [Iv.infinite, Iv.infinite] = Iv.infinite := by decide
    rw [unionAll_two _ _ hne, h]
    have h1 : (if Iv.loLe c.dom Iv.infinite then c.dom.lo else Iv.infinite.lo) = .ninf ∧
        (if Iv.loLe c.dom Iv.infinite then c.dom.loOpen else Iv.infinite.loOpen) = false := by
      split
      · rename_i h
        rw [Iv.loLe_iff] at h
        rcases h with h | ⟨h, h'⟩
        · exact absurd h (by cases c.dom.lo <;> simp [Iv.infinite])
        · exact ⟨h, by simpa [Iv.infinite] using h'⟩
      · exact ⟨rfl, rfl⟩
    have h2 : (if Iv.hiGe c.dom Iv.infinite then c.dom.hi else Iv.infinite.hi) = .pinf ∧
        (if Iv.hiGe c.dom Iv.infinite then c.dom.hiOpen else Iv.infinite.hiOpen) = false := by
      split
      · rename_i h
        rw [Iv.hiGe_iff] at h
        rcases h with h | ⟨h, h'⟩
        · exact absurd h (by cases c.dom.hi <;> simp [Iv.infinite])
        · exact ⟨h, by simpa [Iv.infinite] using h'⟩
      · exact ⟨rfl, rfl⟩
    unfold Iv.union reach
    simp only [hne, Iv.isEmpty_infinite, Bool.false_eq_true, if_false, if_true, h1.1, h1.2, h2.1, h2.2]
  unfold interval
  cases s.start <;> cases s.startValid <;> cases s.stop <;> cases s.stopValid <;>
    simp [h0, h3, union_below hne, union_above hne]

/-- C71: if the extension was not read before, or the curve was not edited since the last read beyond its
domain, `f.domain` is the domain of the curve, reaching to infinity where the curve is extended and can
be. -/
theorem fresh_domain {F : Type} {K : Kind F} {low high : Crv → Option (Ext → Option Num)}
    {good : Bool → Bool → Crv → Prop} {inv : Bool → Bool → Prop} {a b : Bool} {c : Crv} {s : Extn F}
    (hd : Does K low high good inv) (h : Fresh K low high inv a b c s) (hg : good a b c)
    (hne : c.dom.isEmpty = false) (hs : s.stale = false ∨ s.ivStale = true) :
    (Extn.domain K c s).2 = .ok (reach c.dom (a && (low c).isSome) (b && (high c).isSome)) := by
  have key : ∃ t, updateInterval K c s = (t, none) ∧ Right K low high c t ∧ t.start = a ∧ t.stop = b := by
    obtain ⟨h1, h2⟩ := h.updateInterval hd hg
    refine ⟨(updateInterval K c s).1, Prod.ext rfl h1, ?_, h2.start, h2.stop⟩
    suffices hst : (updateInterval K c s).1.stale = false by
      rcases h2.right with h3 | h3
      · rw [hst] at h3; cases h3
      · exact h3.2
    rcases hs with hs | hs
    · have hv : s.ivStale = false := by
        rcases h.right with h3 | h3
        · rw [hs] at h3; cases h3
        · exact h3.1
      simp [updateInterval, hv, hs]
    · have hst : s.stale = true := by
        rcases h.right with h3 | h3
        · exact h3
        · rw [hs] at h3; exact absurd h3.1 (by simp)
      have h0 : Fresh K low high inv a b c { s with ivStale := false } :=
        ⟨h.start, h.stop, h.inv, h.quiet, Or.inl hst⟩
      obtain ⟨h4, h5, h6⟩ := h0.update hd hg
      simp only [updateInterval, hs, Bool.not_true, Bool.false_eq_true, if_false, if_pos hst]
      cases hr : updateIfNeeded K c { s with ivStale := false } with
      | mk t o =>
        rw [hr] at h4 h6
        change o = none at h4
        subst h4
        exact h6
  obtain ⟨t, ht, ⟨h1, h2, h3⟩, ha, hb⟩ := key
  simp only [Extn.domain, ht, h3]
  rw [interval_reach hne]
  have e1 : (t.start && t.startValid) = (a && (low c).isSome) := by
    rw [← ha]
    cases hst : t.start with
    | false => rfl
    | true => rw [h1 hne hst]; cases t.startValid <;> rfl
  have e2 : (t.stop && t.stopValid) = (b && (high c).isSome) := by
    rw [← hb]
    cases hst : t.stop with
    | false => rfl
    | true => rw [h2 hne hst]; cases t.stopValid <;> rfl
  rw [e1, e2]

/-- C71 for constant extensions. -/
theorem C71_constant_partial {c₀ : Crv} {start stop : Bool} {es : List ExtEvent}
    (h : Told (ConstGood (start && !c₀.dom.isNegInf) (stop && !c₀.dom.isPosInf))
      (SameEdges (start && !c₀.dom.isNegInf) (stop && !c₀.dom.isPosInf) constLow constHigh) c₀ es) :
    let p := extRun Extn.constant (c₀, Extn.mk' Extn.constant c₀ start stop) es
    p.1.dom.isEmpty = false → p.2.stale = false ∨ p.2.ivStale = true →
    (Extn.domain Extn.constant p.1 p.2).2 =
      .ok (reach p.1.dom (start && !c₀.dom.isNegInf) (stop && !c₀.dom.isPosInf)) := by
  intro p hne hs
  obtain ⟨h1, h2⟩ := Fresh.run constant_does es (fresh_mk constant_does c₀ start stop) h
  have := fresh_domain constant_does h1 h2 hne hs
  simpa [constLow, constHigh] using this

/-- C71 for tangent extensions. -/
theorem C71_tangent_partial {c₀ : Crv} {step : ℚ} {start stop : Bool} {es : List ExtEvent}
    (h : Told (TanGood step (start && !c₀.dom.isNegInf) (stop && !c₀.dom.isPosInf))
      (SameEdges (start && !c₀.dom.isNegInf) (stop && !c₀.dom.isPosInf) (tanLow step) (tanHigh step))
      c₀ es) :
    let p := extRun (Extn.tangent step) (c₀, Extn.mk' (Extn.tangent step) c₀ start stop) es
    p.1.dom.isEmpty = false → p.2.stale = false ∨ p.2.ivStale = true →
    (Extn.domain (Extn.tangent step) p.1 p.2).2 =
      .ok (reach p.1.dom
        ((start && !c₀.dom.isNegInf) && (tangentLine p.1 (firstEdge step p.1.dom) true).isSome)
        ((stop && !c₀.dom.isPosInf) && (tangentLine p.1 (lastEdge step p.1.dom) false).isSome)) := by
  intro p hne hs
  obtain ⟨h1, h2⟩ := Fresh.run (tangent_does step) es (fresh_mk (tangent_does step) c₀ start stop) h
  exact fresh_domain (tangent_does step) h1 h2 hne hs

example : (Extn.domain Extn.constant evenCrv (Extn.mk' Extn.constant evenCrv)).2 = .ok Iv.infinite ∧
    (Extn.domain Extn.constant evenCrv (Extn.mk' Extn.constant evenCrv true false)).2 =
      .ok ⟨.ninf, .fin 4, false, false⟩ := by
  refine ⟨?_, ?_⟩ <;> decide +kernel

/-- A curve of one point, and the same after another was appended. -/
def shortCrv : Crv := Crv.ofPoints (loose [(0, some 0)])
def longCrv : Crv := Crv.ofPoints (loose [(0, some 0), (1, some 1)])

/-- C71 fails after an edit: the domain of the extension of a curve of one point was read; then a point was
appended and `is_in_extension` agreed.  The extension now has a value at 5, which is not in its domain. -/
theorem C71_negation :
    let K := Extn.tangent (1 / 100000)
    let p := extRun K (shortCrv, Extn.mk' K shortCrv) [.domain, .change longCrv true]
    (Extn.domain K p.1 p.2).2 = .ok (Iv.closed 0 1) ∧
      (Extn.y K p.1 p.2 (.fin 5)).2 = .ok (some (.fin 5)) ∧
      (Iv.closed 0 1).contains (.fin 5) = false := by
  refine ⟨?_, ?_, ?_⟩ <;> decide +kernel

/-- C71 fails for the empty curve: the domain of its constant extension is everything, its values are
`None`. -/
theorem C71_negation_empty (x : Ext) :
    let c := Crv.ofPoints (loose [])
    let s := Extn.mk' Extn.constant c
    (Extn.domain Extn.constant c s).2 = .ok Iv.infinite ∧
      (Extn.y Extn.constant c s x).2 = .ok none := by
  intro c s
  refine ⟨by decide +kernel, ?_⟩
  have hg : ConstGood true true c :=
    ⟨fun _ h => absurd h (by decide +kernel), fun _ h => absurd h (by decide +kernel), fun _ => ⟨rfl, rfl⟩⟩
  have hf := fresh_mk constant_does c true true
  have he : c.dom.isEmpty = true := by decide +kernel
  have h1 : (true && !c.dom.isNegInf) = true := by decide +kernel
  have h2 : (true && !c.dom.isPosInf) = true := by decide +kernel
  rw [h1, h2] at hf
  have h := hf.value constant_does hg x
  rw [h, extended, (Iv.isEmpty_iff_forall _).1 he x, he]
  simp

/-! ## C72: raise_on_empty -/

/-- C72 fails: with `raise_on_empty` the first read beyond the domain raises, for every curve, also if the
curve can be extended there. -/
theorem C72_negation {F : Type} {K : Kind F} {low high : Crv → Option (Ext → Option Num)}
    {good : Bool → Bool → Crv → Prop} {inv : Bool → Bool → Prop} (hd : Does K low high good inv) (c : Crv)
    (start stop : Bool) (hg : good (start && !c.dom.isNegInf) (stop && !c.dom.isPosInf) c)
    (hf : (start && !c.dom.isNegInf || stop && !c.dom.isPosInf) = true) {x : Ext}
    (hx : c.dom.contains x = false) :
    (Extn.y K c (Extn.mk' K c start stop true) x).2 = .error .exception := by
  obtain ⟨f, g, p, q, hu, -⟩ := hd.keeps c
    { Extn.mk' K c start stop true with stale := false, ivStale := true } hg hd.init
  simp only [Extn.y, hx, Bool.false_eq_true, if_false, updateIfNeeded]
  have h0 : (Extn.mk' K c start stop true).stale = true := rfl
  simp only [h0, Bool.not_true, Bool.false_eq_true, if_false, hu, check]
  have h1 : (Extn.mk' K c start stop true).iv = Iv.empty := rfl
  have h2 : Iv.empty.isNegInf = false := by decide
  have h3 : Iv.empty.isPosInf = false := by decide
  have h4 : (Extn.mk' K c start stop true).start = (start && !c.dom.isNegInf) := rfl
  have h5 : (Extn.mk' K c start stop true).stop = (stop && !c.dom.isPosInf) := rfl
  have h6 : (Extn.mk' K c start stop true).raiseOnEmpty = true := rfl
  simp only [h1, h2, h3, h4, h5, h6, Bool.not_false, Bool.and_true, hf, if_true]

/-- C72: without `raise_on_empty` reading an extension raises only if reading the curve does. -/
theorem C72_quiet_partial {F : Type} {K : Kind F} {low high : Crv → Option (Ext → Option Num)}
    {good : Bool → Bool → Crv → Prop} {inv : Bool → Bool → Prop} {a b : Bool} {c : Crv} {s : Extn F}
    (hd : Does K low high good inv) (h : Fresh K low high inv a b c s) (hg : good a b c) {x : Ext} {e : Err}
    (he : (Extn.y K c s x).2 = .error e) : c.dom.contains x = true ∧ c.y x = .error e := by
  rw [h.value hd hg, extended] at he
  split at he
  · exact ⟨by assumption, he⟩
  · split at he
    · cases he
    · split at he
      · cases he
      · split at he <;> cases he

example : (Extn.y Extn.constant evenCrv (Extn.mk' Extn.constant evenCrv true true true) (.fin 7)).2 =
    .error .exception := by decide +kernel
/-- Afterwards the same read gives `None`. -/
example : (Extn.y Extn.constant evenCrv
    (Extn.y Extn.constant evenCrv (Extn.mk' Extn.constant evenCrv true true true) (.fin 7)).1 (.fin 7)).2 =
    .ok none := by decide +kernel

end Props
end Curvepy
