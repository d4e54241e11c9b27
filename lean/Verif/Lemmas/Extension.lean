import Verif.Spec.Extension
import Verif.Lemmas.Interval

namespace Curvepy
namespace Extn
open Spec
variable {F : Type}

/-- What `update_extension` of a kind achieves: `low c`, `high c` are the functions wanted below and above
`c`, `good c start stop` says that `c` can be processed. -/
structure Does (K : Kind F) (low high : Crv → Option (Ext → Option Num)) (good : Bool → Bool → Crv → Prop)
    (inv : Bool → Bool → Prop) : Prop where
  init : inv true true
  keeps : ∀ c s, good s.start s.stop c → inv s.startValid s.stopValid →
    ∃ f g p q, K.update c s = ({ s with startF := f, stopF := g, startValid := p, stopValid := q }, none) ∧
      inv p q ∧
      (c.dom.isEmpty = false → s.start = true →
        low c = if p then some (K.value f) else none) ∧
      (c.dom.isEmpty = false → s.stop = true →
        high c = if q then some (K.value g) else none)

/-- The functions and the interval are those for `c`. -/
def Right (K : Kind F) (low high : Crv → Option (Ext → Option Num)) (c : Crv) (s : Extn F) : Prop :=
  (c.dom.isEmpty = false → s.start = true →
    low c = if s.startValid then some (K.value s.startF) else none) ∧
  (c.dom.isEmpty = false → s.stop = true →
    high c = if s.stopValid then some (K.value s.stopF) else none) ∧
  s.iv = interval c s

/-- The invariant. -/
structure Fresh (K : Kind F) (low high : Crv → Option (Ext → Option Num)) (inv : Bool → Bool → Prop)
    (start stop : Bool) (c : Crv) (s : Extn F) : Prop where
  start : s.start = start
  stop : s.stop = stop
  inv : inv s.startValid s.stopValid
  quiet : s.raiseOnEmpty = false
  right : s.stale = true ∨ s.ivStale = false ∧ Right K low high c s

variable {K : Kind F} {low high : Crv → Option (Ext → Option Num)} {good : Bool → Bool → Crv → Prop}
  {inv : Bool → Bool → Prop} {a b : Bool} {c c' : Crv} {s : Extn F}

theorem check_none (h : s.raiseOnEmpty = false) : check s = none := by simp [check, h]

theorem interval_congr {s t : Extn F} (h1 : s.start = t.start) (h2 : s.stop = t.stop)
    (h3 : s.startValid = t.startValid) (h4 : s.stopValid = t.stopValid) :
    interval c s = interval c t := by
  simp only [interval, h1, h2, h3, h4]

theorem Fresh.update (hd : Does K low high good inv) (h : Fresh K low high inv a b c s) (hg : good a b c) :
    (updateIfNeeded K c s).2 = none ∧ Fresh K low high inv a b c (updateIfNeeded K c s).1 ∧
      (updateIfNeeded K c s).1.stale = false := by
  unfold updateIfNeeded
  cases hs : s.stale with
  | false => exact ⟨rfl, h, hs⟩
  | true =>
    obtain ⟨f, g, p, q, hu, hi, hl, hh⟩ := hd.keeps c { s with stale := false, ivStale := true }
      (by simpa only [h.start, h.stop] using hg) h.inv
    simp only [Bool.not_true, Bool.false_eq_true, if_false, hu]
    rw [check_none (by exact h.quiet)]
    simp only [setInterval]
    rw [check_none (by exact h.quiet)]
    refine ⟨rfl, ⟨h.start, h.stop, hi, h.quiet, Or.inr ⟨rfl, hl, hh, ?_⟩⟩, trivial⟩
    exact interval_congr rfl rfl rfl rfl

theorem Fresh.updateInterval (hd : Does K low high good inv) (h : Fresh K low high inv a b c s)
    (hg : good a b c) :
    (updateInterval K c s).2 = none ∧ Fresh K low high inv a b c (updateInterval K c s).1 := by
  unfold Extn.updateInterval
  cases hv : s.ivStale with
  | false => exact ⟨rfl, h⟩
  | true =>
    have hst : s.stale = true := by
      rcases h.right with h1 | h1
      · exact h1
      · rw [hv] at h1; exact absurd h1.1 (by simp)
    have h0 : Fresh K low high inv a b c { s with ivStale := false } :=
      ⟨h.start, h.stop, h.inv, h.quiet, Or.inl hst⟩
    obtain ⟨h1, h2, h3⟩ := h0.update hd hg
    simp only [Bool.not_true, Bool.false_eq_true, if_false, if_pos hst]
    cases hr : updateIfNeeded K c { s with ivStale := false } with
    | mk t o =>
      rw [hr] at h1 h2 h3
      change o = none at h1
      subst h1
      simp only [setInterval]
      rw [check_none (by exact h2.quiet)]
      rcases h2.right with h4 | h4
      · rw [h3] at h4; cases h4
      · exact ⟨rfl, h2.start, h2.stop, h2.inv, h2.quiet,
          Or.inr ⟨h4.1, h4.2.1, h4.2.2.1, interval_congr rfl rfl rfl rfl⟩⟩

theorem Right.same (hs : SameEdges a b low high c c') (h1 : s.start = a) (h2 : s.stop = b)
    (h : Right K low high c s) : Right K low high c' s := by
  refine ⟨fun he hst => ?_, fun he hst => ?_, ?_⟩
  · rw [hs.empty] at he
    rw [hs.low (h1 ▸ hst) he]
    exact h.1 he hst
  · rw [hs.empty] at he
    rw [hs.high (h2 ▸ hst) he]
    exact h.2.1 he hst
  · rw [h.2.2]
    have hb : s.start = true → below c'.dom = below c.dom := by
      intro hst
      obtain ⟨e1, e2⟩ := hs.lo (h1 ▸ hst)
      simp only [below, hs.empty, e1, e2]
    have ha : s.stop = true → above c'.dom = above c.dom := by
      intro hst
      obtain ⟨e1, e2⟩ := hs.hi (h2 ▸ hst)
      simp only [above, hs.empty, e1, e2]
    unfold interval
    cases e1 : s.start <;> cases e2 : s.stop <;> simp only [e1, e2, forall_const] at ha hb <;>
      simp [*]

theorem fresh_mk (hd : Does K low high good inv) (c : Crv) (x y : Bool) :
    Fresh K low high inv (x && !c.dom.isNegInf) (y && !c.dom.isPosInf) c (mk' K c x y) :=
  ⟨rfl, rfl, hd.init, rfl, Or.inl rfl⟩

theorem Fresh.step (hd : Does K low high good inv) (h : Fresh K low high inv a b c s) (hg : good a b c)
    (e : ExtEvent) (hgo : ∀ c' f, e = .change c' f →
      good a b c' ∧ (f = true ∨ SameEdges a b low high c c')) :
    Fresh K low high inv a b (extStep K (c, s) e).1 (extStep K (c, s) e).2 := by
  cases e with
  | read x =>
    obtain ⟨h1, h2, -⟩ := h.update hd hg
    simp only [extStep, y]
    split
    · exact h
    · split
      · rename_i t e he; rw [he] at h2; exact h2
      · rename_i t he; rw [he] at h2; exact h2
  | domain =>
    obtain ⟨h1, h2⟩ := h.updateInterval hd hg
    simp only [extStep, domain]
    split
    · rename_i t e he; rw [he] at h2; exact h2
    · rename_i t he; rw [he] at h2; exact h2
  | change c' f =>
    obtain ⟨h1, h2⟩ := hgo c' f rfl
    simp only [extStep, sourceEnd]
    cases f with
    | true =>
      have h0 : Fresh K low high inv a b c' { s with stale := true } :=
        ⟨h.start, h.stop, h.inv, h.quiet, Or.inl rfl⟩
      exact (h0.updateInterval hd h1).2
    | false =>
      have hse := h2.resolve_left (by simp)
      refine ⟨h.start, h.stop, h.inv, h.quiet, ?_⟩
      rcases h.right with h3 | h3
      · exact Or.inl h3
      · exact Or.inr ⟨h3.1, h3.2.same hse h.start h.stop⟩

theorem Fresh.run (hd : Does K low high good inv) (es : List ExtEvent) :
    ∀ {c s}, Fresh K low high inv a b c s → Told (good a b) (SameEdges a b low high) c es →
      Fresh K low high inv a b (extRun K (c, s) es).1 (extRun K (c, s) es).2 ∧
        good a b (extRun K (c, s) es).1 := by
  induction es with
  | nil => intro c s h ht; exact ⟨h, ht⟩
  | cons e es ih =>
    intro c s h ht
    have : good a b c ∧ (∀ c' f, e = .change c' f → (f = true ∨ SameEdges a b low high c c')) ∧
        Told (good a b) (SameEdges a b low high) (extStep K (c, s) e).1 es := by
      cases e with
      | read x => exact ⟨ht.1, by simp, ht.2⟩
      | domain => exact ⟨ht.1, by simp, ht.2⟩
      | change c' f =>
        refine ⟨ht.1, ?_, ht.2.2⟩
        intro c1 f1 h1
        cases h1
        exact ht.2.1
    have hhead : ∀ {c1 : Crv} {es1 : List ExtEvent}, Told (good a b) (SameEdges a b low high) c1 es1 →
        good a b c1 := by
      intro c1 es1 h1
      cases es1 with
      | nil => exact h1
      | cons e1 es1 => cases e1 <;> exact h1.1
    refine ih (h.step hd this.1 e ?_) this.2.2
    intro c' f hc
    subst hc
    exact ⟨hhead this.2.2, this.2.1 c' f rfl⟩

theorem contains_below {d : Iv} (hne : d.isEmpty = false) (x : Ext) :
    (below d).contains x = true ↔ x < d.lo ∨ x = d.lo ∧ d.loOpen = true := by
  rw [below, if_neg (by simp [hne]), Iv.contains_iff, Iv.geLo_iff, Iv.leHi_iff]
  constructor
  · rintro ⟨-, h | ⟨h1, h2⟩⟩
    · exact Or.inl h
    · exact Or.inr ⟨h1, by simpa using h2⟩
  · intro h
    refine ⟨?_, ?_⟩
    · cases x <;> simp
    · rcases h with h | ⟨h1, h2⟩
      · exact Or.inl h
      · exact Or.inr ⟨h1, by simpa using h2⟩

theorem contains_above {d : Iv} (hne : d.isEmpty = false) (x : Ext) :
    (above d).contains x = true ↔ d.hi < x ∨ x = d.hi ∧ d.hiOpen = true := by
  rw [above, if_neg (by simp [hne]), Iv.contains_iff, Iv.geLo_iff, Iv.leHi_iff]
  constructor
  · rintro ⟨h | ⟨h1, h2⟩, -⟩
    · exact Or.inl h
    · exact Or.inr ⟨h1.symm, by simpa using h2⟩
  · intro h
    refine ⟨?_, ?_⟩
    · rcases h with h | ⟨h1, h2⟩
      · exact Or.inl h
      · exact Or.inr ⟨h1.symm, by simpa using h2⟩
    · cases x <;> simp

theorem below_of_le {d : Iv} (hne : d.isEmpty = false) {x : Ext} (hx : x ≤ d.lo)
    (hn : d.contains x = false) : (below d).contains x = true := by
  rw [contains_below hne]
  rcases hx.lt_or_eq with h | h
  · exact Or.inl h
  · refine Or.inr ⟨h, ?_⟩
    by_contra ho
    rw [Bool.not_eq_true] at ho
    rw [← Bool.not_eq_true, Iv.contains_iff, Iv.geLo_iff, Iv.leHi_iff] at hn
    refine hn ⟨Or.inr ⟨h.symm, ho⟩, ?_⟩
    rcases (Iv.not_isEmpty_iff d).1 hne with h1 | ⟨h1, h2, h3⟩
    · exact Or.inl (h ▸ h1)
    · exact Or.inr ⟨h.trans h1, h3⟩

theorem above_of_le {d : Iv} (hne : d.isEmpty = false) {x : Ext} (hx : d.hi ≤ x)
    (hn : d.contains x = false) : (above d).contains x = true := by
  rw [contains_above hne]
  rcases hx.lt_or_eq with h | h
  · exact Or.inl h
  · refine Or.inr ⟨h.symm, ?_⟩
    by_contra ho
    rw [Bool.not_eq_true] at ho
    rw [← Bool.not_eq_true, Iv.contains_iff, Iv.geLo_iff, Iv.leHi_iff] at hn
    refine hn ⟨?_, Or.inr ⟨h.symm, ho⟩⟩
    rcases (Iv.not_isEmpty_iff d).1 hne with h1 | ⟨h1, h2, h3⟩
    · exact Or.inl (h ▸ h1)
    · exact Or.inr ⟨h1.trans h, h2⟩

theorem not_above_of_le {d : Iv} (hne : d.isEmpty = false) {x : Ext} (hx : x ≤ d.lo) :
    (above d).contains x = false := by
  rw [← Bool.not_eq_true, contains_above hne]
  rcases (Iv.not_isEmpty_iff d).1 hne with h1 | ⟨h1, h2, h3⟩
  · rintro (h | ⟨h, -⟩)
    · exact absurd (h.trans_le hx) h1.asymm
    · exact absurd (hx.trans_lt h1) (h ▸ lt_irrefl _)
  · rintro (h | ⟨h, h4⟩)
    · exact absurd (h.trans_le hx) (h1 ▸ lt_irrefl _)
    · rw [h3] at h4; cases h4

theorem not_below_of_le {d : Iv} (hne : d.isEmpty = false) {x : Ext} (hx : d.hi ≤ x) :
    (below d).contains x = false := by
  rw [← Bool.not_eq_true, contains_below hne]
  rcases (Iv.not_isEmpty_iff d).1 hne with h1 | ⟨h1, h2, h3⟩
  · rintro (h | ⟨h, -⟩)
    · exact absurd (hx.trans_lt h) h1.asymm
    · exact absurd (h1.trans_le hx) (h ▸ lt_irrefl _)
  · rintro (h | ⟨h, h4⟩)
    · exact absurd (hx.trans_lt h) (h1 ▸ lt_irrefl _)
    · rw [h2] at h4; cases h4

theorem contains_union_infinite (x : Ext) :
    (Iv.unionAll [Iv.infinite, Iv.infinite]).contains x = true := by
  have h : Iv.unionAll [Iv.infinite, Iv.infinite] = Iv.infinite := by decide
  rw [h, Iv.contains_infinite]

theorem interval_lo (hst : s.start = true) (hne : c.dom.isEmpty = false) {x : Ext}
    (hx : x ≤ c.dom.lo) (hn : c.dom.contains x = false) : (interval c s).contains x = s.startValid := by
  unfold interval
  have h1 := below_of_le hne hx hn
  have h2 := not_above_of_le hne hx
  cases s.startValid <;> cases s.stop <;> cases s.stopValid <;>
    simp [hst, Iv.contains_interAll, h1, h2, contains_union_infinite]

theorem interval_hi (hst : s.stop = true) (hne : c.dom.isEmpty = false) {x : Ext}
    (hx : c.dom.hi ≤ x) (hn : c.dom.contains x = false) : (interval c s).contains x = s.stopValid := by
  unfold interval
  have h1 := above_of_le hne hx hn
  have h2 := not_below_of_le hne hx
  cases s.startValid <;> cases s.start <;> cases s.stopValid <;>
    simp [hst, Iv.contains_interAll, h1, h2, contains_union_infinite]

theorem Fresh.value (hd : Does K low high good inv) (h : Fresh K low high inv a b c s) (hg : good a b c)
    (x : Ext) : (y K c s x).2 = extended c a b (low c) (high c) x := by
  unfold y extended
  cases hn : c.dom.contains x with
  | true => rfl
  | false =>
    obtain ⟨h1, h2, h3⟩ := h.update hd hg
    cases hr : updateIfNeeded K c s with
    | mk t o =>
      rw [hr] at h1 h2 h3
      change o = none at h1
      subst h1
      obtain ⟨-, hl, hh, hiv⟩ := h2.right.resolve_left (by rw [h3]; simp)
      simp only [Bool.false_eq_true, if_false, yExtension]
      cases he : c.dom.isEmpty with
      | true => simp
      | false =>
        change t.iv = interval c t at hiv
        simp only [Bool.false_eq_true, if_false, hiv]
        have hs1 := h2.start
        have hs2 := h2.stop
        change t.start = a at hs1
        change t.stop = b at hs2
        by_cases hlo : a = true ∧ x ≤ c.dom.lo
        · have ht : t.start = true := hs1.trans hlo.1
          rw [if_pos hlo, interval_lo ht he hlo.2 hn, hl he ht, if_pos (show (t.start && decide (x ≤ c.dom.lo)) = true by simp [ht, hlo.2])]
          cases t.startValid <;> rfl
        · rw [if_neg hlo]
          have hlo' : ¬ (t.start && decide (x ≤ c.dom.lo)) = true := by
            rw [hs1]; simpa using hlo
          rw [if_neg hlo']
          by_cases hhi : b = true ∧ c.dom.hi ≤ x
          · have ht : t.stop = true := hs2.trans hhi.1
            rw [if_pos hhi, interval_hi ht he hhi.2 hn, hh he ht, if_pos (show (t.stop && decide (c.dom.hi ≤ x)) = true by simp [ht, hhi.2])]
            cases t.stopValid <;> rfl
          · have hhi' : ¬ (t.stop && decide (c.dom.hi ≤ x)) = true := by
              rw [hs2]; simpa using hhi
            rw [if_neg hhi, if_neg hhi', ite_self]

end Extn
end Curvepy
