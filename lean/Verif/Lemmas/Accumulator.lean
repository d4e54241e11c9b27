import Verif.Model.Accumulator
import Verif.Spec.Accumulator
import Verif.Props.PointsQuery

namespace Curvepy
open Spec Pts

/-! ## Lists -/

theorem EquallySpaced.prefix {a b : List (Pt ℚ)} (h : a <+: b) (hb : EquallySpaced b) :
    EquallySpaced a := by
  obtain ⟨d, hd⟩ := hb
  exact ⟨d, hd.prefix h⟩

theorem Fit.prefix {m : ℚ} {u : Bool} {a b : List (Pt ℚ)} (h : a <+: b) (hb : Fit m u b) :
    Fit m u a :=
  ⟨List.IsChain.prefix hb.gapped h, fun pre p q r hp => hb.noFluke pre p q r (hp.trans h),
    fun hu => EquallySpaced.prefix h (hb.uniform hu)⟩

theorem NoFluke.of_xs {a b : List (Pt ℚ)} (h : a.map Prod.fst = b.map Prod.fst) (hb : NoFluke b) :
    NoFluke a := by
  rintro pre p q r ⟨t, ht⟩ hg
  have hb' : b.map Prod.fst = p.1 :: (pre.map Prod.fst ++ [q.1, r.1]) ++ t.map Prod.fst := by
    rw [← h, ← ht]; simp
  obtain ⟨b1, b2, rfl, h1, -⟩ := List.map_eq_append_iff.1 hb'
  obtain ⟨p', b3, rfl, hp', h3⟩ := List.map_eq_cons_iff.1 h1
  obtain ⟨pre', b4, rfl, h4, h5⟩ := List.map_eq_append_iff.1 h3
  obtain ⟨q', b5, rfl, hq', h6⟩ := List.map_eq_cons_iff.1 h5
  obtain ⟨r', b6, rfl, hr', h7⟩ := List.map_eq_cons_iff.1 h6
  have : b6 = [] := by simpa using h7
  subst this
  have hlen : pre'.length = pre.length := by simpa using congrArg List.length h4
  refine EquallySpaced.of_xs (b := p' :: (pre' ++ [q', r'])) ?_ ?_
  · simp [hp', h4, hq', hr']
  · exact hb pre' p' q' r' ⟨b2, rfl⟩ (by rw [hp', hq', hr', hlen]; exact hg)

theorem ascending_of_gapped {m : ℚ} (hm : 0 < m) {pts : List (Pt ℚ)} (h : Gapped m pts) :
    Ascending pts := by
  have : pts.IsChain (fun p q => p.1 < q.1) := h.imp (fun p q hpq => by linarith)
  exact (List.isChain_iff_pairwise (R := fun p q : Pt ℚ => p.1 < q.1)).1 this

theorem ascending_ext {a b : List (Pt ℚ)} (ha : Ascending a) (hb : Ascending b)
    (h : ∀ p, p ∈ a ↔ p ∈ b) : a = b := by
  induction a generalizing b with
  | nil =>
    cases b with
    | nil => rfl
    | cons q qs => exact absurd ((h q).2 (by simp)) (by simp)
  | cons p ps ih =>
    cases b with
    | nil => exact absurd ((h p).1 (by simp)) (by simp)
    | cons q qs =>
      have ha' := List.pairwise_cons.1 ha
      have hb' := List.pairwise_cons.1 hb
      have hpq : p = q := by
        rcases List.mem_cons.1 ((h p).1 (by simp)) with h1 | h1
        · exact h1
        rcases List.mem_cons.1 ((h q).2 (by simp)) with h2 | h2
        · exact h2.symm
        have := hb'.1 p h1
        have := ha'.1 q h2
        linarith
      subst hpq
      congr 1
      refine ih ha'.2 hb'.2 fun r => ?_
      constructor
      · intro hr
        rcases List.mem_cons.1 ((h r).1 (by simp [hr])) with h1 | h1
        · subst h1; exact absurd (ha'.1 r hr) (lt_irrefl _)
        · exact h1
      · intro hr
        rcases List.mem_cons.1 ((h r).2 (by simp [hr])) with h1 | h1
        · subst h1; exact absurd (hb'.1 r hr) (lt_irrefl _)
        · exact h1

/-! ## The fold -/

theorem runRule_append (g : Rule) (seen out a b : List (Pt ℚ)) :
    runRule g seen out (a ++ b) =
      match runRule g seen out a with
      | (out', none) => runRule g (seen ++ a) out' b
      | (out', some e) => (out', some e) := by
  induction a generalizing seen out with
  | nil => simp [runRule]
  | cons p ps ih =>
    simp only [List.cons_append, runRule]
    cases hg : g (seen ++ [p]) out with
    | error e => rfl
    | ok v =>
      simp only
      rw [ih]
      simp

theorem runRule_xs {g : Rule} {seen out todo out' : List (Pt ℚ)}
    (h : runRule g seen out todo = (out', none)) :
    out'.map Prod.fst = out.map Prod.fst ++ todo.map Prod.fst := by
  induction todo generalizing seen out with
  | nil => simp only [runRule, Prod.mk.injEq, and_true] at h; subst h; simp
  | cons p ps ih =>
    simp only [runRule] at h
    cases hg : g (seen ++ [p]) out with
    | error e => rw [hg] at h; cases h
    | ok v =>
      rw [hg] at h
      rw [ih h]; simp

theorem runRule_prefix {g : Rule} {seen out todo out' : List (Pt ℚ)} {e : Option Err}
    (h : runRule g seen out todo = (out', e)) : out <+: out' := by
  induction todo generalizing seen out with
  | nil => simp only [runRule, Prod.mk.injEq] at h; rw [h.1]
  | cons p ps ih =>
    simp only [runRule] at h
    cases hg : g (seen ++ [p]) out with
    | error e' =>
      rw [hg] at h
      simp only [Prod.mk.injEq] at h
      rw [h.1]
    | ok v =>
      rw [hg] at h
      exact (List.prefix_append _ _).trans (ih h)

theorem upTo_prefix (x : ℚ) (pts : List (Pt ℚ)) : upTo x pts <+: pts := by
  induction pts with
  | nil => simp [upTo]
  | cons p ps ih =>
    unfold upTo
    split
    · exact List.cons_prefix_cons.2 ⟨rfl, ih⟩
    · exact List.cons_prefix_cons.2 ⟨rfl, List.nil_prefix⟩

/-- Knots below `x` are passed. -/
theorem upTo_append {x : ℚ} {a b : List (Pt ℚ)} (h : ∀ p ∈ a, p.1 < x) :
    upTo x (a ++ b) = a ++ upTo x b := by
  induction a with
  | nil => rfl
  | cons p ps ih =>
    simp only [List.cons_append, upTo, if_pos (h p (by simp))]
    rw [ih (fun q hq => h q (by simp [hq]))]

/-- Once a knot at or after `x` is reached, the rest does not matter. -/
theorem upTo_append_of_reached {x : ℚ} {a b : List (Pt ℚ)} (h : ∃ p ∈ a, x ≤ p.1) :
    upTo x (a ++ b) = upTo x a := by
  induction a with
  | nil => simp at h
  | cons p ps ih =>
    simp only [List.cons_append, upTo]
    split
    · rename_i hlt
      rw [ih]
      obtain ⟨q, hq, hxq⟩ := h
      rcases List.mem_cons.1 hq with rfl | hq
      · exact absurd hlt (not_lt.2 hxq)
      · exact ⟨q, hq, hxq⟩
    · rfl

theorem upTo_reaches {x : ℚ} {a : List (Pt ℚ)} (h : ∃ p ∈ a, x ≤ p.1) :
    ∃ p ∈ upTo x a, x ≤ p.1 := by
  induction a with
  | nil => simp at h
  | cons p ps ih =>
    simp only [upTo]
    split
    · rename_i hlt
      obtain ⟨q, hq, hxq⟩ := h
      rcases List.mem_cons.1 hq with rfl | hq
      · exact absurd hlt (not_lt.2 hxq)
      · obtain ⟨r, hr, hxr⟩ := ih ⟨q, hq, hxq⟩
        exact ⟨r, by simp [hr], hxr⟩
    · rename_i hlt
      exact ⟨p, by simp, not_lt.1 hlt⟩

/-! ## Appending to the accumulated points -/

theorem spacing_one {s : Pts ℚ} (hi : s.interval = intervalOf s.points) {a : Pt ℚ}
    {as : List (Pt ℚ)} (hs : s.points = a :: as) (p : Pt ℚ) :
    spacing s.interval s.points p [] = true ↔
      (as = [] ∨ ∃ pre q, as = pre ++ [q] ∧ p.1 - q.1 = (q.1 - a.1) / (pre.length + 1)) := by
  rcases List.eq_nil_or_concat as with rfl | ⟨pre, q, rfl⟩
  · simp [spacing, hs, hi, intervalOf]
  · have hiv : s.interval = some ((q.1 - a.1) / (pre.length + 1)) := by
      rw [hi, hs]
      cases pre with
      | nil => simp [intervalOf]
      | cons b bs => simp [intervalOf]
    rw [hiv, hs]
    have hlast : (a :: (pre.concat q)).getLast? = some q := by
      rw [List.concat_eq_append, ← List.cons_append, List.getLast?_append]; simp
    simp only [spacing, hlast, List.getLast_singleton, List.length_nil, Nat.cast_zero, zero_add,
      mul_one, decide_eq_true_eq]
    constructor
    · intro h
      refine Or.inr ⟨pre, q, by simp, by rw [h]; ring⟩
    · rintro (h | ⟨pre', q', h, h'⟩)
      · simp at h
      · rw [List.concat_eq_append] at h
        obtain ⟨rfl, h2⟩ := List.append_inj' h rfl
        cases h2
        linarith

theorem EquallySpaced.avg {p q r : Pt ℚ} {pre : List (Pt ℚ)}
    (h : EquallySpaced (p :: (pre ++ [q, r]))) : r.1 - q.1 = (q.1 - p.1) / (pre.length + 1) := by
  obtain ⟨d, hd⟩ := h
  have h1 : (p :: (pre ++ [q])).IsChain (fun p q : Pt ℚ => q.1 - p.1 = d) := by
    refine hd.prefix ⟨[r], by simp⟩
  have h2 := chain_eq_total p (pre ++ [q]) h1
  have h3 : r.1 - q.1 = d := by
    have : ((p :: pre) ++ [q, r]).IsChain (fun p q : Pt ℚ => q.1 - p.1 = d) := by simpa using hd
    have := (List.isChain_append.1 this).2.1
    simpa using this
  have h4 : (p :: (pre ++ [q])).getLast (by simp) = q := by
    rw [List.getLast_cons (by simp)]; simp
  rw [h4] at h2
  simp only [List.length_append, List.length_singleton] at h2
  push_cast at h2
  have hpos : (0 : ℚ) < pre.length + 1 := by positivity
  rw [h3, eq_div_iff hpos.ne']
  linarith

theorem append_fits {m : ℚ} {u : Bool} {s : Pts ℚ} (h : Honest s) (hf : s.force = u) {p : Pt ℚ}
    (hfit : Fit m u (s.points ++ [p])) (hlast : ∀ q ∈ s.points, q.1 < p.1) (r : Reads) :
    (s.append p r).err = none ∧ Honest (s.append p r).st ∧
      (s.append p r).st.points = s.points ++ [p] ∧ (s.append p r).st.interp = s.interp ∧
      (s.append p r).st.force = s.force := by
  have hl : (Op.append p).Legal := trivial
  have hrun : (Op.append p).run s r = s.append p r := rfl
  -- the check says yes exactly if the list is equally spaced
  cases hs : s.points with
  | nil =>
    have he : s.append p r = s.set [p] none r := by
      unfold append appendList
      split
      · rfl
      · rename_i h'; rw [hs] at h'; cases h'
    rcases set_none h.base (pts := [p]) (by simp [Ascending]) r with ⟨_, hc, _⟩ | ⟨_, hed, heq⟩
    · simp [setCheck, spacing] at hc
    · rw [he]
      refine ⟨hed.err, ?_, by rw [hed.points]; rfl, hed.interp, hed.force⟩
      rw [← he, ← hrun]
      refine .edit h hl (by rw [hrun, he, hed.err]; rfl) ?_
      intro _
      rw [hrun, he, hed.points]
      exact equallySpaced_of_length_le_two (by simp)
  | cons a as =>
    have hne : s.points ≠ [] := by rw [hs]; simp
    have hl1 : ((a :: as).getLast (by simp)).1 < p.1 :=
      hlast _ (by rw [hs]; exact List.getLast_mem _)
    have key : spacing s.interval s.points p [] = true → EquallySpaced (s.points ++ [p]) := by
      rw [spacing_one h.base.intv hs]
      rintro (rfl | ⟨pre, q, rfl, hq⟩)
      · rw [hs]; exact equallySpaced_of_length_le_two (by simp)
      · rw [hs]
        have : a :: (pre ++ [q]) ++ [p] = a :: (pre ++ [q, p]) := by simp
        rw [this]
        exact hfit.noFluke pre a q p (by rw [hs]; simp) hq
    have key2 : s.force = true → spacing s.interval s.points p [] = true := by
      intro hfo
      have hes := hfit.uniform (by rw [← hf]; exact hfo)
      rw [spacing_one h.base.intv hs]
      rcases List.eq_nil_or_concat as with rfl | ⟨pre, q, rfl⟩
      · exact Or.inl rfl
      · refine Or.inr ⟨pre, q, by simp, ?_⟩
        rw [hs] at hes
        have : a :: pre.concat q ++ [p] = a :: (pre ++ [q, p]) := by simp
        rw [this] at hes
        exact EquallySpaced.avg hes
    rcases appendList_cons (p := p) (ps := []) h.base r hs (by simp [Ascending]) hl1 with ⟨h1, h2, _⟩ | ⟨hn, hed, heq⟩
    · rw [key2 h1] at h2; cases h2
    · refine ⟨hed.err, ?_, by rw [← hs]; exact hed.points, hed.interp, hed.force⟩
      rw [← hrun]
      refine .edit h hl (by rw [hrun]; show lateError (s.appendList [p] r).err = false; rw [hed.err]; rfl) ?_
      intro hu
      rw [hrun] at hu ⊢
      have hpts : (s.append p r).st.points = s.points ++ [p] := hed.points
      rw [hpts]
      apply key
      by_cases hfo : s.force = true
      · exact key2 hfo
      · have hfo' : (s.append p r).st.force = s.force := hed.force
        have heq' : (s.append p r).st.equal = spacing s.interval s.points p [] := heq
        unfold isUniform at hu
        rw [hfo', if_neg hfo, heq'] at hu
        exact hu

/-! ## Clearing the accumulated points -/

theorem reset_none_ok {s : Pts ℚ} (h : Honest s) (r : Reads) :
    (s.reset none r).err = none ∧ Honest (s.reset none r).st ∧ (s.reset none r).st.points = [] ∧
      (s.reset none r).st.interp = s.interp ∧ (s.reset none r).st.force = s.force := by
  have hrun : (Op.reset none).run s r = s.reset none r := rfl
  have hl : (Op.reset none : Op ℚ).Legal := trivial
  by_cases hp : s.points.length = 0
  · have : s.reset none r = ⟨s, [], none⟩ := by simp only [reset, hp, if_true]
    rw [this]
    exact ⟨rfl, h, List.length_eq_zero_iff.1 hp, rfl, rfl⟩
  · have he : s.reset none r = s.set [] none r := by simp only [reset, hp, if_false]
    rcases set_none h.base (pts := []) List.Pairwise.nil r with ⟨_, hc, _⟩ | ⟨_, hed, _⟩
    · simp [setCheck] at hc
    · rw [he]
      refine ⟨hed.err, ?_, hed.points, hed.interp, hed.force⟩
      rw [← he, ← hrun]
      refine .edit h hl (by rw [hrun, he, hed.err]; rfl) ?_
      intro _
      rw [hrun, he, hed.points]
      exact equallySpaced_of_length_le_two (by simp)

theorem reset_after {s : Pts ℚ} (h : Honest s) {d : Iv}
    (hd : ∀ p ∈ s.points, d.geLo (.fin p.1) = false) (r : Reads) :
    s.reset (some d) r = ⟨s, [], none⟩ ∨ s.reset (some d) r = ⟨s.touch, [], none⟩ := by
  rcases reset_some h.base h.wf d r with ⟨_, h2⟩ | ⟨_, hne, _⟩ | ⟨_, hne, _⟩
  · exact h2
  all_goals
    exfalso
    apply hne
    unfold dropInside
    rw [List.filter_eq_self]
    intro p hp
    have := hd p hp
    have : d.contains (.fin p.1) = false := by
      by_contra hc
      have := ((Iv.contains_iff _ _).1 (by simpa using hc)).1
      rw [hd p hp] at this; cases this
    simp [this]

end Curvepy
